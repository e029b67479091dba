import Verif.InlModel

/-!
# Folding what is known, and hoisting the members of namespaces

`src/core/transform/fuse.rs`, `src/core/transform/hoist.rs` and what they use of `src/core/expr.rs`.

Simplifications: source locations and demands are left out.  An expression that has not changed is not told from an equal
one (`ptr_eq`).  `fuse` is given a number of levels it may go down, and is `none` if that is not enough.  A map from names to
names is a list in which the first entry counts.
-/

namespace Verif.Fuse
open Verif.Inl
variable {K : Type}

/-! ## Walking -/

def mapExps (f : Exp K → Option (Exp K)) : Exps K → Option (Exps K)
  | .nil => some .nil
  | .cons x xs => (f x).bind fun y => (mapExps f xs).map (.cons y)

def mapBinds (f : Exp K → Option (Exp K)) : Binds K → Option (Binds K)
  | .nil => some .nil
  | .cons n x rest => (f x).bind fun y => (mapBinds f rest).map (.cons n y)

/-- `RcExpr::try_walk_safe`, core/expr.rs:1025-1170. -/
def walk (f : Exp K → Option (Exp K)) : Exp K → Option (Exp K)
  | .let_ t bs b => (mapBinds f bs).bind fun bs' => (f b).map (.let_ t bs')
  | .lam i ps b => (f b).map (.lam i ps)
  | .app g xs => (f g).bind fun g' => (mapExps f xs).map (.app g')
  | .metaOf x m => (f x).bind fun x' => (f m).map (.metaOf x')
  | .node k xs => (mapExps f xs).map (.node k)
  | .var v => some (.var v)
  | .lit p => some (.lit p)
  | .intrinsic n => some (.intrinsic n)

/-! ## Fusing -/

/-- `block_map.get(key)`. -/
def member [DecidableEq K] (k : K) : List K → Exps K → Option (Exp K)
  | k' :: ks, .cons x xs => if k' = k then some x else member k ks xs
  | _, _ => none

/-- `fold_block_lookup`, fuse.rs:21-32. -/
def foldLookup [DecidableEq K] : Exp K → Option (Exp K)
  | .node (.lookup k) (.cons (.node (.block ks) xs) .nil) => member k ks xs
  | .node (.lookupOr k) (.cons (.node (.block ks) xs) (.cons d .nil)) => match member k ks xs with
    | some x => some x
    | none => some d
  | _ => none

/-- `fold_head_call`, fuse.rs:37-50. -/
def foldHead : Exp K → Option (Exp K)
  | .app (.intrinsic n) (.cons (.node .list xs) .nil) => if n = "HEAD" then match xs with
    | .cons x _ => some x
    | .nil => none
    else none
  | _ => none

/-- `fold_tail_call`, fuse.rs:56-70. -/
def foldTail : Exp K → Option (Exp K)
  | .app (.intrinsic n) (.cons (.node .list xs) .nil) => if n = "TAIL" then match xs with
    | .cons _ xs => some (.node .list xs)
    | .nil => none
    else none
  | _ => none

/-- fuse.rs:80-82. -/
def fold [DecidableEq K] (x : Exp K) : Option (Exp K) := (foldLookup x).or ((foldHead x).or (foldTail x))

/-- `fuse`, fuse.rs:75-88. -/
def fuse [DecidableEq K] : Nat → Exp K → Option (Exp K)
  | 0, _ => none
  | n + 1, x => (walk (fuse n) x).bind fun r => match fold r with
    | some y => fuse n y
    | none => some r

/-! ## Hoisting -/

/-- `Hoistable`, hoist.rs:45-49. -/
structure Hoistable (K : Type) where
  ns : String
  member : String
  expr : Exp K

/-- `strip_meta`, hoist.rs:56-61. -/
def stripMeta : Exp K → Exp K
  | .metaOf x _ => stripMeta x
  | x => x

/-- `is_hoistable_kind`, hoist.rs:66-71. -/
def hoistableKind (x : Exp K) : Bool := match stripMeta x with
  | .lam true _ _ => true
  | .intrinsic _ => true
  | _ => false

mutual
/-- `free_vars`, core/expr.rs: the names that are free. -/
def freeVars : Exp K → List String
  | .var (.free n) => [n]
  | .var _ => []
  | .let_ _ bs b => freeVarsB bs ++ freeVars b
  | .lam _ _ b => freeVars b
  | .app f xs => freeVars f ++ freeVarsL xs
  | .lit _ => []
  | .intrinsic _ => []
  | .metaOf x m => freeVars x ++ freeVars m
  | .node _ xs => freeVarsL xs
def freeVarsL : Exps K → List String
  | .nil => []
  | .cons x xs => freeVars x ++ freeVarsL xs
def freeVarsB : Binds K → List String
  | .nil => []
  | .cons _ x rest => freeVars x ++ freeVarsB rest
end

/-- `collect_hoistable_from_ns`, hoist.rs:82-126. -/
def collectNs (ns : String) (x : Exp K) : List (Hoistable K) := match stripMeta x with
  | .let_ .defaultBlock bs b =>
    let opened := (openLet bs b).1
    opened.filterMap fun p =>
      if hoistableKind p.2 && !(freeVars p.2).any fun v => (opened.map (·.1)).contains v then some ⟨ns, p.1, stripMeta p.2⟩
      else none
  | _ => []

/-- `collect_all_hoistable_rec`, hoist.rs:137-195.  The bindings of a block are opened before they are gone into, those of other
lets and the bodies are not (lines 140, 151 and 154-158).  The number is of the levels that may be gone down. -/
def collect : Nat → Exp K → List (Hoistable K)
  | 0, _ => []
  | n + 1, .let_ .defaultBlock bs b =>
    ((openLet bs b).1.flatMap fun p => collectNs p.1 p.2 ++ collect n p.2) ++ collect n b
  | n + 1, .let_ _ bs b => (bs.list.flatMap fun p => collect n p.2) ++ collect n b
  | n + 1, .lam _ _ b => collect n b
  | n + 1, .app f xs => collect n f ++ xs.list.flatMap (collect n)
  | n + 1, .metaOf x m => collect n x ++ collect n m
  | n + 1, .node .operator _ => []
  | n + 1, .node _ xs => xs.list.flatMap (collect n)
  | _, _ => []

/-- `hoisted_name`, hoist.rs:198-200. -/
def hoistedName (ns m : String) : String := "__" ++ ns ++ "_" ++ m

abbrev Table (K : Type) := List ((String × K) × String)

def Table.get [DecidableEq K] (t : Table K) (ns : String) (k : K) : Option String := (t.find? (·.1 = (ns, k))).map (·.2)

mutual
/-- `rewrite_lookups`, hoist.rs:208-228. -/
def rewrite [DecidableEq K] (t : Table K) : Exp K → Exp K
  | .var v => .var v
  | .let_ ty bs b => .let_ ty (rewriteB t bs) (rewrite t b)
  | .lam i ps b => .lam i ps (rewrite t b)
  | .app f xs => .app (rewrite t f) (rewriteL t xs)
  | .lit p => .lit p
  | .intrinsic n => .intrinsic n
  | .metaOf x m => .metaOf (rewrite t x) (rewrite t m)
  | .node k xs => match k, xs with
    | .lookup m, .cons (.var (.free ns)) .nil => match t.get ns m with
      | some g => .var (.free g)
      | none => .node (.lookup m) (.cons (.var (.free ns)) .nil)
    | .lookupOr m, .cons (.var (.free ns)) (.cons d .nil) => match t.get ns m with
      | some g => .var (.free g)
      | none => .node (.lookupOr m) (.cons (.var (.free ns)) (.cons (rewrite t d) .nil))
    | k, xs => .node k (rewriteL t xs)
def rewriteL [DecidableEq K] (t : Table K) : Exps K → Exps K
  | .nil => .nil
  | .cons x xs => .cons (rewrite t x) (rewriteL t xs)
def rewriteB [DecidableEq K] (t : Table K) : Binds K → Binds K
  | .nil => .nil
  | .cons n x rest => .cons n (rewrite t x) (rewriteB t rest)
end

/-- hoist.rs:282-290 and 242-248: the first to be found of those with the same namespace and name counts.  `key` is how a name
is looked up. -/
def tableOf [DecidableEq K] (key : String → K) : List (Hoistable K) → Table K × List (String × Exp K) → Table K × List (String × Exp K)
  | [], acc => acc
  | h :: hs, (t, bs) =>
    if (t.get h.ns (key h.member)).isSome then tableOf key hs (t, bs)
    else tableOf key hs (t ++ [((h.ns, key h.member), hoistedName h.ns h.member)], bs ++ [(hoistedName h.ns h.member, h.expr)])

/-- The name of a global taken apart at the first underscore, hoist.rs:300-312. -/
def split (name : List Char) : Option (List Char × List Char) := match name with
  | '_' :: '_' :: rest =>
    let ns := rest.takeWhile (· ≠ '_')
    match rest.drop ns.length with
    | _ :: m => if ns = [] ∨ m = [] then none else some (ns, m)
    | [] => none
  | _ => none

/-- hoist.rs:300-312, the names of the globals being in some order. -/
def seed [DecidableEq K] (key : String → K) (t : Table K) : List String → Table K
  | [] => t
  | g :: gs => match split g.toList with
    | some (ns, m) => if (t.get (String.ofList ns) (key (String.ofList m))).isSome then seed key t gs
      else seed key (t ++ [((String.ofList ns, key (String.ofList m)), g)]) gs
    | none => seed key t gs

/-- `hoist_with_blob_globals`, hoist.rs:274-342. -/
def hoist [DecidableEq K] (key : String → K) (globals : List String) (levels : Nat) (x : Exp K) : Exp K :=
  let (t, bs) := tableOf key (collect levels x) ([], [])
  let t := seed key t globals
  if t.isEmpty then x
  else if bs.isEmpty then rewrite t x
  else closeLet bs (rewrite t x)

end Verif.Fuse
