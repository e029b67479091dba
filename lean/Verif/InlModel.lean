import Verif.CompModel

/-!
# The inliner

`src/core/inline/tag.rs`, `src/core/inline/reduce.rs`, what they use of `src/core/expr.rs` and `src/core/transform/succ.rs`, and
`inline`, `src/driver/source.rs:1031-1035`.

Simplifications: source locations are left out, and with them `retag_call_site` (reduce.rs:267-274); so are demands, which are
not known yet when this runs.  Numbers do not overflow.  Sets of names are lists.  An expression that has not changed is not
told from an equal one (`ptr_eq`), so that `pre_expand_inlines` always does all of its rounds; those it would leave out change
nothing.  `distribute` is given a number of levels it may go down, and is `none` if that is not enough.
-/

namespace Verif.Inl
open Verif.Comp

/-- `Var` and `BoundVar`, core/binding.rs:44-59. -/
inductive Var where
  | free (name : String)
  | bound (scope binder : Nat) (hint : Option String)
  deriving DecidableEq

/-- `LetType`, core/expr.rs:166-173. -/
inductive LetType where
  | defaultBlock | other | destructureBlock | destructureList
  deriving DecidableEq

/-- The expressions that bind nothing and are treated alike here: lists, blocks (the keys in order), lookups without and with
a fallback, operators, and those the compiler refuses (`Soup`, `ArgTuple`, names, anaphora and errors). -/
inductive Kind (K : Type) where
  | list
  | block (keys : List K)
  | lookup (key : K)
  | lookupOr (key : K)
  | operator
  | other

mutual
/-- `Expr`, core/expr.rs:328-379.  The flag of a function says whether it is inlinable. -/
inductive Exp (K : Type) where
  | var (v : Var)
  | let_ (type : LetType) (bs : Binds K) (body : Exp K)
  | lam (inl : Bool) (params : List String) (body : Exp K)
  | app (f : Exp K) (args : Exps K)
  | lit (p : Prim K)
  | intrinsic (name : String)
  | metaOf (body m : Exp K)
  | node (kind : Kind K) (xs : Exps K)
inductive Exps (K : Type) where
  | nil
  | cons (x : Exp K) (xs : Exps K)
/-- `Vec<CoreBinding>`, core/binding.rs:14-24. -/
inductive Binds (K : Type) where
  | nil
  | cons (name : String) (x : Exp K) (rest : Binds K)
end

variable {K : Type}

def Exps.list : Exps K → List (Exp K)
  | .nil => []
  | .cons x xs => x :: xs.list

def Exps.of : List (Exp K) → Exps K
  | [] => .nil
  | x :: xs => .cons x (Exps.of xs)

def Binds.list : Binds K → List (String × Exp K)
  | .nil => []
  | .cons n x rest => (n, x) :: rest.list

def Binds.of : List (String × Exp K) → Binds K
  | [] => .nil
  | (n, x) :: rest => .cons n x (Binds.of rest)

def Binds.names (bs : Binds K) : List String := bs.list.map (·.1)

/-! ## Traversals -/

mutual
/-- The shape shared by `open_expr_vars`, `close_expr_vars`, `substs`, `substs_depth` and `succ`: every variable is replaced,
knowing how many scopes have been entered. -/
def Exp.trav (f : Nat → Var → Exp K) (d : Nat) : Exp K → Exp K
  | .var v => f d v
  | .let_ t bs b => .let_ t (bs.trav f (d + 1)) (b.trav f (d + 1))
  | .lam i ps b => .lam i ps (b.trav f (d + 1))
  | .app g xs => .app (g.trav f d) (xs.trav f d)
  | .lit p => .lit p
  | .intrinsic n => .intrinsic n
  | .metaOf x m => .metaOf (x.trav f d) (m.trav f d)
  | .node k xs => .node k (xs.trav f d)
def Exps.trav (f : Nat → Var → Exp K) (d : Nat) : Exps K → Exps K
  | .nil => .nil
  | .cons x xs => .cons (x.trav f d) (xs.trav f d)
def Binds.trav (f : Nat → Var → Exp K) (d : Nat) : Binds K → Binds K
  | .nil => .nil
  | .cons n x rest => .cons n (x.trav f d) (rest.trav f d)
end

/-- `open_expr_vars` at a variable, core/expr.rs:1641-1663. -/
def openVar (names : List String) (d : Nat) : Var → Exp K
  | .free n => .var (.free n)
  | .bound s i h =>
    if s = d then .var (.free ((names[i]?.or h).getD "_"))
    else if d < s then .var (.bound (s - 1) i h)
    else .var (.bound s i h)

/-- `close_expr_vars` at a variable, core/expr.rs:1578-1600. -/
def closeVar (names : List String) (d : Nat) : Var → Exp K
  | .free n => match names.findIdx? (· == n) with
    | some i => .var (.bound d i (some n))
    | none => .var (.free n)
  | .bound s i h => if d ≤ s then .var (.bound (s + 1) i h) else .var (.bound s i h)

/-- `mappings.iter().find(|(n, _)| n == name)`. -/
def findName (m : List (String × Exp K)) (n : String) : Option (Exp K) := (m.find? (·.1 == n)).map (·.2)

/-- `RcExpr::substs`, core/expr.rs:1192-1200: nothing is done about the scopes entered. -/
def substs (m : List (String × Exp K)) (x : Exp K) : Exp K := x.trav (fun _ v => match v with
  | .free n => (findName m n).getD (.var (.free n))
  | v => .var v) 0

/-- `encounter_succ`, core/transform/succ.rs:18-24 and 69-79. -/
def succVar (d : Nat) : Var → Exp K
  | .free n => .var (.free n)
  | .bound s i h => if d ≤ s then .var (.bound (s + 1) i h) else .var (.bound s i h)

/-- `succ`, core/transform/succ.rs:9-11. -/
def succ (x : Exp K) : Exp K := x.trav succVar 0

/-- Lines 36-39 of reduce.rs. -/
def succs : Nat → Exp K → Exp K
  | 0, x => x
  | n + 1, x => succs n (succ x)

/-- `substs_depth`, reduce.rs:24-85. -/
def substsDepth (m : List (String × Exp K)) (x : Exp K) : Exp K := x.trav (fun d v => match v with
  | .free n => match findName m n with
    | some r => succs d r
    | none => .var (.free n)
  | v => .var v) 0

/-- `open_let_scope_full`, core/expr.rs:1492-1505. -/
def openLet (bs : Binds K) (b : Exp K) : List (String × Exp K) × Exp K :=
  (bs.list.map fun p => (p.1, p.2.trav (openVar bs.names) 0), b.trav (openVar bs.names) 0)

/-- `open_lam_scope`, core/expr.rs:1508-1511. -/
def openLam (ps : List String) (b : Exp K) : Exp K := b.trav (openVar ps) 0

/-- `close_let_scope`, core/expr.rs:1449-1461, made a let. -/
def closeLet (bs : List (String × Exp K)) (b : Exp K) : Exp K :=
  .let_ .other (.of (bs.map fun p => (p.1, p.2.trav (closeVar (bs.map (·.1))) 0))) (b.trav (closeVar (bs.map (·.1))) 0)

/-! ## Tagging -/

/-- `closed_body`, tag.rs:200-208. -/
def closedBody : Exp K → Bool
  | .var (.bound s _ _) => s == 0
  | .lit _ => true
  | .intrinsic _ => true
  | .app f xs => closedBody f && all xs
  | _ => false
where all : Exps K → Bool
  | .nil => true
  | .cons x xs => closedBody x && all xs

/-- `destructuring`, tag.rs:214-227. -/
def destructuring (ps : List String) : Exp K → Bool
  | .let_ .destructureBlock _ _ => ps.length == 1
  | .let_ .destructureList _ _ => ps.length == 1
  | _ => false

/-- `head_is_param_at`, tag.rs:159-165. -/
def headIsParam (d : Nat) : Exp K → Bool
  | .var (.bound s _ _) => s == d
  | .app g _ => headIsParam d g
  | _ => false

mutual
/-- `applies_own_param`, tag.rs:135-155. -/
def appliesParam (d : Nat) : Exp K → Bool
  | .lam _ _ b => appliesParam (d + 1) b
  | .let_ _ bs b => appliesParamB (d + 1) bs || appliesParam (d + 1) b
  | .app f xs => headIsParam d f || appliesParam d f || appliesParamL d xs
  | .metaOf x m => appliesParam d x || appliesParam d m
  | .node _ xs => appliesParamL d xs
  | _ => false
def appliesParamL (d : Nat) : Exps K → Bool
  | .nil => false
  | .cons x xs => appliesParam d x || appliesParamL d xs
def appliesParamB (d : Nat) : Binds K → Bool
  | .nil => false
  | .cons _ x rest => appliesParam d x || appliesParamB d rest
end

mutual
/-- `references_name`, tag.rs:171-177. -/
def refersTo (n : String) : Exp K → Bool
  | .var (.free m) => m == n
  | .var (.bound _ _ h) => h == some n
  | .lam _ _ b => refersTo n b
  | .let_ _ bs b => refersToB n bs || refersTo n b
  | .app f xs => refersTo n f || refersToL n xs
  | .metaOf x m => refersTo n x || refersTo n m
  | .node _ xs => refersToL n xs
  | _ => false
def refersToL (n : String) : Exps K → Bool
  | .nil => false
  | .cons x xs => refersTo n x || refersToL n xs
def refersToB (n : String) : Binds K → Bool
  | .nil => false
  | .cons _ x rest => refersTo n x || refersToB n rest
end

mutual
/-- `node_count`, tag.rs:180-185. -/
def nodes : Exp K → Nat
  | .lam _ _ b => 1 + nodes b
  | .let_ _ bs b => 1 + nodesB bs + nodes b
  | .app f xs => 1 + nodes f + nodesL xs
  | .metaOf x m => 1 + nodes x + nodes m
  | .node _ xs => 1 + nodesL xs
  | _ => 1
def nodesL : Exps K → Nat
  | .nil => 0
  | .cons x xs => nodes x + nodesL xs
def nodesB : Binds K → Nat
  | .nil => 0
  | .cons _ x rest => nodes x + nodesB rest
end

/-- `recursive_combinator`, tag.rs:96-100, with `MAX_COPY_BODY_NODES`, tag.rs:13. -/
def recursiveCombinator (self : String) (b : Exp K) : Bool :=
  appliesParam 0 b && refersTo self b && decide (nodes b ≤ 48)

mutual
/-- `tag_combinators_named`, tag.rs:35-89. -/
def tag (self : Option String) : Exp K → Exp K
  | .lam false ps b =>
    if closedBody b || destructuring ps b then .lam true ps b
    else if self.any (recursiveCombinator · b) then .lam true ps (tag none b)
    else .lam false ps (tag none b)
  | .lam true ps b => .lam true ps (tag none b)
  | .metaOf x m => .metaOf (tag self x) (tag none m)
  | .let_ t bs b => .let_ t (tagB bs) (tag none b)
  | .app f xs => .app (tag none f) (tagL xs)
  | .node k xs => .node k (tagL xs)
  | .var v => .var v
  | .lit p => .lit p
  | .intrinsic n => .intrinsic n
def tagL : Exps K → Exps K
  | .nil => .nil
  | .cons x xs => .cons (tag none x) (tagL xs)
def tagB : Binds K → Binds K
  | .nil => .nil
  | .cons n x rest => .cons n (tag (some n) x) (tagB rest)
end

/-! ## Distribution -/

/-- `inlinable`, reduce.rs:93-95. -/
def inlinable : Exp K → Bool
  | .lam true _ _ => true
  | .intrinsic _ => true
  | _ => false

/-- `peel_meta`, reduce.rs:114-119. -/
def peelMeta : Exp K → Exp K
  | .metaOf x _ => peelMeta x
  | x => x

/-- Lines 183-189 of reduce.rs. -/
def inlines (bs : List (String × Exp K)) : List (String × Exp K) :=
  bs.filterMap fun p => if inlinable (peelMeta p.2) then some (p.1, peelMeta p.2) else none

/-- One round of `pre_expand_inlines`, reduce.rs:149-160. -/
def expandRound (m : List (String × Exp K)) : List (String × Exp K) :=
  m.map fun p => (p.1, substs (m.filter fun q => !(q.1 == p.1)) p.2)

def rounds : Nat → List (String × Exp K) → List (String × Exp K)
  | 0, m => m
  | n + 1, m => rounds n (expandRound m)

/-- `pre_expand_inlines`, reduce.rs:146-167. -/
def preExpand (m : List (String × Exp K)) : List (String × Exp K) := rounds m.length m

def Exps.mapM (f : Exp K → Option (Exp K)) : Exps K → Option (Exps K)
  | .nil => some .nil
  | .cons x xs => match f x with
    | none => none
    | some y => match xs.mapM f with
      | none => none
      | some ys => some (.cons y ys)

/-- The bindings of a let that is distributed, reduce.rs:196-205. -/
def mapBindings (f : Exp K → Option (Exp K)) : List (String × Exp K) → Option (List (String × Exp K))
  | [] => some []
  | (n, x) :: rest => match f x with
    | none => none
    | some y => match mapBindings f rest with
      | none => none
      | some ys => some ((n, y) :: ys)

/-- `distribute`, reduce.rs:170-219, going down no more than so many levels. -/
def distribute : Nat → Exp K → Option (Exp K)
  | 0, _ => none
  | fuel + 1, .let_ t bs b =>
    let (os, ob) := openLet bs b
    let m := preExpand (inlines os)
    if m.isEmpty then some (.let_ t bs b)
    else match mapBindings (fun x => distribute fuel (substs m x)) os with
      | none => none
      | some os' => match distribute fuel (substs m ob) with
        | none => none
        | some b' => some (closeLet os' b')
  | fuel + 1, .lam i ps b => match distribute fuel b with
    | none => none
    | some b' => some (.lam i ps b')
  | fuel + 1, .app f xs => match distribute fuel f with
    | none => none
    | some f' => match xs.mapM (distribute fuel) with
      | none => none
      | some xs' => some (.app f' xs')
  | fuel + 1, .metaOf x m => match distribute fuel x with
    | none => none
    | some x' => match distribute fuel m with
      | none => none
      | some m' => some (.metaOf x' m')
  | fuel + 1, .node k xs => match xs.mapM (distribute fuel) with
    | none => none
    | some xs' => some (.node k xs')
  | _ + 1, x => some x

/-! ## Beta reduction -/

/-- `duplicable`, reduce.rs:229-234. -/
def duplicable : Exp K → Bool
  | .var _ => true
  | .lit _ => true
  | .intrinsic _ => true
  | _ => false

mutual
/-- `visit_free_vars`, core/expr.rs:1782-1829: the free names, as often as they occur. -/
def frees : Exp K → List String
  | .var (.free n) => [n]
  | .var (.bound ..) => []
  | .let_ _ bs b => freesB bs ++ frees b
  | .lam _ _ b => frees b
  | .app f xs => frees f ++ freesL xs
  | .lit _ => []
  | .intrinsic _ => []
  | .metaOf x m => frees x ++ frees m
  | .node _ xs => freesL xs
def freesL : Exps K → List String
  | .nil => []
  | .cons x xs => frees x ++ freesL xs
def freesB : Binds K → List String
  | .nil => []
  | .cons _ x rest => frees x ++ freesB rest
end

/-- The names `fresh_name` tries, reduce.rs:250-255. -/
def candidate (base : String) (n : Nat) : String :=
  if n = 0 then "__shared_" ++ base else "__shared" ++ toString n ++ "_" ++ base

/-- `fresh_name`, reduce.rs:249-258.  One of the first `avoid.length + 1` candidates will do. -/
def freshName (base : String) (avoid : List String) : String :=
  candidate base (((List.range (avoid.length + 1)).find? fun n => !avoid.contains (candidate base n)).getD 0)

/-- The loop in `beta_reduce`, reduce.rs:320-335: the mappings and the shared arguments. -/
def plan (occ : List String) : List (String × Exp K) → List String → List (String × Exp K) × List (String × Exp K)
  | [], _ => ([], [])
  | (p, x) :: rest, avoid =>
    if 1 < occ.count p && !duplicable x then
      let n := freshName p avoid
      let (m, sh) := plan occ rest (n :: avoid)
      ((p, .var (.free n)) :: m, (n, x) :: sh)
    else
      let (m, sh) := plan occ rest avoid
      ((p, x) :: m, sh)

/-- `beta_reduce` once the numbers agree, reduce.rs:285-354. -/
def applyEarly (ps : List String) (b : Exp K) (xs : List (Exp K)) : Exp K :=
  let body := openLam ps b
  let (m, sh) := plan (frees body) (ps.zip xs) (frees body ++ xs.flatMap frees)
  let reduced := substsDepth m body
  if sh.isEmpty then reduced else closeLet sh reduced

mutual
/-- `beta_reduce`, reduce.rs:277-362. -/
def beta : Exp K → Exp K
  | .app (.lam true ps b) xs =>
    if ps.length = xs.list.length then applyEarly ps b (betaL xs).list
    else .app (.lam true ps (beta b)) (betaL xs)
  | .app f xs => .app (beta f) (betaL xs)
  | .var v => .var v
  | .let_ t bs b => .let_ t (betaB bs) (beta b)
  | .lam i ps b => .lam i ps (beta b)
  | .lit p => .lit p
  | .intrinsic n => .intrinsic n
  | .metaOf x m => .metaOf (beta x) (beta m)
  | .node k xs => .node k (betaL xs)
def betaL : Exps K → Exps K
  | .nil => .nil
  | .cons x xs => .cons (beta x) (betaL xs)
def betaB : Binds K → Binds K
  | .nil => .nil
  | .cons n x rest => .cons n (beta x) (betaB rest)
end

/-- `inline_pass`, reduce.rs:88-90. -/
def inlinePass (fuel : Nat) (x : Exp K) : Option (Exp K) := (distribute fuel x).map beta

/-- `SourceLoader::inline`, driver/source.rs:1031-1035. -/
def inline (fuel : Nat) (x : Exp K) : Option (Exp K) := inlinePass fuel (tag none x)

end Verif.Inl
