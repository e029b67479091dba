import Verif.FuseModel
import Verif.InlSpec

/-!
# What folding and hoisting should keep

`mean` is the expression meant, as `Inl.erase`, except that a lookup is a call of the intrinsic that looks up.
`Std` says what the code of the intrinsics is that this comes down to.  `Redex` says what is known, and `Part` what the parts
of an expression are.
-/

namespace Verif.Fuse
open Verif.Comp Verif.Bc
variable {K : Type}

/-! ## Meaning -/

def two (x y : Comp.Exp K) : Comp.Exps K := .cons x (.cons y .nil)
def three (x y z : Comp.Exp K) : Comp.Exps K := .cons x (two y z)

/-- `compile_lookup`, eval/stg/compiler.rs:1915-1999: without the shortcut (`LookupLit`), and with the key in its box. -/
def lookupOr (k : K) (x d : Comp.Exp K) : Comp.Exp K := .app 0 (.intrinsic "LOOKUPOR") (three (.lit (.sym k)) d x)

/-- `lookup_fail`, eval/stg/compiler.rs and block.rs:799-828. -/
def lookupFail (k : K) (x : Comp.Exp K) : Comp.Exp K := .app 0 (.intrinsic "LOOKUP_FAIL") (two (.lit (.sym k)) x)

def meanNode : Inl.Kind K → Comp.Exps K → Comp.Exp K
  | .lookup k, .cons x .nil => lookupOr k x (lookupFail k x)
  | .lookupOr k, .cons x (.cons d .nil) => lookupOr k x d
  | k, xs => Inl.nodeOf k xs

mutual
/-- The expression meant. -/
def mean : Inl.Exp K → Comp.Exp K
  | .var (.free n) => .free n
  | .var (.bound s i h) => .var s i h
  | .let_ _ bs b => .let_ (meanB bs) (mean b)
  | .lam _ ps b => .lam 0 ps.length (mean b)
  | .app f xs => .app 0 (mean f) (meanL xs)
  | .lit p => .lit p
  | .intrinsic n => .intrinsic n
  | .metaOf x m => .metaOf 0 (mean x) (mean m)
  | .node k xs => meanNode k (meanL xs)
def meanL : Inl.Exps K → Comp.Exps K
  | .nil => .nil
  | .cons x xs => .cons (mean x) (meanL xs)
def meanB : Inl.Binds K → Comp.Binds K
  | .nil => .nil
  | .cons n x rest => .cons n {} (mean x) (meanB rest)
end

/-! ## The intrinsics -/

/-- A `case` on a local. -/
def caseL (i : Nat) (bs : Brs K) (fb : Fb K) : Syn K := .case (.atom (.l i)) bs fb

def one (t : Nat) (c : Syn K) : Brs K := .cons t c .nil

/-- `Head`, list.rs:95-118; the other ends are left open. -/
def headCode (nil other : Syn K) : Form K := ⟨.lambda 1 0, caseL 0 (.cons 7 (.atom (.l 0)) (one 6 nil)) (.some other)⟩

/-- `Tail`, list.rs:60-82. -/
def tailCode (nil other : Syn K) : Form K := ⟨.lambda 1 0, caseL 0 (.cons 7 (.atom (.l 1)) (one 6 nil)) (.some other)⟩

/-- `find` of `LookupOr`, block.rs:485-516. -/
def findCode (matchesKey extractValue : Nat) (other : Syn K) : Syn K :=
  caseL 0 (.cons 7
      (.case (.app (.g matchesKey) [.l 0, .l 3] false)
        (.cons 1 (.app (.g extractValue) [.l 0] false) (one 2 (.app (.l 5) [.l 1, .l 3, .l 4, .l 5] false))) .none)
      (one 6 (.atom (.l 2))))
    (.some other)

/-- `LookupOr`, block.rs:524-588.  The call of the intrinsic itself, which always answers with the empty list
(block.rs:591-611), is left out: this is what is then done. -/
def lookupCode (matchesKey extractValue : Nat) (other : Syn K) : Form K := ⟨.lambda 3 0,
  caseL 2 (one 8 (.letrec (.cons (.lambda 4 0) (findCode matchesKey extractValue other) .nil)
    (caseL 3 (one 4 (.app (.l 1) [.l 2, .l 0, .l 5, .l 1] false)) .none))) .none⟩

/-- `MatchesKey`, block.rs:238-266. -/
def matchesCode (eq : Nat) (kvList other : Syn K) : Form K := ⟨.lambda 2 0,
  caseL 0 (.cons 9 (.app (.g eq) [.l 0, .l 3] false) (one 10 kvList)) (.some other)⟩

/-- `ExtractValue`, block.rs:281-311. -/
def extractCode (kvList other : Syn K) : Form K := ⟨.lambda 1 0, caseL 0 (.cons 9 (.atom (.l 1)) (one 10 kvList)) (.some other)⟩

/-- `Eq`, eq.rs:107-255: what is done with natives. -/
def eqCode (prim : Nat) (boxed boxed' : Brs K) : Form K := ⟨.lambda 2 0,
  caseL 0 boxed (.some (caseL 2 boxed' (.some (.bif prim [.l 1, .l 0]))))⟩

/-- The intrinsics for lists and blocks are there and are those of the repository; of two symbols, those that are equal are said
to be. -/
structure Std [DecidableEq K] (sym : K → Prop) (P : World K) : Prop where
  head : ∃ i nil other, P.index "HEAD" = some i ∧ P.sem.globals[i]? = some (headCode nil other)
  tail : ∃ i nil other, P.index "TAIL" = some i ∧ P.sem.globals[i]? = some (tailCode nil other)
  lookup : ∃ i mk ev eq prim other kv o kv' o' bs bs', P.index "LOOKUPOR" = some i ∧
    P.sem.globals[i]? = some (lookupCode mk ev other) ∧ P.sem.globals[mk]? = some (matchesCode eq kv o) ∧
    P.sem.globals[ev]? = some (extractCode kv' o') ∧ P.sem.globals[eq]? = some (eqCode prim bs bs') ∧
    ∀ a b, sym a → sym b → P.sem.prim prim [a, b] = .ok (.cons (if a = b then 1 else 2) [])

mutual
/-- The keys of blocks and lookups are symbols. -/
def Keyed (sym : K → Prop) : Inl.Exp K → Prop
  | .var _ => True
  | .let_ _ bs b => KeyedB sym bs ∧ Keyed sym b
  | .lam _ _ b => Keyed sym b
  | .app f xs => Keyed sym f ∧ KeyedL sym xs
  | .lit _ => True
  | .intrinsic _ => True
  | .metaOf x m => Keyed sym x ∧ Keyed sym m
  | .node k xs => (match k with
    | .block ks => ∀ k ∈ ks, sym k
    | .lookup k => sym k
    | .lookupOr k => sym k
    | _ => True) ∧ KeyedL sym xs
def KeyedL (sym : K → Prop) : Inl.Exps K → Prop
  | .nil => True
  | .cons x xs => Keyed sym x ∧ KeyedL sym xs
def KeyedB (sym : K → Prop) : Inl.Binds K → Prop
  | .nil => True
  | .cons _ x rest => Keyed sym x ∧ KeyedB sym rest
end

/-! ## Nothing known is left -/

/-- What is known before running: a member of a block that is written out, what is used for one it does not have, and the first
and the rest of a list that is written out. -/
inductive Redex : Inl.Exp K → Prop where
  | lookup {k ks} {xs : Inl.Exps K} : ks.length = xs.list.length → k ∈ ks →
      Redex (.node (.lookup k) (.cons (.node (.block ks) xs) .nil))
  | lookupOr {k ks xs d} : Redex (.node (.lookupOr k) (.cons (.node (.block ks) xs) (.cons d .nil)))
  | head {x xs} : Redex (.app (.intrinsic "HEAD") (.cons (.node .list (.cons x xs)) .nil))
  | tail {x xs} : Redex (.app (.intrinsic "TAIL") (.cons (.node .list (.cons x xs)) .nil))

/-- Parts of an expression. -/
inductive Part : Inl.Exp K → Inl.Exp K → Prop where
  | self {x} : Part x x
  | bound {y t bs b} {p : String × Inl.Exp K} : p ∈ bs.list → Part y p.2 → Part y (.let_ t bs b)
  | body {y t bs b} : Part y b → Part y (.let_ t bs b)
  | lam {y i ps b} : Part y b → Part y (.lam i ps b)
  | fn {y f xs} : Part y f → Part y (.app f xs)
  | arg {x y f xs} : x ∈ xs.list → Part y x → Part y (.app f xs)
  | about {y x m} : Part y x → Part y (.metaOf x m)
  | notes {y x m} : Part y m → Part y (.metaOf x m)
  | item {x y k xs} : x ∈ xs.list → Part y x → Part y (.node k xs)

mutual
/-- How many levels an expression has. -/
def levels : Inl.Exp K → Nat
  | .let_ _ bs b => max (levelsB bs) (levels b) + 1
  | .lam _ _ b => levels b + 1
  | .app f xs => max (levels f) (levelsL xs) + 1
  | .metaOf x m => max (levels x) (levels m) + 1
  | .node _ xs => levelsL xs + 1
  | _ => 1
def levelsL : Inl.Exps K → Nat
  | .nil => 0
  | .cons x xs => max (levels x) (levelsL xs)
def levelsB : Inl.Binds K → Nat
  | .nil => 0
  | .cons _ x rest => max (levels x) (levelsB rest)
end

end Verif.Fuse
