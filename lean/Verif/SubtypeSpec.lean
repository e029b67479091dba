import Verif.SubtypeModel

/-!
# What types mean

A meaning of the types over any collection of values, independent of how
subtyping is computed.
-/

namespace Verif.Subtype

/-- What there is to know about values: which belong to the types without parts,
the elements of a list, the entries of a block, the graph of a function.  The
meaning of `IO` and of the optics is any that grows with that of the arguments; of
other constructors any at all. -/
structure Values (V : Type) where
  prim : Prim → V → Prop
  sym : String → V → Prop
  str : String → V → Prop
  sym_symbol : ∀ a v, sym a v → prim .symbol v
  str_string : ∀ a v, str a v → prim .string v
  elems : V → Option (List V)
  entry : V → String → Option V
  isBlock : V → Prop
  isFun : V → Prop
  apply : V → V → V → Prop
  io : (V → Prop) → V → Prop
  io_mono : ∀ (P Q : V → Prop), (∀ v, P v → Q v) → ∀ v, io P v → io Q v
  lens : (V → Prop) → (V → Prop) → V → Prop
  traversal : (V → Prop) → (V → Prop) → V → Prop
  lens_mono : ∀ (P Q R S : V → Prop), (∀ v, P v → R v) → (∀ v, Q v → S v) →
    ∀ v, lens P Q v → lens R S v
  traversal_mono : ∀ (P Q R S : V → Prop), (∀ v, P v → R v) → (∀ v, Q v → S v) →
    ∀ v, traversal P Q v → traversal R S v
  lens_traversal : ∀ (P Q : V → Prop) v, lens P Q v → traversal P Q v
  other : Ty → V → Prop

variable {V : Type}

mutual
/-- The values of a type.  A record's values have the fields listed, and may have
others; an optional field has its type when present. -/
def den (M : Values V) : Ty → V → Prop
  | .prim p => M.prim p
  | .any => fun _ => True
  | .top => fun _ => True
  | .never => fun _ => False
  | .app (.con n) x => fun v =>
    if n = "List" then ∃ vs, M.elems v = some vs ∧ ∀ w ∈ vs, den M x w
    else if n = "NonEmpty" then ∃ vs, M.elems v = some vs ∧ vs ≠ [] ∧ ∀ w ∈ vs, den M x w
    else if n = "IO" then M.io (den M x) v
    else if n = "Dict" then M.isBlock v ∧ ∀ f w, M.entry v f = some w → den M x w
    else M.other (.app (.con n) x) v
  | .app (.app (.con n) x) y => fun v =>
    if n = "Lens" then M.lens (den M x) (den M y) v
    else if n = "Traversal" then M.traversal (den M x) (den M y) v
    else M.other (.app (.app (.con n) x) y) v
  | .tuple es => fun v => ∃ vs, M.elems v = some vs ∧ denAll M es vs
  | .prefixList p t => fun v => ∃ vs, M.elems v = some vs ∧ denPrefix M p (den M t) vs
  | .record fs _ _ => fun v => M.isBlock v ∧ denFields M fs v
  | .function a b => fun v => M.isFun v ∧ ∀ x y, den M a x → M.apply v x y → den M b y
  | .union vs => fun v => denSome M vs v
  | .litSymbol a => M.sym a
  | .litString a => M.str a
  | t => M.other t
/-- Element by element. -/
def denAll (M : Values V) : List Ty → List V → Prop
  | [], vs => vs = []
  | t :: ts, vs => ∃ w ws, vs = w :: ws ∧ den M t w ∧ denAll M ts ws
/-- Element by element, then any number of elements satisfying `P`. -/
def denPrefix (M : Values V) : List Ty → (V → Prop) → List V → Prop
  | [], P, vs => ∀ w ∈ vs, P w
  | t :: ts, P, vs => ∃ w ws, vs = w :: ws ∧ den M t w ∧ denPrefix M ts P ws
/-- Each field. -/
def denFields (M : Values V) : List (String × Bool × Ty) → V → Prop
  | [], _ => True
  | (n, true, t) :: fs, v => (∀ w, M.entry v n = some w → den M t w) ∧ denFields M fs v
  | (n, false, t) :: fs, v => (∃ w, M.entry v n = some w ∧ den M t w) ∧ denFields M fs v
/-- One of the variants. -/
def denSome (M : Values V) : List Ty → V → Prop
  | [], _ => False
  | t :: ts, v => den M t v ∨ denSome M ts v
end

mutual
/-- Types fully known: no `any` and no variables (hence no quantified, recursive or
type-level-function types, which bind variables). -/
def known : Ty → Bool
  | .app f x => known f && known x
  | .tuple es => knowns es
  | .prefixList p t => knowns p && known t
  | .record fs _ rows => rows.isEmpty && knownFields fs
  | .function a b => known a && known b
  | .union vs => knowns vs
  | .any | .var _ | .mu _ _ | .forall_ _ _ | .lam _ _ => false
  | .prim _ | .top | .never | .con _ | .litSymbol _ | .litString _ => true
/-- On lists. -/
def knowns : List Ty → Bool
  | [] => true
  | t :: ts => known t && knowns ts
/-- On fields. -/
def knownFields : List (String × Bool × Ty) → Bool
  | [] => true
  | (_, _, t) :: ts => known t && knownFields ts
end

end Verif.Subtype
