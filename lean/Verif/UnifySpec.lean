import Verif.UnifyModel

/-!
# What it is to unify types

A choice of types for variables solves equations. Literals count as their base types, and `NonEmpty` as
`List`, as the code says that they do.
-/

namespace Verif.Unify.Spec

open Verif.Unify

mutual
/-- The type with types put in for its variables (of types without binders). -/
def inst (σ : String → Ty) : Ty → Ty
  | .var x _ => σ x
  | .app f a => .app (inst σ f) (inst σ a)
  | .function a b => .function (inst σ a) (inst σ b)
  | .tuple es => .tuple (instL σ es)
  | t => t
/-- On lists. -/
def instL (σ : String → Ty) : List Ty → List Ty
  | [] => []
  | t :: ts => inst σ t :: instL σ ts
end

mutual
/-- Literals as their base types, and `NonEmpty` as `List`. -/
def loose : Ty → Ty
  | .litString _ => .prim .string
  | .litSymbol _ => .prim .symbol
  | .con n => if n = "NonEmpty" then .con "List" else .con n
  | .app f a => .app (loose f) (loose a)
  | .function a b => .function (loose a) (loose b)
  | .tuple es => .tuple (looseL es)
  | t => t
/-- On lists. -/
def looseL : List Ty → List Ty
  | [] => []
  | t :: ts => loose t :: looseL ts
end

/-- The choice makes the two types the same. -/
def Same (σ : String → Ty) (a b : Ty) : Prop := loose (inst σ a) = loose (inst σ b)

/-- The choice is one of those that the substitution leaves. -/
def Solves (σ : String → Ty) (s : Sub) : Prop := ∀ p ∈ s, Same σ (.var p.1 .star) p.2

/-- Each variable stands for a type of values, not for a constructor. -/
def Kinds (σ : String → Ty) : Prop := ∀ x, kindOf (σ x) = .star

mutual
/-- Types without `any`, records, quantifiers, lambdas and variables of higher kind; and without
literals and `NonEmpty`, unless `loosely`. -/
def Plain (loosely : Bool) : Ty → Prop
  | .prim _ => True
  | .con n => loosely = true ∨ n ≠ "NonEmpty"
  | .app f a => Plain loosely f ∧ Plain loosely a
  | .tuple es => PlainL loosely es
  | .function a b => Plain loosely a ∧ Plain loosely b
  | .litSymbol _ => loosely = true
  | .litString _ => loosely = true
  | .var _ k => k = .star
  | _ => False
/-- On lists. -/
def PlainL (loosely : Bool) : List Ty → Prop
  | [] => True
  | t :: ts => Plain loosely t ∧ PlainL loosely ts
end

/-- All types of a substitution are plain. -/
def PlainS (loosely : Bool) (s : Sub) : Prop := ∀ p ∈ s, Plain loosely p.2

end Verif.Unify.Spec
