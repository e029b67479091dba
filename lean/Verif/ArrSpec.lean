import Verif.ArrModel
import Mathlib.Data.List.Forall2
import Mathlib.Data.List.Lex

/-!
# Specification of arrays
-/

namespace Verif.Arr

/-- There are as many elements as the shape says, and its dimensions are numbers of the machine. -/
structure Nd.Ok {V : Type} (a : Nd V) : Prop where
  size : a.elems.length = a.shape.prod
  dims : ∀ d ∈ a.shape, d ≤ usizeMax

/-- Coordinates inside a shape. -/
def Inside (coords shape : List Int) : Prop := List.Forall₂ (fun c d => 0 ≤ c ∧ c < d) coords shape

/-- One list of coordinates is before another: at the first place where they differ, or it is shorter. -/
def Before (a b : List Int) : Prop := List.Lex (· < ·) a b

/-- The error for coordinates outside. -/
def outside (coords : List Int) : Err := if ∃ c ∈ coords, c < 0 then .negative else .bounds

mutual
/-- The arrays that can be made. -/
inductive Made (F : Floats) : Nd F.V → Prop
  | flat {s l a} : fromFlat F s l = .ok a → Made F a
  | fill {s v a} : fill F s v = .ok a → Made F a
  | set {c v a b} : Made F a → set F c v a = .ok b → Made F b
  | reshape {s a b} : Made F a → reshape F s a = .ok b → Made F b
  | transpose {a} : Made F a → Made F a.transpose
  | slice {x i a b} : Made F a → slice F x i a = .ok b → Made F b
  | binop {f x y b} : MadeOp F x → MadeOp F y → binop F f x y = .ok b → Made F b
/-- The operands that can be made. -/
inductive MadeOp (F : Floats) : Operand F.V → Prop
  | array {a} : Made F a → MadeOp F (.array a)
  | number {v} : MadeOp F (.number v)
end

/-- All elements are finite numbers. -/
def Nd.Finite {F : Floats} (a : Nd F.V) : Prop := ∀ v ∈ a.elems, F.finite v = true

/-- Coordinates moved. -/
def moved (coords o : List Int) : List Int := List.zipWith (· + ·) coords o

/-- Offsets and coordinates for which nothing goes beyond the numbers of the machine. -/
structure Near (coords : List Int) (offsets : List (List Int)) : Prop where
  coord : ∀ c ∈ coords, 0 ≤ c ∧ c < 2 ^ 63
  offs : ∀ o ∈ offsets, ∀ x ∈ o, -2 ^ 63 ≤ x ∧ x < 2 ^ 63
  sum : ∀ o ∈ offsets, ∀ x ∈ moved coords o, x < 2 ^ 63

/-- What is found in what is written out by following coordinates. -/
def dig {V : Type} : Out V → List Nat → Option V
  | .num v, [] => some v
  | .seq items, i :: cs => items[i]?.bind (dig · cs)
  | _, _ => none

/-- What is written out is nested as the shape says. -/
def Shaped {V : Type} : List Nat → Out V → Prop
  | [], .num _ => True
  | d :: ds, .seq items => items.length = d ∧ ∀ x ∈ items, Shaped ds x
  | _, _ => False

mutual
/-- The numbers written out, in order. -/
def flatten {V : Type} : Out V → List V
  | .num v => [v]
  | .seq items => flattenL items
def flattenL {V : Type} : List (Out V) → List V
  | [] => []
  | x :: xs => flatten x ++ flattenL xs
end

end Verif.Arr
