import Verif.LibModel

/-!
# What the list functions are to give

Nothing here looks at how the prelude does it.
-/

namespace Verif.Lib

/-- An order by which a list can be sorted: nothing is less than what is less than it, and whatever is
less than another is less than a third, or the third is less than the other. -/
structure StrictWeak {α : Type} (lt : α → α → Bool) : Prop where
  asymm : ∀ a b, lt a b = true → lt b a = false
  split : ∀ a b c, lt a c = true → lt a b = true ∨ lt b c = true

/-- Nothing comes before what is less than it. -/
def Ordered {α : Type} (lt : α → α → Bool) (l : List α) : Prop := l.Pairwise fun a b => lt b a = false

/-- Neither is less. -/
def same {α : Type} (lt : α → α → Bool) (a b : α) : Bool := !lt a b && !lt b a

/-- A list with each element only where it is first. -/
def firsts {α : Type} [DecidableEq α] : List α → List α
  | [] => []
  | x :: xs => x :: (firsts xs).filter (fun y => decide (y ≠ x))

/-- A list with elements only where their key is first. -/
def firstsBy {α κ : Type} [DecidableEq κ] (key : α → κ) : List α → List α
  | [] => []
  | x :: xs => x :: (firstsBy key xs).filter (fun y => decide (key y ≠ key x))

/-- A list without elements that are the same as the next. -/
def noRepeats {α : Type} [DecidableEq α] : List α → List α
  | [] => []
  | [x] => [x]
  | x :: y :: r => if x = y then noRepeats (y :: r) else x :: noRepeats (y :: r)

/-- Lists with separators between them. -/
def join {α : Type} : List (List α) → List α → List α
  | g :: gs, s :: ss => g ++ s :: join gs ss
  | [g], [] => g
  | _, _ => []

/-- Lists that come one after the other have no key in common. -/
def Adjacent {α κ : Type} (f : α → κ) : List (List α) → Prop
  | g :: h :: gs => (∀ a ∈ g, ∀ b ∈ h, f a ≠ f b) ∧ Adjacent f (h :: gs)
  | _ => True

/-- The windows of size `n` that begin at the places `0`, `step`, `2 * step` and so on, `m` of them. -/
def windows {α : Type} (n step m : Nat) (l : List α) : List (List α) :=
  (List.range m).map fun i => (l.drop (i * step)).take n

/-- The value of a number: an integer, or a double in units of `2 ^ -1074`, as a multiple of the unit. -/
def value : Arith.Num → Int
  | .pos n => n * Arith.unit
  | .neg i => i * Arith.unit
  | .float v => v

end Verif.Lib
