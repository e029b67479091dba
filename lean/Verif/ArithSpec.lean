import Verif.ArithModel
/-! # What numbers mean -/

namespace Verif.Arith

/-- Numbers as they can occur: a 64-bit unsigned integer, a negative 64-bit signed one, or a
finite double (it has at most 53 significant bits and is below `2^1024`). -/
def Ok : Num → Prop
  | .pos n => n < 2 ^ 64
  | .neg i => minI64 ≤ i ∧ i < 0
  | .float v => rndInt v 1 = v ∧ v.natAbs < 2 ^ 2098

instance : DecidablePred Ok := fun n => by cases n <;> unfold Ok <;> infer_instance

/-- The integer a number in integer representation stands for. -/
def intVal : Num → Option Int
  | .pos n => some n
  | .neg i => some i
  | .float _ => none

/-- The exact value of a number, in units of `2^-1074`. -/
def value : Num → Int
  | .pos n => (n : Int) * unit
  | .neg i => i * unit
  | .float v => v

/-- Both fit a signed 64-bit integer. -/
def BothI64 (a b : Int) : Prop := (minI64 ≤ a ∧ a ≤ maxI64) ∧ minI64 ≤ b ∧ b ≤ maxI64

/-- Both fit one of the two 64-bit types. -/
def SameType (a b : Int) : Prop := BothI64 a b ∨ (0 ≤ a ∧ 0 ≤ b)

/-- The 64-bit type used for a pair of integers contains `c`. -/
def Fits (a b c : Int) : Prop := (BothI64 a b ∧ minI64 ≤ c ∧ c ≤ maxI64) ∨ (¬ BothI64 a b ∧ 0 ≤ c ∧ c < 2 ^ 64)

end Verif.Arith
