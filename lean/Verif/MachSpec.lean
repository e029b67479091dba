import Verif.MachModel

/-!
# What the machine is to do

The reference semantics is `Sem.Means`.  Here: the states of a run, and the conditions on a run under which the machine is
compared with the reference.
-/

namespace Verif.Mach
open Verif.Bc Verif.Env Verif.Sem
variable {K : Type}

/-- The states of a run, in order. -/
inductive Reaches (P : Prog K) (fuel : Nat) : State K → State K → Prop where
  | refl (s) : Reaches P fuel s s
  | step {s s' s''} : step P fuel s = .next s' → Reaches P fuel s' s'' → Reaches P fuel s s''

/-- Ends that come from the limits of the machine and not from the program: more than sixteen arguments, an intrinsic
given something it cannot read, nodes not modelled. -/
def Err.limit : Err → Bool
  | .papRange | .argShape | .outside => true
  | _ => false

/-- Reading a native out of `v` would go through a function of one or more parameters, as if it had none. -/
def throughFun (P : Prog K) (σ : Store (MVal K)) : Nat → MVal K → Bool
  | 0, _ => false
  | _ + 1, .native _ => false
  | n + 1, .clo _ a c env => match peeled P c with
    | .atom r => decide (a > 0) || (match resolveRef P σ env r with | .ok v => throughFun P σ n v | .error _ => false)
    | _ => false

/-- The values an intrinsic is about to read. -/
def primArgs (P : Prog K) (s : State K) : List (MVal K) :=
  match s.cur, s.stack with
  | .clo _ 0 (.bif _ args) env, _ => match resolveRefs P s.store env args with
    | .ok vs => vs
    | .error _ => []
  | v, .fusedRight _ l _ :: _ => [l, v]
  | _, _ => []

/-- About to call directly with no arguments. -/
def emptyCall (s : State K) : Bool :=
  match s.cur with
  | .clo _ 0 (.dapp _ _ [] _) _ => true
  | _ => false

/-- No intrinsic is about to read through a function, and no direct call has no arguments. -/
def Fair (P : Prog K) (fuel : Nat) (s : State K) : Prop :=
  (∀ v ∈ primArgs P s, throughFun P s.store fuel v = false) ∧ emptyCall s = false

/-- Every state of the run from `s` is fair. -/
def FairRun (P : Prog K) (fuel : Nat) (s : State K) : Prop := ∀ s', Reaches P fuel s s' → Fair P fuel s'

/-- Every black hole in the heap is of a thunk under evaluation: an update of it is on the stack. -/
def HolesPending (s : State K) : Prop :=
  ∀ id p env, s.store[id]?.bind (·[p]?) = some (MVal.clo false 0 .hole env) →
    ∃ uenv i a, Cont.update uenv i ∈ s.stack ∧ cell uenv i = some (a, p) ∧ a.id = id

/-- The step from `s` makes a new array with a black hole in it: it copies a slot whose thunk is under evaluation. -/
def CopiesHole (P : Prog K) (fuel : Nat) (s : State K) : Prop :=
  ∃ s' id, ∃ p : Nat, ∃ env, step P fuel s = .next s' ∧ s.store.length ≤ id ∧
    s'.store[id]?.bind (·[p]?) = some (MVal.clo false 0 .hole env)

/-- The machine stopped in state `s` with error `x`. -/
def StopsAt (P : Prog K) (fuel : Nat) (start s : State K) (x : Err) : Prop :=
  Reaches P fuel start s ∧ step P fuel s = .error x

end Verif.Mach
