import Verif.MonBlkModel

/-!
# What a monadic block should be

Spec only.
-/

namespace Verif.MonBlk

variable {V : Type}

/-- A block as it is written: names and bodies, no parameters. -/
def write (b : List (String × Term V)) : List (Decl V) := b.map fun p => ⟨some p.1, [], some p.2⟩

/-- The names by which the monad is reached. -/
def heads : Spec → List String
  | .namespaced ns => [ns]
  | .explicit b r => [b, r]

/-- The monad's own two functions, as they are where the block stands. -/
def bindIn (I : Interp V) (ρ : Env V) : Spec → V → (V → V) → V
  | .namespaced ns, v, f => I.app (I.look (ρ ns) "bind") [v, I.fn f]
  | .explicit b _, v, f => I.app (ρ b) [v, I.fn f]

def retIn (I : Interp V) (ρ : Env V) : Spec → V → V
  | .namespaced ns, v => I.app (I.look (ρ ns) "return") [v]
  | .explicit _ r, v => I.app (ρ r) [v]

/-- Steps in order: each sees the names of those before it, with what the monad gives for them, and for its own name and
those of later steps what they stand for outside. The last value is returned. -/
def runs (bind : V → (V → V) → V) (ret : V → V) : List (String × (Env V → V)) → (Env V → V) → Env V → V
  | [], last, ρ => ret (last ρ)
  | s :: ss, last, ρ => bind (s.2 ρ) fun v => runs bind ret ss last (ρ.set s.1 v)

/-- Names after a row of definitions, each of which sees those before. -/
def defs : List (String × (Env V → V)) → Env V → Env V
  | [], ρ => ρ
  | s :: ss, ρ => defs ss (ρ.set s.1 (s.2 ρ))

/-- Names for each way to choose one value of each list in turn. -/
def choices : List (String × (Env V → List V)) → Env V → List (Env V)
  | [], ρ => [ρ]
  | s :: ss, ρ => (s.2 ρ).flatMap fun v => choices ss (ρ.set s.1 v)

/-- Each name once, where it first stands. -/
def firsts : List String → List String
  | [] => []
  | x :: xs => x :: (firsts xs).filter (· ≠ x)

/-- The names that a block reports. -/
def reported (b : List (String × Term V)) : List String := firsts ((b.map Prod.fst).filter (· ≠ "_"))

/-- Elements that are no blocks, and what they are. -/
def simple : Elem V → Option (Term V)
  | .dot => some .dot
  | .name x => some (.var x)
  | .op t => some t
  | _ => none

/-- Whether a dot waits for its key after a row: operators do not take it. -/
def pends (p : Bool) : List (Elem V) → Bool
  | [] => p
  | .dot :: l => pends true l
  | .op _ :: l => pends p l
  | _ :: l => pends false l

/-- The elements end with a monadic block and a dot. -/
def EndsInDot (l : List (Elem V)) : Prop :=
  ∃ pre e, l = pre ++ [e, .dot] ∧ ((∃ sp ds t, e = .block ⟨some sp, ds, t⟩) ∨ ∃ sp ds, e = .bracket (some sp) ds)

end Verif.MonBlk
