import Verif.EffModel

/-!
# What monads should do
-/

namespace Verif.Eff

variable {M : Type → Type}

/-- The laws of a monad. -/
structure Laws (m : Dict M) : Prop where
  left : ∀ {α β : Type} (v : α) (f : α → M β), m.bind (m.ret v) f = f v
  right : ∀ {α : Type} (a : M α), m.bind a m.ret = a
  assoc : ∀ {α β γ : Type} (a : M α) (f : α → M β) (g : β → M γ),
    m.bind (m.bind a f) g = m.bind a fun x => m.bind (f x) g

/-- Two results with the same value and the same state, whatever other keys there are. -/
def Agree {σ α : Type} (a b : Res σ α) : Prop := a.value = b.value ∧ a.state = b.state

/-- Actions run one after the other, each from the state which the one before left. -/
inductive Runs {σ α : Type} : List (σ → Res σ α) → σ → List α → σ → Prop
  | nil (s : σ) : Runs [] s [] s
  | cons (a : σ → Res σ α) (as : List (σ → Res σ α)) (s s' : σ) (vs : List α) :
      Runs as (a s).state vs s' → Runs (a :: as) s ((a s).value :: vs) s'

end Verif.Eff
