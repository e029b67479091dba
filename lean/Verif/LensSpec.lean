import Verif.LensModel

/-!
# What lenses and traversals should do

Written without the model's functions, apart from its values and optics.
-/

namespace Verif.Lens

/-- No block within the value has a key twice. -/
inductive Wf : Val → Prop
  | atom (n : Int) : Wf (.atom n)
  | sym (s : String) : Wf (.sym s)
  | list (l : List Val) : (∀ x ∈ l, Wf x) → Wf (.list l)
  | block (es : List (String × Val)) : (es.map Prod.fst).Nodup → (∀ e ∈ es, Wf e.2) → Wf (.block es)

/-- Optics made of `at` and `ix`, as paths of keys and indices are. -/
inductive IsLens : Optic → Prop
  | identity : IsLens .identity
  | at (key : String) : IsLens (.at key)
  | ix (n : Int) : IsLens (.ix n)
  | comp (a b : Optic) : IsLens a → IsLens b → IsLens (.comp a b)

/-- The same with `each`. -/
inductive IsTrav : Optic → Prop
  | identity : IsTrav .identity
  | at (key : String) : IsTrav (.at key)
  | ix (n : Int) : IsTrav (.ix n)
  | each : IsTrav .each
  | comp (a b : Optic) : IsTrav a → IsTrav b → IsTrav (.comp a b)

/-- Optics with a traversal in them which is not within `parts-of`. -/
inductive Many : Optic → Prop
  | each : Many .each
  | filtered (p : Val → Bool) : Many (.filtered p)
  | eachElement : Many .eachElement
  | filteredElements (p : Val → Bool) : Many (.filteredElements p)
  | left (a b : Optic) : Many a → Many (.comp a b)
  | right (a b : Optic) : Many b → Many (.comp a b)

/-- Where a value stands within another. -/
inductive Found : Val → List (String ⊕ Nat) → Val → Prop
  | here (v : Val) : Found v [] v
  | key (es : List (String × Val)) (k : String) (v w : Val) (p : List (String ⊕ Nat)) :
      (es.map Prod.fst).Nodup → (k, v) ∈ es → Found v p w → Found (.block es) (.inl k :: p) w
  | index (l : List Val) (n : Nat) (v w : Val) (p : List (String ⊕ Nat)) :
      l[n]? = some v → Found v p w → Found (.list l) (.inr n :: p) w

/-- The path written in data. -/
def segs (p : List (String ⊕ Nat)) : List Seg :=
  p.map fun s => match s with
    | .inl k => .key k
    | .inr n => .index n

/-- A function which needs its argument. -/
def Strict (f : D → D) : Prop := f none = none

end Verif.Lens
