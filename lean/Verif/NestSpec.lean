import Verif.NestModel

/-!
# What the functions on nested blocks are to do
-/

namespace Verif.Nest

/-- No block in it has a key twice. -/
inductive Distinct : Val → Prop
  | atom (a : Nat) : Distinct (.atom a)
  | list (l : List Val) : (∀ v ∈ l, Distinct v) → Distinct (.list l)
  | block (es : List (String × Val)) : (es.map Prod.fst).Nodup → (∀ e ∈ es, Distinct e.2) → Distinct (.block es)

/-- There is no list in it. -/
inductive NoLists : Val → Prop
  | atom (a : Nat) : NoLists (.atom a)
  | block (es : List (String × Val)) : (∀ e ∈ es, NoLists e.2) → NoLists (.block es)

/-- A value is another, or is in it, at whatever depth. -/
inductive Inside : Val → Val → Prop
  | here (v : Val) : Inside v v
  | list {l : List Val} {v w : Val} : v ∈ l → Inside v w → Inside (.list l) w
  | block {es : List (String × Val)} {e : String × Val} {w : Val} : e ∈ es → Inside e.2 w → Inside (.block es) w

def IsBlock (v : Val) : Prop := ∃ es, v = .block es

/-- A path fits a pattern: `*` is any one key and `**` any number of keys. -/
inductive Fits : List Seg → List String → Prop
  | nil : Fits [] []
  | key {ps : List Seg} {p : List String} (k : String) : Fits ps p → Fits (.key k :: ps) (k :: p)
  | one {ps : List Seg} {p : List String} (k : String) : Fits ps p → Fits (.one :: ps) (k :: p)
  | none {ps : List Seg} {p : List String} : Fits ps p → Fits (.deep :: ps) p
  | more {ps : List Seg} {p : List String} (k : String) : Fits (.deep :: ps) p → Fits (.deep :: ps) (k :: p)

/-- The pattern that is looked for: with `**` at the beginning. -/
def anywhere : List Seg → List Seg
  | .deep :: ps => .deep :: ps
  | ps => .deep :: ps

/-- A value is as a pattern says. -/
inductive Conforms : Pat → Val → Prop
  | lit (a : Nat) : Conforms (.lit a) (.atom a)
  | fn (p : Val → Bool) (v : Val) : p v = true → Conforms (.fn p) v
  | list (l : List Pat) (vs : List Val) : vs.length = l.length →
      (∀ (i : Nat) (p : Pat) (v : Val), l[i]? = some p → vs[i]? = some v → Conforms p v) →
      Conforms (.list l) (.list vs)
  | block (es : List (String × Pat)) (t : List (String × Val)) :
      (∀ e ∈ es, (find e.1 t).isSome = true) →
      (∀ e ∈ es, ∀ v, find e.1 t = some v → Conforms e.2 v) → Conforms (.block es) (.block t)

end Verif.Nest
