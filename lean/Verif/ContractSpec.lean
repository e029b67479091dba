import Verif.ContractModel

/-!
# What it is for data to have a type

Spec only.
-/

namespace Verif.Contract

/-- Values of the types with a name. -/
def IsPrim (name : String) (v : Val) : Prop :=
  match name with
  | "number" => ∃ n, v = .num n
  | "string" => ∃ s, v = .str s
  | "symbol" => ∃ s, v = .sym s
  | "bool" => ∃ b, v = .bool b
  | "null" => v = .null
  | "datetime" => ∃ n, v = .date n
  | "set" => v = .special "set"
  | "vec" => v = .special "vec"
  | "array" => v = .special "array"
  | "never" => False
  | _ => True

mutual
/-- Data of a type. -/
def Conforms : Ty → Val → Prop
  | .prim name, v => IsPrim name v
  | .list t, v => ∃ l, v = .list l ∧ ∀ x ∈ l, Conforms t x
  | .tuple ts, v => ∃ l, v = .list l ∧ Each ts l
  | .prefixList ts tail, v => ∃ a b, v = .list (a ++ b) ∧ Each ts a ∧ ∀ x ∈ b, Conforms tail x
  | .record fs isOpen, v =>
    ∃ es, v = .block es ∧ Has fs es ∧ (isOpen = true ∨ ∀ e ∈ es, e.1 ∈ fs.keys)
  | .union ts, v => Some ts v
  | .part t, v => v = .null ∨ Conforms t v
  | .fn, v => v = .fn
  | .litStr s, v => v = .str s
  | .litSym s, v => v = .sym s
  | .all t, v => Conforms t v
  | .app "Dict" t, v => ∃ es, v = .block es ∧ ∀ e ∈ es, Conforms t e.2
  | .app "NonEmpty" t, v => ∃ l, v = .list l ∧ l ≠ [] ∧ ∀ x ∈ l, Conforms t x
  | .app _ _, _ => True
  | .other, _ => True

/-- As many values as types, each of its own type. -/
def Each : Tys → List Val → Prop
  | .nil, l => l = []
  | .cons t ts, l => ∃ x xs, l = x :: xs ∧ Conforms t x ∧ Each ts xs

/-- Each field is there with its type, or is optional and not there. -/
def Has : Fields → List (String × Val) → Prop
  | .nil, _ => True
  | .cons k optional t fs, es =>
    ((∃ x, find k es = some x ∧ Conforms t x) ∨ (find k es = none ∧ optional = true)) ∧ Has fs es

/-- One of the types. -/
def Some : Tys → Val → Prop
  | .nil, _ => False
  | .cons t ts, v => Conforms t v ∨ Some ts v
end

mutual
/-- Types of which every part is looked at. -/
def Checked : Ty → Prop
  | .prim name => name ≠ "set" ∧ name ≠ "vec" ∧ name ≠ "array"
  | .list t => Checked t
  | .tuple ts => CheckedEach ts
  | .prefixList ts tail => CheckedEach ts ∧ Checked tail
  | .record fs _ => CheckedFields fs
  | .union ts => CheckedEach ts
  | .part t => Checked t
  | .all t => Checked t
  | .app _ _ => False
  | _ => True

def CheckedEach : Tys → Prop
  | .nil => True
  | .cons t ts => Checked t ∧ CheckedEach ts

def CheckedFields : Fields → Prop
  | .nil => True
  | .cons _ _ t fs => Checked t ∧ CheckedFields fs
end

/-- What stands at a path. -/
def reach : Path → Val → Option Val
  | [], v => some v
  | .key k :: p, .block es => (find k es).bind (reach p)
  | .idx i :: p, .list l => (l[i]?).bind (reach p)
  | _, _ => none

/-- What a violation says is so of the value at its place. -/
def Tells (k : Kind) (x : Val) : Prop :=
  match k with
  | .mismatch n => typeName x = n
  | .missing key => ∃ es, x = .block es ∧ find key es = none
  | .unexpected ks => ∃ es, x = .block es ∧ ks ≠ [] ∧ ∀ key ∈ ks, key ∈ es.map Prod.fst
  | .length n m => ∃ l, x = .list l ∧ l.length = m ∧ n ≠ m

end Verif.Contract
