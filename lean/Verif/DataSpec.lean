import Verif.DataModel
import Verif.ArithSpec
/-! # What equality and merging should mean -/

namespace Verif.Data

open Verif.Arith

/-! ## Abstract values: what a data value stands for, forgetting boxing and the form of block
elements -/

inductive AbsAtom where
  | num (value : Int)
  | str (s : String)
  | sym (s : String)
  | zdt (t : Int)
  | ref (kind : Nat) (id : Nat)
deriving DecidableEq

inductive Abs where
  | unit
  | bool (b : Bool)
  | atom (a : AbsAtom)
  | nil
  | cons (h t : Abs)
  | block (es : Abs)
  | entry (k : String) (v : Abs)
deriving DecidableEq

def absAtom : Atom → AbsAtom
  | .num n => .num (value n)
  | .str s => .str s
  | .sym s => .sym s
  | .zdt t => .zdt t
  | .ref k i => .ref k i

mutual
def abs : Data → Abs
  | .unit => .unit
  | .bool b => .bool b
  | .native a => .atom (absAtom a)
  | .boxed _ a => .atom (absAtom a)
  | .list l => absList l
  | .block es => .block (absElems es)
def absList : DList → Abs
  | .nil => .nil
  | .cons h t => .cons (abs h) (absList t)
def absElem : Elem → Abs
  | .pair k v => .entry k (abs v)
  | .kvl _ k v _ => .entry k (abs v)
def absElems : Elems → Abs
  | .nil => .nil
  | .cons e es => .cons (absElem e) (absElems es)
end

/-- Numbers for which comparison is exact: valid, and integers at most `2^53` in size. -/
def PlainAtom : Atom → Prop
  | .num n => Ok n ∧ ∀ a, intVal n = some a → a.natAbs ≤ 2 ^ 53
  | _ => True

/-- The box constructor that goes with an atom; type data, which boxes strings, is excluded. -/
def boxFor : Box → Atom → Bool
  | .num, .num _ => true
  | .str, .str _ => true
  | .sym, .sym _ => true
  | .zdt, .zdt _ => true
  | _, _ => false

mutual
/-- Data with exact numbers, properly boxed, in which block elements have just a key and a
value. -/
def Plain : Data → Prop
  | .unit => True
  | .bool _ => True
  | .native a => PlainAtom a
  | .boxed b a => boxFor b a = true ∧ PlainAtom a
  | .list l => PlainList l
  | .block es => PlainElems es
def PlainList : DList → Prop
  | .nil => True
  | .cons h t => Plain h ∧ PlainList t
def PlainElem : Elem → Prop
  | .pair _ v => Plain v
  | .kvl _ _ v m => Plain v ∧ m = .nil
def PlainElems : Elems → Prop
  | .nil => True
  | .cons e es => PlainElem e ∧ PlainElems es
end

/-! ## Blocks as association lists -/

/-- The entries of a block. -/
def entries : Data → List (String × Data)
  | .block es => es.toList.map (fun e => (e.key, e.val))
  | _ => []

def keys (d : Data) : List String := (entries d).map (·.1)

/-- First occurrences, in order. -/
def firsts : List String → List String
  | [] => []
  | k :: ks => k :: (firsts ks).filter (fun x => x ≠ k)

/-- The last entry for a key. -/
def lastVal {α : Type} (k : String) : List (String × α) → Option α
  | [] => none
  | (k', v) :: es => match lastVal k es with
    | some w => some w
    | none => if k' = k then some v else none

def isBlock : Data → Bool
  | .block _ => true
  | _ => false

/-- No repeated keys. -/
def NoRepeats (d : Data) : Prop := (keys d).Nodup

mutual
/-- No repeated keys at any level of nested blocks (values inside lists do not matter). -/
def Distinct : Data → Prop
  | .block es => (es.toList.map Elem.key).Nodup ∧ DistinctElems es
  | _ => True
def DistinctElem : Elem → Prop
  | .pair _ v => Distinct v
  | .kvl _ _ v _ => Distinct v
def DistinctElems : Elems → Prop
  | .nil => True
  | .cons e es => DistinctElem e ∧ DistinctElems es
end

/-- At some path, `a` and `c` have blocks but `b` has something else. -/
inductive Clash : Data → Data → Data → Prop where
  | here {a b c} : isBlock a = true → isBlock b = false → isBlock c = true → Clash a b c
  | there {a b c va vb vc} (k : String) : (k, va) ∈ entries a → (k, vb) ∈ entries b → (k, vc) ∈ entries c →
      Clash va vb vc → Clash a b c

end Verif.Data
