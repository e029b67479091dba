import Verif.ExportModel

/-!
# What a value is as data, and what a document says

Nothing here mentions events or accumulators.
-/

namespace Verif.Export
open Verif.Arith (Num)

mutual
/-- Data: scalars, lists and blocks, each perhaps with a tag.  Keys may be any data. -/
inductive Data where
  | scalar (tag : Option String) (p : Prim)
  | list (tag : Option String) (xs : Items)
  | block (tag : Option String) (fs : Fields)
inductive Items where
  | nil
  | cons (d : Data) (r : Items)
inductive Fields where
  | nil
  | cons (k v : Data) (r : Fields)
end

def Items.ofList : List Data → Items
  | [] => .nil
  | d :: r => .cons d (ofList r)

/-! ## What a value is -/

/-- Two lists agree member by member. -/
inductive Each {α β : Type} (R : α → β → Prop) : List α → List β → Prop where
  | nil : Each R [] []
  | cons {a b as bs} : R a b → Each R as bs → Each R (a :: as) (b :: bs)

/-- An element of a set or a vec as a scalar.  A number must be finite. -/
def ElemIs : Elem → Prim → Prop
  | .num f, p => ∃ n, Arith.fromF64 f = some n ∧ p = .num n
  | .str s, p => p = .str s
  | .sym s, p => p = .sym s

/-- An array is a list of its rows. -/
def NdIs (tag : Option String) : List Nat → (List Nat → Option Int) → Data → Prop
  | [], get, d => ∃ f n, get [] = some f ∧ Arith.fromF64 f = some n ∧ d = .scalar tag (.num n)
  | n :: rest, get, d => ∃ rows : List Data, rows.length = n ∧ d = .list tag (Items.ofList rows) ∧
      ∀ i, ∀ h : i < rows.length, NdIs none rest (fun ix => get (i :: ix)) rows[i]

/-- What a native is as data. -/
inductive NatIs (tag : Option String) : Native → Data → Prop where
  | sym {s} : NatIs tag (.sym s) (.scalar tag (.sym s))
  | str {s} : NatIs tag (.str s) (.scalar tag (.str s))
  | num {n} : NatIs tag (.num n) (.scalar tag (.num n))
  | zdt {t o} : NatIs tag (.zdt t o) (.scalar tag (.zdt t o))
  | set {xs ps} : Each ElemIs xs ps →
      NatIs tag (.set xs) (.list tag (Items.ofList (ps.map (Data.scalar none))))
  | vec {xs ps} : Each ElemIs xs ps →
      NatIs tag (.vec xs) (.list tag (Items.ofList (ps.map (Data.scalar none))))
  | nd {shape get d} : NdIs tag shape get d → NatIs tag (.nd shape get) d

/-- What a box will give when asked. -/
def Cell.value {α : Type} : Cell α → Option α
  | .ready a => some a
  | .susp a => some a
  | .bad => none

/-- The metadata asks that the value be left out. -/
def Meta.Hides (m : Meta) : Prop := m.export_ = .sym "suppress" ∨ m.export_ = .sym "internal"

/-- The metadata asks nothing, or something else. -/
def Meta.Shows (m : Meta) : Prop :=
  m.export_ = .absent ∨ ∃ s, m.export_ = .sym s ∧ s ≠ "suppress" ∧ s ≠ "internal"

/-- The tag the metadata asks for. -/
inductive Meta.Tag (m : Meta) : Option String → Prop where
  | absent : m.tag = .absent → Meta.Tag m none
  | str {c s} : m.tag = .str c → c.value = some s → Meta.Tag m (some s)

/-- A value that asks to be left out. -/
def Hidden (v : Val) : Prop := ∃ m w, v = .ann m w ∧ m.Hides

/-- A function, whatever its metadata. -/
inductive IsFn : Val → Prop where
  | fn : IsFn .fn
  | ann {m v} : IsFn v → IsFn (.ann m v)

/-- The members of a proper list. -/
inductive Spine : Val → List Val → Prop where
  | nil : Spine .nil []
  | cons {h t xs} : Spine t xs → Spine (.cons h t) (h :: xs)
  | ann {m v xs} : Spine v xs → Spine (.ann m v) xs

/-- What a field is: its key and its value. -/
inductive Entry where
  | native (k : Native) (v : Val)
  | listed (k v : Val)

inductive EntryIs : Val → Entry → Prop where
  | pair {k v} : EntryIs (.pair k v) (.native k v)
  | kvlist {l k v} : Spine l [k, v] → EntryIs (.kvlist l) (.listed k v)
  | ann {m e x} : EntryIs e x → EntryIs (.ann m e) x

def Entry.val : Entry → Val
  | .native _ v => v
  | .listed _ v => v

mutual
/-- What a value is as data, its outermost metadata asking for the tag. -/
inductive Is : Val → Data → Prop where
  | plain {v d} : (∀ m w, v ≠ .ann m w) → IsAt none v d → Is v d
  | ann {m v t d} : m.Shows → m.Tag t → IsAt t v d → Is (.ann m v) d
/-- What a value is as data, given the tag; further metadata has no part in it. -/
inductive IsAt : Option String → Val → Data → Prop where
  | unit {t} : IsAt t .unit (.scalar t .null)
  | tt {t} : IsAt t .tt (.scalar t (.bool true))
  | ff {t} : IsAt t .ff (.scalar t (.bool false))
  | box {t c n d} : c.value = some n → NatIs t n d → IsAt t (.box c) d
  | bare {t n d} : NatIs t n d → IsAt t (.bare n) d
  | nil {t} : IsAt t .nil (.list t .nil)
  | cons {t h r ds} : ItemsOf (.cons h r) ds → IsAt t (.cons h r) (.list t ds)
  | block {t i fs} : FieldsOf i fs → IsAt t (.block i) (.block t fs)
  | ann {t m v d} : IsAt t v d → IsAt t (.ann m v) d
/-- The items of a list, without those to be left out. -/
inductive ItemsOf : Val → Items → Prop where
  | nil : ItemsOf .nil .nil
  | cons {h t d ds} : Is h d → ItemsOf t ds → ItemsOf (.cons h t) (.cons d ds)
  | hidden {h t ds} : Hidden h → ItemsOf t ds → ItemsOf (.cons h t) ds
  | ann {m v ds} : ItemsOf v ds → ItemsOf (.ann m v) ds
/-- The fields of a block, without those to be left out and without functions. -/
inductive FieldsOf : Val → Fields → Prop where
  | nil : FieldsOf .nil .nil
  | native {e t k v dk dv fs} : EntryIs e (.native k v) → ¬ IsFn v → NatIs none k dk → Is v dv → FieldsOf t fs →
      FieldsOf (.cons e t) (.cons dk dv fs)
  | listed {e t k v dk dv fs} : EntryIs e (.listed k v) → ¬ IsFn v → Is k dk → Is v dv → FieldsOf t fs →
      FieldsOf (.cons e t) (.cons dk dv fs)
  | hidden {e t x fs} : EntryIs e x → Hidden x.val ∨ IsFn x.val → FieldsOf t fs → FieldsOf (.cons e t) fs
  | ann {m v fs} : FieldsOf v fs → FieldsOf (.ann m v) fs
end

/-! ## Values that the renderer treats as it should

What is left out by `good`: a tag on `null`, on a boolean or on a set, vec or array; a tag that is computed; a tag on a
scalar that is computed; a field that is left out though its value cannot be evaluated; a field given as a list that
is not two shown items, the second no function. -/

/-- A tag that is there as text, if any. -/
def TagLook.plain : TagLook → Bool
  | .absent => true
  | .str (.ready _) => true
  | .str _ => false
  | .fail => true

def TagLook.isAbsent : TagLook → Bool
  | .absent => true
  | _ => false

def goodElem : Elem → Bool
  | .num f => (Arith.fromF64 f).isSome
  | _ => true

/-- All the numbers of an array are there and finite. -/
def goodNd : List Nat → (List Nat → Option Int) → Bool
  | [], get => match get [] with
    | some f => (Arith.fromF64 f).isSome
    | none => false
  | n :: rest, get => (List.range n).all (fun i => goodNd rest (fun ix => get (i :: ix)))

def goodNative : Native → Bool
  | .set xs => xs.all goodElem
  | .vec xs => xs.all goodElem
  | .nd shape get => goodNd shape get
  | _ => true

def spine : Val → Option (List Val)
  | .nil => some []
  | .cons h t => (spine t).map (h :: ·)
  | .ann _ v => spine v
  | _ => none

def isHidden : Val → Bool
  | .ann m _ => match m.export_ with
    | .sym s => s == "suppress" || s == "internal"
    | _ => false
  | _ => false

def isFn : Val → Bool
  | .fn => true
  | .ann _ v => isFn v
  | _ => false

def isFail : Val → Bool
  | .fail => true
  | .ann _ v => isFail v
  | _ => false

def twoShown (l : Val) : Bool :=
  match spine l with
  | some [k, v] => !isHidden k && !isHidden v && !isFn v
  | _ => false

mutual
def good (top : Bool) (tag : TagLook) : Val → Bool
  | .ann m v => if top then m.tag.plain && good false m.tag v else good false tag v
  | .unit => tag.isAbsent
  | .tt => tag.isAbsent
  | .ff => tag.isAbsent
  | .box c => match c with
    | .ready n => goodNative n
    | .susp n => tag.isAbsent && goodNative n
    | .bad => true
  | .bare n => tag.isAbsent && goodNative n
  | .cons h t => good true .absent h && goodItems t
  | .block i => goodFields i
  | _ => true
def goodItems : Val → Bool
  | .ann _ v => goodItems v
  | .cons h t => good true .absent h && goodItems t
  | _ => true
def goodFields : Val → Bool
  | .ann _ v => goodFields v
  | .cons h t => goodEntry h && goodFields t
  | _ => true
def goodEntry : Val → Bool
  | .ann _ v => goodEntry v
  | .pair k v => goodNative k && good true .absent v && !(isHidden v && isFail v)
  | .kvlist l => goodItems l && twoShown l
  | .fail => true
  | _ => false
end

/-- The renderer treats the value as it should. -/
def Good (v : Val) : Prop := good true .absent v = true

/-! ## What a document says -/

/-- The value last given to a key. -/
def LastOf {K V : Type} (k : K) (v : V) (ks : List (K × V)) : Prop :=
  ∃ a b, ks = a ++ (k, v) :: b ∧ ∀ p ∈ b, p.1 ≠ k

/-- A table has each key once, with the value last given to it. -/
def Tabulates {K V : Type} (ks out : List (K × V)) : Prop :=
  (out.map (·.1)).Nodup ∧ ∀ k v, (k, v) ∈ out ↔ LastOf k v ks

open Classical in
/-- The keys in the order of their first appearance. -/
noncomputable def firstKeys {K : Type} : List K → List K
  | [] => []
  | k :: r => k :: (firstKeys r).filter (fun x => x ≠ k)

open Classical in
/-- The keys in the order of their last appearance. -/
noncomputable def lastKeys {K : Type} : List K → List K
  | [] => []
  | k :: r => if k ∈ r then lastKeys r else k :: lastKeys r

/-- A format: the scalars it can carry, whether its keys are text, and what stands for what. -/
structure Target (V : Type) where
  carries : Prim → Prop
  textKeys : Prop
  scalar : Option String → Prim → V → Prop
  list : Option String → List V → V → Prop
  table : Option String → List (V × V) → V → Prop

variable {V : Type}

mutual
/-- A document stands for data. -/
inductive Repr (T : Target V) : Data → V → Prop where
  | scalar {t p v} : T.scalar t p v → Repr T (.scalar t p) v
  | list {t xs vs v} : ReprItems T xs vs → T.list t vs v → Repr T (.list t xs) v
  | block {t fs kvs v} : ReprFields T fs kvs → T.table t kvs v → Repr T (.block t fs) v
inductive ReprItems (T : Target V) : Items → List V → Prop where
  | nil : ReprItems T .nil []
  | cons {d r v vs} : Repr T d v → ReprItems T r vs → ReprItems T (.cons d r) (v :: vs)
inductive ReprFields (T : Target V) : Fields → List (V × V) → Prop where
  | nil : ReprFields T .nil []
  | cons {k d r kv v kvs} : Repr T k kv → Repr T d v → ReprFields T r kvs →
      ReprFields T (.cons k d r) ((kv, v) :: kvs)
end

def Data.IsText : Data → Prop
  | .scalar _ (.sym _) => True
  | .scalar _ (.str _) => True
  | _ => False

mutual
/-- The format can carry the data. -/
def Fits (T : Target V) : Data → Prop
  | .scalar _ p => T.carries p
  | .list _ xs => FitsItems T xs
  | .block _ fs => FitsFields T fs
def FitsItems (T : Target V) : Items → Prop
  | .nil => True
  | .cons d r => Fits T d ∧ FitsItems T r
def FitsFields (T : Target V) : Fields → Prop
  | .nil => True
  | .cons k d r => (T.textKeys → k.IsText) ∧ Fits T k ∧ Fits T d ∧ FitsFields T r
end

/-- Integers are no larger than the largest signed 64-bit integer.  A negative integer is held as a signed one and is
never below the least. -/
def InI64 : Prim → Prop
  | .num (.pos n) => n ≤ 2 ^ 63 - 1
  | _ => True

def jsonTarget (D : Display) : Target Json where
  carries _ := True
  textKeys := True
  scalar _ p v := match p with
    | .null => v = .null
    | .bool b => v = .bool b
    | .sym s => v = .str s
    | .str s => v = .str s
    | .num n => v = .num n
    | .zdt t o => v = .str (D.zdt t o)
  list _ vs v := v = .arr vs
  table _ kvs v := ∃ ks out, kvs = ks.map (fun p => (Json.str p.1, p.2)) ∧ v = .obj out ∧ Tabulates ks out ∧
    out.Pairwise (fun a b => a.1 < b.1)

def tomlTarget : Target Toml where
  carries p := p ≠ .null ∧ InI64 p
  textKeys := True
  scalar _ p v := match p with
    | .null => False
    | .bool b => v = .bool b
    | .sym s => v = .str s
    | .str s => v = .str s
    | .num n => match n with
      | .pos i => v = .int i
      | .neg i => v = .int i
      | .float f => v = .float f
    | .zdt t o => v = .time t o
  list _ vs v := v = .arr vs
  table _ kvs v := ∃ ks out, kvs = ks.map (fun p => (Toml.str p.1, p.2)) ∧ v = .table out ∧ Tabulates ks out ∧
    out.map (·.1) = firstKeys (ks.map (·.1))

/-- A tag beginning with `!` is one with that handle; any other is whole. -/
def TagIs : Option String → Option (String × String) → Prop
  | none, y => y = none
  | some t, y => ∃ p s, y = some (p, s) ∧ t = p ++ s ∧
      (p = "!" ∨ p = "" ∧ ∀ r, t ≠ "!" ++ r)

def yamlTarget (D : Display) : Target Yaml where
  carries p := InI64 p
  textKeys := False
  scalar t p v := ∃ y, TagIs t y ∧ match p with
    | .null => v = .null y
    | .bool b => v = .bool y b
    | .sym s => v = .str y s
    | .str s => v = .str y s
    | .num n => match n with
      | .pos i => v = .int y i
      | .neg i => v = .int y i
      | .float f => v = .real y (D.float f)
    | .zdt a o => v = .str y (D.zdt a o)
  list t vs v := ∃ y, TagIs t y ∧ v = .arr y vs
  table t kvs v := ∃ y out, TagIs t y ∧ v = .hash y out ∧ Tabulates kvs out ∧
    out.map (·.1) = lastKeys (kvs.map (·.1))

/-- Maps are in the order of their keys.  Timestamps of one instant are one key to the library, whatever their offset;
nothing is said of a map with two such keys. -/
def ednTarget (lt : Edn → Edn → Bool) : Target Edn where
  carries _ := True
  textKeys := False
  scalar _ p v := match p with
    | .null => v = .nil
    | .bool b => v = .bool b
    | .sym s => v = .keyword s
    | .str s => v = .str s
    | .num n => match n with
      | .pos i => (i ≤ 2 ^ 63 - 1 ∧ v = .int i) ∨ (2 ^ 63 ≤ i ∧ v = .big i)
      | .neg i => v = .int i
      | .float f => v = .float f
    | .zdt t o => v = .inst t o
  list _ vs v := v = .vector vs
  table _ kvs v := ∃ out, v = .map out ∧
    ((∀ p ∈ kvs, ∀ q ∈ kvs, p.1 = q.1 ∨ lt p.1 q.1 = true ∨ lt q.1 p.1 = true) →
      Tabulates kvs out ∧ out.Pairwise (fun a b => lt a.1 b.1 = true))

/-- In eucalypt's own syntax every field is written. -/
def euTarget : Target Eu where
  carries _ := True
  textKeys := True
  scalar _ p v := match p with
    | .null => v = .null
    | .bool b => v = .bool b
    | .sym s => v = .sym s
    | .str s => v = .str s
    | .num n => v = .num n
    | .zdt t o => v = .zdt t o
  list _ vs v := v = .arr vs
  table _ kvs v := ∃ ks, v = .block ks ∧
    Each (fun (a : Eu × Eu) (b : String × Eu) => (a.1 = .sym b.1 ∨ a.1 = .str b.1) ∧ a.2 = b.2) kvs ks

/-! ## Text and markup -/

def textOf (D : Display) : Prim → String
  | .null => ""
  | .bool true => "true"
  | .bool false => "false"
  | .sym s => s
  | .str s => s
  | .num n => D.num n
  | .zdt t o => D.zdt t o

mutual
/-- The scalars of data, keys and all, in order. -/
def lines (D : Display) : Data → List String
  | .scalar _ p => [textOf D p]
  | .list _ xs => linesItems D xs
  | .block _ fs => linesFields D fs
def linesItems (D : Display) : Items → List String
  | .nil => []
  | .cons d r => lines D d ++ linesItems D r
def linesFields (D : Display) : Fields → List String
  | .nil => []
  | .cons k d r => lines D k ++ lines D d ++ linesFields D r
end

/-- A block of attributes. -/
inductive AttrsOf (D : Display) : Fields → List (String × String) → Prop where
  | nil : AttrsOf D .nil []
  | cons {t u k v r as} : AttrsOf D r as →
      AttrsOf D (.cons (.scalar t k) (.scalar u v) r) ((textOf D k, textOf D v) :: as)

mutual
/-- An element: a list of a tag, attributes and contents; or of a tag only. -/
inductive ElementOf (D : Display) : Data → Element → Prop where
  | full {t u w p fs as cs is} : AttrsOf D fs as → ContentOf D cs is →
      ElementOf D (.list t (.cons (.scalar u p) (.cons (.block w fs) cs))) (.mk (textOf D p) as is)
  | bare {t u p} : ElementOf D (.list t (.cons (.scalar u p) .nil)) (.mk (textOf D p) [] [])
inductive ContentOf (D : Display) : Items → List Item → Prop where
  | nil : ContentOf D .nil []
  | text {t p r is} : ContentOf D r is → ContentOf D (.cons (.scalar t p) r) (.content (textOf D p) :: is)
  | element {d e r is} : ElementOf D d e → ContentOf D r is → ContentOf D (.cons d r) (.element e :: is)
end

end Verif.Export
