import Verif.ParModel

/-!
# What a value shows

Independent of the bytes, of the machine and of processes: what a user sees of a value when all of it is evaluated and rendered,
with the metadata on it and on the values in it.  `shown` is `none` where evaluating some part fails, or where there is nothing
to render (a function, an action).
-/

namespace Verif.Par

mutual
/-- A rendered value. -/
inductive Shown where
  | null
  | bool (b : Bool)
  | num (n : Num)
  | str (s : String)
  | sym (s : String)
  | zdt (z : Nat)
  | type (s : String)
  | list (xs : Items)
  | block (es : Entries)
  | ann (m b : Shown)

/-- The items of a list. -/
inductive Items where
  | nil
  | cons (x : Shown) (xs : Items)

/-- The entries of a block, in order: keys and values. -/
inductive Entries where
  | nil
  | cons (k : Native) (v : Shown) (es : Entries)
end

/-- Whether evaluating this, no deeper than it must, ends well. -/
def ends : Clo → Bool
  | .ann _ b => ends b
  | .run i b => ends i && ends b
  | .pull b => ends b
  | .fail _ => false
  | _ => true

/-- A primitive value by itself. -/
def shownNative : Native → Option Shown
  | .num n => some (.num n)
  | .str s => some (.str s)
  | .sym s => some (.sym s)
  | .zdt z => some (.zdt z)
  | .closed => none

/-- What is in a box. -/
def payload : Clo → Option Native
  | .nat n => some n
  | .ann _ b => payload b
  | .run i b => if ends i then payload b else none
  | .pull b => payload b
  | _ => none

/-- A box with its contents. -/
def boxed : Box → Native → Option Shown
  | .number, .num n => some (.num n)
  | .string, .str s => some (.str s)
  | .symbol, .sym s => some (.sym s)
  | .zdt, .zdt z => some (.zdt z)
  | .typeData, .str s => some (.type s)
  | _, _ => none

/-- The key of an entry: a primitive value, or one in a box. -/
def keyOf : Clo → Option Native
  | .nat n => some n
  | .box _ p => payload p
  | .ann _ b => keyOf b
  | .run i b => if ends i then keyOf b else none
  | .pull b => keyOf b
  | _ => none

mutual
/-- What a value shows. -/
def shown : Clo → Option Shown
  | .nat n => shownNative n
  | .unit => some .null
  | .tt => some (.bool true)
  | .ff => some (.bool false)
  | .box k p => (payload p).bind (boxed k)
  | .nil => some (.list .nil)
  | .cons h t => match shown h, items t with
    | some x, some xs => some (.list (.cons x xs))
    | _, _ => none
  | .block kvs => match entries kvs with
    | some es => some (.block es)
    | none => none
  | .ann m b => match shown m, shown b with
    | some m, some b => some (.ann m b)
    | _, _ => none
  | .run i b => if ends i then shown b else none
  | .pull b => shown b
  | _ => none

/-- The items of a list. -/
def items : Clo → Option Items
  | .nil => some .nil
  | .cons h t => match shown h, items t with
    | some x, some xs => some (.cons x xs)
    | _, _ => none
  | .ann _ b => items b
  | .run i b => if ends i then items b else none
  | .pull b => items b
  | _ => none

/-- The entries of a block. -/
def entries : Clo → Option Entries
  | .nil => some .nil
  | .cons p t => match entry p, entries t with
    | some (k, v), some es => some (.cons k v es)
    | _, _ => none
  | .ann _ b => entries b
  | .run i b => if ends i then entries b else none
  | .pull b => entries b
  | _ => none

/-- An entry of a block: a pair, or a list of a key and a value. -/
def entry : Clo → Option (Native × Shown)
  | .pair k v => match keyOf k, shown v with
    | some k, some v => some (k, v)
    | _, _ => none
  | .kvlist l => entryList l
  | .ann _ b => entry b
  | .run i b => if ends i then entry b else none
  | .pull b => entry b
  | _ => none

/-- The list of a key and a value. -/
def entryList : Clo → Option (Native × Shown)
  | .cons k t => match keyOf k, second t with
    | some k, some v => some (k, v)
    | _, _ => none
  | .ann _ b => entryList b
  | .run i b => if ends i then entryList b else none
  | .pull b => entryList b
  | _ => none

/-- Its second item. -/
def second : Clo → Option Shown
  | .cons v _ => shown v
  | .ann _ b => second b
  | .run i b => if ends i then second b else none
  | .pull b => second b
  | _ => none
end

/-- The elements of a list, not evaluated themselves. -/
def elements : Clo → Option (List Clo)
  | .nil => some []
  | .cons h t => match elements t with
    | some xs => some (h :: xs)
    | none => none
  | .ann _ b => elements b
  | .run i b => if ends i then elements b else none
  | .pull b => elements b
  | _ => none

/-! ## Faults -/

/-- A fault of the program or its data, not of the machinery. -/
def Fault.Proper : Fault → Prop
  | .stale => False
  | .badRoot => False
  | .fuel => False
  | .overflow => False
  | .forkPath => False
  | _ => True

/-! ## Values within limits -/

def Items.length : Items → Nat
  | .nil => 0
  | .cons _ xs => xs.length + 1

def Entries.length : Entries → Nat
  | .nil => 0
  | .cons _ _ es => es.length + 1

/-- A text below four gigabytes. -/
def Short (s : String) : Prop := s.toUTF8.size < 2 ^ 32

/-- A number as the program makes them: the negative kind is negative, and a double is finite. -/
def Num.Ok : Num → Prop
  | .pos _ => True
  | .neg n => 2 ^ 63 ≤ n.toNat
  | .flt n => n.toNat / 2 ^ 52 % 2 ^ 11 ≠ 2047

mutual
/-- Within the limits: texts and counts below `2 ^ 32`, the library reads the date-times it writes, keys are symbols or texts. -/
def Fits (τ : Texts) : Shown → Prop
  | .null => True
  | .bool _ => True
  | .num n => n.Ok
  | .str s => Short s
  | .sym s => Short s
  | .zdt z => Short (τ.print z) ∧ τ.parse (τ.print z) = some z
  | .type s => Short s
  | .list xs => xs.length < 2 ^ 32 ∧ FitsItems τ xs
  | .block es => es.length < 2 ^ 32 ∧ FitsEntries τ es
  | .ann m b => Fits τ m ∧ Fits τ b

/-- The same for items. -/
def FitsItems (τ : Texts) : Items → Prop
  | .nil => True
  | .cons x xs => Fits τ x ∧ FitsItems τ xs

/-- The same for entries. -/
def FitsEntries (τ : Texts) : Entries → Prop
  | .nil => True
  | .cons k v es => (match k with
    | .sym s => Short s
    | .str s => Short s
    | _ => False) ∧ Fits τ v ∧ FitsEntries τ es
end

/-! ## Values whose metadata survives -/

/-- Nothing touches what metadata was noted before. -/
def still : Clo → Bool
  | .ann _ _ => false
  | .run _ _ => false
  | .pull b => still b
  | _ => true

/-- Leaves no metadata noted. -/
def silent : Clo → Bool
  | .ann _ _ => false
  | .run i b => silent i && silent b
  | .pull b => silent b
  | _ => true

mutual
/-- One layer of metadata at most, no intrinsic that forces a value after metadata was met, none that leaves metadata of another
value, and blocks whose entries are pairs; all the way down. -/
def tame : Clo → Bool
  | .ann m b => tame m && tame b && still b
  | .run i b => silent i && tame b
  | .pull b => tame b
  | .cons h t => tame h && tameItems t
  | .block kvs => tameEntries kvs
  | _ => true

/-- The same for the items of a list. -/
def tameItems : Clo → Bool
  | .cons h t => tame h && tameItems t
  | .ann _ b => tameItems b
  | .run _ b => tameItems b
  | .pull b => tameItems b
  | _ => true

/-- The same for the entries of a block. -/
def tameEntries : Clo → Bool
  | .cons p t => tameEntry p && tameEntries t
  | .ann _ b => tameEntries b
  | .run _ b => tameEntries b
  | .pull b => tameEntries b
  | _ => true

/-- An entry that is a pair with an evaluated key. -/
def tameEntry : Clo → Bool
  | .pair (.nat _) v => tame v
  | .ann _ b => tameEntry b
  | .run _ b => tameEntry b
  | .pull b => tameEntry b
  | _ => false
end

end Verif.Par
