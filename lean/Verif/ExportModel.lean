import Verif.ArithModel

/-!
# Rendering a value and writing it out

`src/eval/stg/render.rs` and `src/eval/stg/emit.rs` turn a value into events; the emitters of `src/export` turn events
into a document.  A value is a finite tree, each node as evaluation to weak head normal form leaves it; `fail` is a
node whose evaluation fails.  Of a block of metadata only the two lookups made here are kept.

Third-party parts are taken by their documented behaviour: `BTreeMap`, `IndexMap` and `LinkedHashMap` when collected
from pairs.  The text that serde_json, yaml-rust, toml, edn-format, pretty and html5ever make of the finished document
is not modelled.  The display of numbers and timestamps is a parameter.
-/

namespace Verif.Export
open Verif.Arith (Num asI64 asU64 asF64 fromF64)

/-- `Primitive`, src/eval/primitive.rs:7-14.  A timestamp is an instant with an offset. -/
inductive Prim where
  | null
  | bool (b : Bool)
  | sym (s : String)
  | str (s : String)
  | num (n : Num)
  | zdt (t off : Int)
  deriving DecidableEq, Repr

/-- `Event`, src/eval/emit.rs:27-49, without the reserved alias. -/
inductive Event where
  | streamStart
  | streamEnd
  | docStart
  | docEnd
  | scalar (tag : Option String) (p : Prim)
  | seqStart (tag : Option String)
  | seqEnd
  | blockStart (tag : Option String)
  | blockEnd
  deriving DecidableEq, Repr

/-! ## Values -/

/-- An element of a set or of a vec, src/eval/memory/set.rs. -/
inductive Elem where
  | num (f : Int)
  | str (s : String)
  | sym (s : String)

/-- `Native`, src/eval/memory/syntax.rs; symbols resolved, pointers followed.  `opaque` stands for a block index, a
random generator and a producer. -/
inductive Native where
  | sym (s : String)
  | str (s : String)
  | num (n : Num)
  | zdt (t off : Int)
  | set (xs : List Elem)
  | vec (xs : List Elem)
  | nd (shape : List Nat) (get : List Nat → Option Int)
  | opaque

/-- What is in a box: a native, a call not yet made that will give one, or a call that will fail.  `wrap`
(src/eval/stg/wrap.rs:84-112) boxes the calls themselves. -/
inductive Cell (α : Type) where
  | ready (a : α)
  | susp (a : α)
  | bad

/-- What looking up `export` in the metadata gives. -/
inductive Look where
  | absent
  | sym (s : String)
  | nonSym
  | fail
  deriving DecidableEq

/-- What looking up `tag` in the metadata gives; anything but a string counts as absent. -/
inductive TagLook where
  | absent
  | str (c : Cell String)
  | fail

structure Meta where
  export_ : Look
  tag : TagLook

inductive Val where
  | unit
  | tt
  | ff
  /-- a boxed number, symbol, string, type or timestamp -/
  | box (c : Cell Native)
  | bare (n : Native)
  | nil
  | cons (h t : Val)
  | block (items : Val)
  /-- `BlockPair` -/
  | pair (k : Native) (v : Val)
  /-- `BlockKvList` -/
  | kvlist (l : Val)
  | fn
  /-- any other constructor -/
  | other
  | ann (m : Meta) (v : Val)
  | fail

/-! ## Rendering -/

/-- What a piece of rendering does: the events it sends, and whether it came to its end. -/
structure Tr where
  evs : List Event
  ok : Bool

def Tr.send (es : List Event) : Tr := ⟨es, true⟩
def Tr.done : Tr := ⟨[], true⟩
def Tr.err : Tr := ⟨[], false⟩

/-- One after the other; nothing is done after an error. -/
def Tr.seq (a b : Tr) : Tr := if a.ok then ⟨a.evs ++ b.evs, b.ok⟩ else a

/-- `set_primitive_to_render_primitive`, emit.rs:88-101. -/
def elemPrim : Elem → Prim
  | .num f => .num ((fromF64 f).getD (.pos 0))
  | .str s => .str s
  | .sym s => .sym s

/-- `emit_ndarray_data`, emit.rs:130-176.  The case of rank one is the general one. -/
def emitNd (tag : Option String) : (shape : List Nat) → (List Nat → Option Int) → List Event
  | [], get => [.scalar tag (.num ((fromF64 ((get []).getD 0)).getD (.pos 0)))]
  | n :: rest, get =>
    .seqStart tag :: ((List.range n).flatMap (fun i => emitNd none rest (fun ix => get (i :: ix))) ++ [.seqEnd])

/-- `EmitNative` and `EmitTagNative`, emit.rs:309-436, with `emit_set` (104-122) and `emit_vec` (191-209).  The
elements of a set come in order. -/
def emitNative (tag : Option String) : Native → Tr
  | .set xs => .send (.seqStart tag :: (xs.map fun e => .scalar none (elemPrim e)) ++ [.seqEnd])
  | .vec xs => .send (.seqStart tag :: (xs.map fun e => .scalar none (elemPrim e)) ++ [.seqEnd])
  | .nd shape get => .send (emitNd tag shape get)
  | .sym s => .send [.scalar tag (.sym s)]
  | .str s => .send [.scalar tag (.str s)]
  | .num n => .send [.scalar tag (.num n)]
  | .zdt t off => .send [.scalar tag (.zdt t off)]
  | .opaque => .err

/-- `Suppresses`, render.rs:325-366.  `none` is an error. -/
def Meta.suppresses (m : Meta) : Option Bool :=
  match m.export_ with
  | .absent => some false
  | .sym s => some (s == "suppress" || s == "internal")
  | .nonSym => none
  | .fail => none

/-- The `demeta` of `Suppresses`, render.rs:37-46, 413. -/
def suppressed : Val → Option Bool
  | .ann m _ => m.suppresses
  | .fail => none
  | _ => some false

/-- `Saturated`, render.rs:304-322, whose argument is evaluated first, through any metadata. -/
def saturated : Val → Option Bool
  | .ann _ v => saturated v
  | .fail => none
  | .fn => some false
  | _ => some true

/-- `tag_from_arg`, emit.rs:212-225: a call not yet made is no native, so no tag. -/
def Cell.tagText : Cell String → Option String
  | .ready s => some s
  | .susp _ => none
  | .bad => none

/-- The start of a list or a block, render.rs:119-132, 137-148, 151-162. -/
def start (e : Option String → Event) : TagLook → Tr
  | .absent => .send [e none]
  | .str c => .send [e c.tagText]
  | .fail => .err

/-- A boxed native, render.rs:63-117.  Without a tag the contents are evaluated; with a tag they are taken as they
are, emit.rs:388-389. -/
def emitBox : TagLook → Cell Native → Tr
  | .absent, .ready n => emitNative none n
  | .absent, .susp n => emitNative none n
  | .absent, .bad => .err
  | .str c, .ready n => emitNative c.tagText n
  | .str _, .susp _ => .err
  | .str _, .bad => .err
  | .fail, _ => .err

/-- The value of a pair is wanted if it is no function and not suppressed, render.rs:409-421; `And` looks at its first
argument first, src/eval/stg/boolean.rs. -/
def wanted (v : Val) : Option Bool :=
  match saturated v with
  | none => none
  | some false => some false
  | some true => (suppressed v).map (!·)

mutual
/-- `Render`, render.rs:29-193.  `top` tells whether the outermost metadata is still to be looked at; `tag` is what
`tagfn` found there. -/
def rend (top : Bool) (tag : TagLook) : Val → Tr
  | .ann m v =>
    if top then
      match m.suppresses with
      | none => .err
      | some true => .done
      | some false => rend false m.tag v
    else rend false tag v
  | .unit => .send [.scalar none .null]
  | .tt => .send [.scalar none (.bool true)]
  | .ff => .send [.scalar none (.bool false)]
  | .box c => emitBox tag c
  | .bare n => emitNative none n
  | .nil => (start .seqStart tag).seq (.send [.seqEnd])
  | .cons h t =>
    (start .seqStart tag).seq (((rend true .absent h).seq (items t)).seq (.send [.seqEnd]))
  | .block i => (start .blockStart tag).seq ((blockItems i).seq (.send [.blockEnd]))
  | .pair _ _ => .err
  | .kvlist _ => .err
  | .fn => .err
  | .other => .err
  | .fail => .err
/-- `RenderItems`, render.rs:218-253. -/
def items : Val → Tr
  | .ann _ v => items v
  | .cons h t => (rend true .absent h).seq (items t)
  | .nil => .done
  | _ => .err
/-- `RenderBlockItems`, render.rs:255-295. -/
def blockItems : Val → Tr
  | .ann _ v => blockItems v
  | .cons h t => (kv h).seq (blockItems t)
  | .nil => .done
  | _ => .err
/-- `RenderKv`, render.rs:400-461. -/
def kv : Val → Tr
  | .ann _ v => kv v
  | .pair k v =>
    match wanted v with
    | none => .err
    | some false => .done
    | some true => (emitNative none k).seq (rend true .absent v)
  | .kvlist l => items l
  | .fail => .err
  | _ => .done
end

/-- `RenderDoc`, render.rs:197-216. -/
def renderDoc (v : Val) : Tr :=
  (Tr.send [.docStart]).seq ((rend true .absent v).seq (.send [.docEnd]))

/-! ## Emitters -/

/-- `Emitter`, src/eval/emit.rs:85-181: the state, `unrepresentable`, `unacceptable` and `emit`, which may write. -/
structure Emitter (σ ω : Type) where
  init : σ
  unrepresentable : Prim → Bool
  unacceptable : σ → Event → Bool
  emit : σ → Event → σ × List ω

variable {σ ω : Type}

/-- `emit_scalar` and `emit_event`, emit.rs:30-70: whether the event is refused. -/
def Emitter.refuses (E : Emitter σ ω) (s : σ) : Event → Bool
  | .scalar t p => E.unrepresentable p || E.unacceptable s (.scalar t p)
  | e => E.unacceptable s e

/-- Send events one by one until one is refused: the state, what was written, and whether all went through. -/
def Emitter.feed (E : Emitter σ ω) (s : σ) : List Event → σ × List ω × Bool
  | [] => (s, [], true)
  | e :: es =>
    if E.refuses s e then (s, [], false)
    else
      let r := E.emit s e
      let q := E.feed r.1 es
      (q.1, r.2 ++ q.2.1, q.2.2)

/-- A run of the driver: start of the stream, the document, and in any case the end of the stream,
src/driver/eval.rs:92-100, 571.  What was written, and whether rendering succeeded. -/
def Emitter.run (E : Emitter σ ω) (v : Val) : List ω × Bool :=
  let a := E.emit E.init .streamStart
  let t := renderDoc v
  let b := E.feed a.1 t.evs
  let c := E.emit b.1 .streamEnd
  (a.2 ++ b.2.1 ++ c.2, t.ok && b.2.2)

/-! ## The accumulator -/

/-- `AsKey`, `FromPrimitive`, `FromVec` and `FromPairs`, src/export/table.rs:8-26. -/
structure Fmt (K V : Type) where
  asKey : V → K
  fromPrim : Option String → Prim → V
  fromVec : Option String → List V → V
  fromPairs : Option String → List (K × V) → V

/-- `Expectation`, table.rs:28-43. -/
inductive Expect (K V : Type) where
  | value (v : V)
  | list (tag : Option String) (xs : List V)
  | even (tag : Option String) (kvs : List (K × V))
  | odd (tag : Option String) (kvs : List (K × V)) (k : K)

variable {K V : Type}

/-- `Expectation::feed`, table.rs:51-68. -/
def Expect.feed (F : Fmt K V) : Expect K V → V → Expect K V
  | .value _, v => .value v
  | .list t xs, v => .list t (xs ++ [v])
  | .even t kvs, v => .odd t kvs (F.asKey v)
  | .odd t kvs k, v => .even t (kvs ++ [(k, v)])

/-- `TableAccumulator`, table.rs:72-93; the top of the stack first. -/
structure Acc (K V : Type) where
  stack : List (Expect K V)
  result : Option V
  opened : Bool

/-- `TableAccumulator::feed`, table.rs:124-131. -/
def feedStack (F : Fmt K V) : List (Expect K V) → V → List (Expect K V)
  | top :: rest, v => top.feed F v :: rest
  | [], v => [.value v]

/-- `consume`, table.rs:134-178. -/
def Acc.consume (F : Fmt K V) (a : Acc K V) : Event → Acc K V
  | .scalar t p => { a with stack := feedStack F a.stack (F.fromPrim t p) }
  | .seqStart t => { a with stack := .list t [] :: a.stack }
  | .seqEnd =>
    match a.stack with
    | .list t xs :: rest => { a with stack := feedStack F rest (F.fromVec t xs) }
    | _ :: rest => { a with stack := rest }
    | [] => a
  | .blockStart t => { a with stack := .even t [] :: a.stack }
  | .blockEnd =>
    match a.stack with
    | .even t kvs :: rest => { a with stack := feedStack F rest (F.fromPairs t kvs) }
    | _ :: rest => { a with stack := rest }
    | [] => a
  | .docStart => { a with opened := true, stack := .value (F.fromPairs none []) :: a.stack }
  | .docEnd => { a with opened := false }
  | .streamStart => a
  | .streamEnd =>
    if a.opened then a
    else
      match a.stack with
      | .value v :: rest => { a with stack := rest, result := some v }
      | _ :: rest => { a with stack := rest }
      | [] => a

/-- `expecting_key`, table.rs:191-196. -/
def Acc.expectingKey (a : Acc K V) : Bool :=
  match a.stack with
  | .even _ _ :: _ => true
  | _ => false

/-- `unrepresentable_key`, src/export/mod.rs:48-86. -/
def unrepresentableKey (expecting : Bool) : Event → Bool
  | .scalar _ (.str _) => false
  | .scalar _ (.sym _) => false
  | .scalar _ _ => expecting
  | .seqStart _ => expecting
  | .blockStart _ => expecting
  | _ => false

/-- The emitters over an accumulator: json.rs:48-82, yaml.rs:98-137, toml.rs:122-157, edn.rs:61-84, eu.rs:130-163. -/
def tableEmitter (F : Fmt K V) (textKeys : Bool) (unrep : Prim → Bool) : Emitter (Acc K V) V where
  init := ⟨[], none, false⟩
  unrepresentable := unrep
  unacceptable a e := textKeys && unrepresentableKey a.expectingKey e
  emit a e :=
    let a' := a.consume F e
    (a', a'.result.toList)

/-! ## The formats -/

/-- How numbers and timestamps are displayed. -/
structure Display where
  num : Num → String
  float : Int → String
  zdt : Int → Int → String
  /-- a document value as text, for a key that is no string -/
  key : String

/-- `yaml_integer_overflow` and `toml_integer_overflow`, yaml.rs:20-32, toml.rs:21-33. -/
def integerOverflow (n : Num) : Bool :=
  match asU64 n with
  | some _ => (asI64 n).isNone
  | none => false

section maps
variable [DecidableEq K]

/-- `BTreeMap::insert`. -/
def btreeInsert (lt : K → K → Bool) (k : K) (v : V) : List (K × V) → List (K × V)
  | [] => [(k, v)]
  | (k', v') :: r =>
    if k = k' then (k, v) :: r
    else if lt k k' then (k, v) :: (k', v') :: r
    else (k', v') :: btreeInsert lt k v r

/-- Collecting pairs into a `BTreeMap`. -/
def btree (lt : K → K → Bool) (kvs : List (K × V)) : List (K × V) :=
  kvs.foldl (fun m kv => btreeInsert lt kv.1 kv.2 m) []

/-- `IndexMap::insert`: a key keeps its place. -/
def indexInsert (k : K) (v : V) : List (K × V) → List (K × V)
  | [] => [(k, v)]
  | (k', v') :: r => if k = k' then (k, v) :: r else (k', v') :: indexInsert k v r

def indexMap (kvs : List (K × V)) : List (K × V) :=
  kvs.foldl (fun m kv => indexInsert kv.1 kv.2 m) []

/-- `LinkedHashMap::insert`: a key moves to the end. -/
def linkedInsert (k : K) (v : V) (m : List (K × V)) : List (K × V) :=
  m.filter (fun kv => kv.1 ≠ k) ++ [(k, v)]

def linkedMap (kvs : List (K × V)) : List (K × V) :=
  kvs.foldl (fun m kv => linkedInsert kv.1 kv.2 m) []

end maps

/-- `serde_json::Value`.  Objects are kept as their entries in order. -/
inductive Json where
  | null
  | bool (b : Bool)
  | num (n : Num)
  | str (s : String)
  | arr (xs : List Json)
  | obj (kvs : List (String × Json))

/-- json.rs:10-46.  serde_json is built without `preserve_order` (Cargo.lock:1991-2001), so objects are sorted. -/
def jsonFmt (D : Display) : Fmt String Json where
  asKey
    | .str s => s
    | _ => D.key
  fromPrim _
    | .null => .null
    | .bool b => .bool b
    | .sym s => .str s
    | .str s => .str s
    | .num n => .num n
    | .zdt t o => .str (D.zdt t o)
  fromVec _ xs := .arr xs
  fromPairs _ kvs := .obj (btree (fun a b => decide (a < b)) kvs)

def jsonEmitter (D : Display) : Emitter (Acc String Json) Json :=
  tableEmitter (jsonFmt D) true (fun _ => false)

/-- `toml::Value`. -/
inductive Toml where
  | bool (b : Bool)
  | int (i : Int)
  | float (f : Int)
  | str (s : String)
  | time (t off : Int)
  | arr (xs : List Toml)
  | table (kvs : List (String × Toml))

/-- toml.rs:59-120.  toml is built with `preserve_order`.  A timestamp always reads back from its rfc3339 form. -/
def tomlFmt (D : Display) : Fmt String Toml where
  asKey
    | .str s => s
    | _ => D.key
  fromPrim _
    | .null => .str ""
    | .bool b => .bool b
    | .sym s => .str s
    | .str s => .str s
    | .num n =>
      if integerOverflow n then .str (D.num n)
      else
        match asI64 n with
        | some i => .int i
        | none => .float (asF64 n)
    | .zdt t o => .time t o
  fromVec _ xs := .arr xs
  fromPairs _ kvs := .table (indexMap kvs)

/-- `toml_unrepresentable`, toml.rs:44-57. -/
def tomlUnrep : Prim → Bool
  | .null => true
  | .num n => integerOverflow n
  | _ => false

def tomlEmitter (D : Display) : Emitter (Acc String Toml) Toml :=
  tableEmitter (tomlFmt D) true tomlUnrep

/-- `yaml_rust::Yaml`, each node with its tag. -/
inductive Yaml where
  | null (tag : Option (String × String))
  | bool (tag : Option (String × String)) (b : Bool)
  | int (tag : Option (String × String)) (i : Int)
  | real (tag : Option (String × String)) (s : String)
  | str (tag : Option (String × String)) (s : String)
  | arr (tag : Option (String × String)) (xs : List Yaml)
  | hash (tag : Option (String × String)) (kvs : List (Yaml × Yaml))

/-- The tag of a node, yaml.rs:34-44. -/
def yamlTag (tag : Option String) : Option (String × String) :=
  tag.map fun t =>
    match t.toList with
    | '!' :: suffix => ("!", String.ofList suffix)
    | _ => ("", t)

open Classical in
/-- yaml.rs:46-96. -/
noncomputable def yamlFmt (D : Display) : Fmt Yaml Yaml where
  asKey v := v
  fromPrim tag
    | .null => .null (yamlTag tag)
    | .bool b => .bool (yamlTag tag) b
    | .sym s => .str (yamlTag tag) s
    | .str s => .str (yamlTag tag) s
    | .num n =>
      if integerOverflow n then .real (yamlTag tag) (D.num n)
      else
        match asI64 n with
        | some i => .int (yamlTag tag) i
        | none => .real (yamlTag tag) (D.float (asF64 n))
    | .zdt t o => .str (yamlTag tag) (D.zdt t o)
  fromVec tag xs := .arr (yamlTag tag) xs
  fromPairs tag kvs := .hash (yamlTag tag) (linkedMap kvs)

noncomputable def yamlEmitter (D : Display) : Emitter (Acc Yaml Yaml) Yaml :=
  tableEmitter (yamlFmt D) false (fun | .num n => integerOverflow n | _ => false)

/-- `edn_format::Value`. -/
inductive Edn where
  | nil
  | bool (b : Bool)
  | keyword (s : String)
  | str (s : String)
  | int (i : Int)
  | big (i : Int)
  | float (f : Int)
  | inst (t off : Int)
  | vector (xs : List Edn)
  | map (kvs : List (Edn × Edn))

open Classical in
/-- edn.rs:12-60.  A map is a `BTreeMap` in the order `lt` that the library derives. -/
noncomputable def ednFmt (lt : Edn → Edn → Bool) : Fmt Edn Edn where
  asKey v := v
  fromPrim _
    | .null => .nil
    | .bool b => .bool b
    | .sym s => .keyword s
    | .str s => .str s
    | .num n =>
      match asI64 n with
      | some i => .int i
      | none =>
        match asU64 n with
        | some u => .big u
        | none => .float (asF64 n)
    | .zdt t o => .inst t o
  fromVec _ xs := .vector xs
  fromPairs _ kvs := .map (btree lt kvs)

noncomputable def ednEmitter (lt : Edn → Edn → Bool) : Emitter (Acc Edn Edn) Edn :=
  tableEmitter (ednFmt lt) false (fun _ => false)

/-- `EuValue`, src/export/eu.rs:16-26. -/
inductive Eu where
  | null
  | bool (b : Bool)
  | sym (s : String)
  | str (s : String)
  | num (n : Num)
  | zdt (t off : Int)
  | arr (xs : List Eu)
  | block (kvs : List (String × Eu))

/-- eu.rs:28-64. -/
def euFmt (D : Display) : Fmt String Eu where
  asKey
    | .sym s => s
    | .str s => s
    | _ => D.key
  fromPrim _
    | .null => .null
    | .bool b => .bool b
    | .sym s => .sym s
    | .str s => .str s
    | .num n => .num n
    | .zdt t o => .zdt t o
  fromVec _ xs := .arr xs
  fromPairs _ kvs := .block kvs

def euEmitter (D : Display) : Emitter (Acc String Eu) Eu :=
  tableEmitter (euFmt D) true (fun _ => false)

/-- `as_text`, src/export/text.rs:35-44 and markup.rs:300-316. -/
def asText (D : Display) : Prim → String
  | .null => ""
  | .bool b => if b then "true" else "false"
  | .sym s => s
  | .str s => s
  | .num n => D.num n
  | .zdt t o => D.zdt t o

/-- `TextEmitter`, text.rs:10-33: a line for each scalar. -/
def textEmitter (D : Display) : Emitter Unit String where
  init := ()
  unrepresentable _ := false
  unacceptable _ _ := false
  emit _
    | .scalar _ p => ((), [asText D p])
    | _ => ((), [])

/-! ## Markup -/

mutual
/-- `Element`, src/export/markup.rs:30-35. -/
inductive Element where
  | mk (tag : String) (attrs : List (String × String)) (content : List Item)
/-- `Item`, markup.rs:60-64. -/
inductive Item where
  | element (e : Element)
  | content (s : String)
end

/-- markup.rs:72-84. -/
inductive MExpect where
  | empty
  | tagged (tag : String)
  | opened (tag : String) (attrs : List (String × String)) (content : List Item)
  | even (attrs : List (String × String))
  | odd (attrs : List (String × String)) (k : String)

/-- `feed_str`, markup.rs:88-103. -/
def MExpect.feedStr (s : String) : MExpect → MExpect
  | .empty => .tagged s
  | .opened t as c => .opened t as (c ++ [.content s])
  | .even as => .odd as s
  | .odd as k => .even (as ++ [(k, s)])
  | e => e

/-- `feed_block`, markup.rs:106-110. -/
def MExpect.feedBlock (b : List (String × String)) : MExpect → MExpect
  | .tagged t => .opened t b []
  | e => e

/-- `feed_element`, markup.rs:113-117. -/
def MExpect.feedElement (e : Element) : MExpect → MExpect
  | .opened t as c => .opened t as (c ++ [.element e])
  | x => x

/-- `MarkupEmitterInternal`, markup.rs:123-127. -/
structure MState where
  stack : List MExpect
  result : Option Element

/-- `unacceptable`, markup.rs:154-196. -/
def MState.unacceptable (m : MState) : Event → Bool
  | .blockStart _ => m.stack.isEmpty && m.result.isNone
  | .scalar _ _ => m.stack.isEmpty && m.result.isNone
  | .seqEnd =>
    match m.stack with
    | .even _ :: _ => true
    | .odd _ _ :: _ => true
    | _ => false
  | .blockEnd =>
    match m.stack with
    | [] => false
    | .even _ :: _ => false
    | _ => true
  | _ => false

/-- Close an element: give it to the one around it, or be done, markup.rs:222-229. -/
def MState.close (m : MState) (e : Element) : List MExpect → MState
  | top :: rest => { m with stack := top.feedElement e :: rest }
  | [] => { stack := [], result := some e }

/-- `emit`, markup.rs:198-262. -/
def MState.emit (D : Display) (m : MState) : Event → MState × List Element
  | .scalar _ p =>
    match m.stack with
    | top :: rest => ({ m with stack := top.feedStr (asText D p) :: rest }, [])
    | [] => (m, [])
  | .seqStart _ => ({ m with stack := .empty :: m.stack }, [])
  | .seqEnd =>
    match m.stack with
    | .tagged t :: rest => (m.close (.mk t [] []) rest, [])
    | .opened t as c :: rest => (m.close (.mk t as c) rest, [])
    | _ :: rest => ({ m with stack := rest }, [])
    | [] => (m, [])
  | .blockStart _ => ({ m with stack := .even [] :: m.stack }, [])
  | .blockEnd =>
    match m.stack with
    | .even as :: top :: rest => ({ m with stack := top.feedBlock as :: rest }, [])
    | .even _ :: [] => ({ m with stack := [] }, [])
    | _ :: rest => ({ m with stack := rest }, [])
    | [] => (m, [])
  | .streamEnd =>
    match m.result with
    | some e => ({ m with result := none }, [e])
    | none => (m, [])
  | _ => (m, [])

def htmlEmitter (D : Display) : Emitter MState Element where
  init := ⟨[], none⟩
  unrepresentable _ := false
  unacceptable m e := m.unacceptable e
  emit m e := m.emit D e

end Verif.Export
