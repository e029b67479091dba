import Verif.LibModel

/-!
# `parse-args`

Model of `parse-args` of lib/prelude.eu:2321-2430, which reads the arguments of a command against a block
of defaults. A string is a list of characters. A value that is read as JSON is read only when it is
wanted, so that `bad` is a value here and fails when it is looked at. What JSON a text is is a parameter.
-/

namespace Verif.Args

abbrev Str := List Char

/-- Values of options: the default, `true` as set for a flag, a text, what a text is as JSON, or an error
that comes up only when the value is wanted. -/
inductive Val (J : Type) where
  | dflt (j : J)
  | on
  | text (s : Str)
  | data (j : J)
  | bad
  | list (l : List Str)
deriving DecidableEq

/-- An element of the block of defaults, with the metadata that is looked at: lib/prelude.eu:2319. -/
structure Opt (J : Type) where
  key : Str
  value : J
  /-- whether the default is a number: `number?` -/
  num : Bool
  /-- `flag: true` -/
  flag : Bool
  /-- `short` -/
  short : Option Char
deriving DecidableEq

/-- Errors: `panic` at lib/prelude.eu:2371, 2383, 2395, 2427. -/
inductive Err where
  | unknownLong (name : Str)
  | unknownShort (c : Char)
  | help
  | needsValue (key : Str)
deriving DecidableEq

inductive Res (α : Type) where
  | ok (a : α)
  | fail (e : Err)
deriving DecidableEq

/-- The state of `parse`: lib/prelude.eu:2423; `buf` is there only within the short options. -/
structure State (J : Type) where
  opts : List (Str × Val J)
  rest : List Str
  pending : Option Str
  buf : Option (List Char)
deriving DecidableEq

variable {J : Type}

/-- `merge` of a block and a block of one element, eval/stg/block.rs: in the place of the key if it is
there, and else at the end. -/
def insert (k : Str) (v : Val J) : List (Str × Val J) → List (Str × Val J)
  | [] => [(k, v)]
  | e :: es => if e.1 = k then (k, v) :: es else e :: insert k v es

/-- `build-short-lookup`, lib/prelude.eu:2324-2328: pairs of the short name and the key. -/
def shortLookup : List (Opt J) → List (Char × Str)
  | [] => []
  | o :: os =>
    match o.short with
    | some c => (c, o.key) :: shortLookup os
    | none => shortLookup os

/-- `lookup-or` of a symbol, as in `step`, lib/prelude.eu:2383. -/
def lookupShort (c : Char) : List (Char × Str) → Option Str
  | [] => none
  | p :: ps => if p.1 = c then some p.2 else lookupShort c ps

/-- The first element with the key: `filter(has-key(key))` and `head`, lib/prelude.eu:2332-2333, and
`lookup-or`, line 2341. -/
def entry (k : Str) : List (Opt J) → Option (Opt J)
  | [] => none
  | o :: os => if o.key = k then some o else entry k os

/-- `is-flag`, lib/prelude.eu:2331-2334. -/
def isFlag (defs : List (Opt J)) (k : Str) : Bool :=
  match entry k defs with
  | some o => o.flag
  | none => false

/-- `coerce-value`, lib/prelude.eu:2340-2342. -/
def coerce (json : Str → Option J) (defs : List (Opt J)) (k : Str) (s : Str) : Val J :=
  match entry k defs with
  | some o =>
    if o.num then
      match json s with
      | some j => .data j
      | none => .bad
    else .text s
  | none => .text s

/-- `set-opt`, lib/prelude.eu:2345-2349. -/
def setOpt (k : Str) (v : Val J) (st : State J) : State J :=
  { opts := insert k v st.opts, rest := st.rest, pending := none, buf := none }

/-- `resolve-pending`, lib/prelude.eu:2354-2357, of a state that has a pending key `k`. -/
def resolvePending (json : Str → Option J) (defs : List (Opt J)) (val : Option Str) (k : Str)
    (st : State J) : State J :=
  match (match st.buf with | some b => some b | none => val) with
  | some v => setOpt k (coerce json defs k v) st
  | none => st

/-- What is before the first `=`: the first part of `split-on("=")`, lib/prelude.eu:2364, string.rs:277. -/
def firstPart : Str → Str
  | [] => []
  | c :: cs => if c = '=' then [] else c :: firstPart cs

/-- What is after the first `=`. -/
def afterEq : Str → Str
  | [] => []
  | c :: cs => if c = '=' then cs else afterEq cs

/-- The second part of `split-on("=")`: lib/prelude.eu:2366. -/
def secondPart (s : Str) : Str := firstPart (afterEq s)

/-- `str.contains?("=")`, lib/prelude.eu:2363. -/
def hasEq : Str → Bool
  | [] => false
  | c :: cs => if c = '=' then true else hasEq cs

/-- `process-long`, lib/prelude.eu:2361-2373, of what comes after `--`. -/
def processLong (json : Str → Option J) (defs : List (Opt J)) (st : State J) (name : Str) :
    Res (State J) :=
  let key := if hasEq name then firstPart name else name
  match entry key defs with
  | none => .fail (.unknownLong name)
  | some _ =>
    if hasEq name then .ok (setOpt key (coerce json defs key (secondPart name)) st)
    else if isFlag defs key then .ok (setOpt key .on st)
    else .ok { opts := st.opts, rest := st.rest, pending := some key, buf := none }

/-- `step`, lib/prelude.eu:2379-2386. -/
def shortStep (defs : List (Opt J)) (sl : List (Char × Str)) (st : State J) (c : Char) :
    Res (State J) :=
  match st.pending with
  | some _ => .ok { st with buf := some (match st.buf with | some b => b ++ [c] | none => [c]) }
  | none =>
    match lookupShort c sl with
    | none => .fail (.unknownShort c)
    | some k =>
      if isFlag defs k then .ok (setOpt k .on st)
      else .ok { opts := st.opts, rest := st.rest, pending := some k, buf := none }

/-- `foldl`, with steps that may fail. -/
def foldRes {α β : Type} (f : β → α → Res β) : β → List α → Res β
  | b, [] => .ok b
  | b, a :: as =>
    match f b a with
    | .ok b' => foldRes f b' as
    | .fail e => .fail e

/-- `process-short-chars`, lib/prelude.eu:2377-2390. -/
def processShort (json : Str → Option J) (defs : List (Opt J)) (sl : List (Char × Str)) (st : State J)
    (cs : List Char) : Res (State J) :=
  match foldRes (shortStep defs sl) st cs with
  | .fail e => .fail e
  | .ok st' =>
    match st'.pending with
    | some k => .ok (resolvePending json defs none k st')
    | none => .ok st'

/-- `process-one`, lib/prelude.eu:2393-2398. -/
def processOne (json : Str → Option J) (defs : List (Opt J)) (sl : List (Char × Str)) (st : State J)
    (arg : Str) : Res (State J) :=
  match st.pending with
  | some k => .ok (resolvePending json defs (some arg) k st)
  | none =>
    if arg = ['-', '-', 'h', 'e', 'l', 'p'] then .fail .help
    else
      match arg with
      | '-' :: '-' :: name => processLong json defs st name
      | '-' :: cs => processShort json defs sl st cs
      | _ => .ok { opts := st.opts, rest := st.rest ++ [arg], pending := none, buf := none }

/-- `parse`, lib/prelude.eu:2419-2428. -/
def parse (json : Str → Option J) (defs : List (Opt J)) (args : List Str) :
    Res (List (Str × Val J)) :=
  match foldRes (processOne json defs (shortLookup defs))
      { opts := defs.map fun o => (o.key, .dflt o.value), rest := [], pending := none, buf := none }
      args with
  | .fail e => .fail e
  | .ok st =>
    match st.pending with
    | some k => .fail (.needsValue k)
    | none => .ok (insert ['a', 'r', 'g', 's'] (.list st.rest) st.opts)

end Verif.Args
