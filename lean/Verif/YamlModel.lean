/-!
# Reading data: YAML, JSON, JSON lines, TOML, EDN, CSV and text

Transcription of `src/import/yaml.rs`, `jsonl.rs`, `toml.rs`, `edn.rs`, `csv.rs`, `text.rs` and the
choice between them in `src/import/mod.rs`.

The scanners of the formats are libraries and are not modelled: YAML is taken as the events that the
parser of `yaml-rust` gives for one document, TOML and EDN as the values of their libraries, CSV as
its records.  The matching of regular expressions, of which the library is likewise not modelled, is
given by what a regular expression means.  Source positions are left out, and so is the text of error
messages.  Texts are lists of characters.
-/

namespace Verif.Yaml

abbrev Text := List Char

/-! ## Expressions -/

/-- `Primitive`, expr.rs:48-56.  A number is kept as it is written. -/
inductive Prim where
  | null
  | bool (b : Bool)
  | str (s : Text)
  | sym (s : Text)
  | num (s : Text)
deriving DecidableEq, Repr

/-- `Var`, binding.rs:44-61. -/
inductive Var where
  | free (x : Text)
  | bound (scope binder : Nat) (name : Text)
deriving DecidableEq, Repr

/-- The constructors of `Expr` that are neither variables, literals, lets nor lambdas,
expr.rs:328-384; those that the readers of data never make are `other`. -/
inductive Kind where
  | list
  /-- parts: the values, in order -/
  | block (keys : List Text)
  /-- parts: the expression and its metadata -/
  | withMeta
  /-- parts: the function and the arguments -/
  | app
  | bif (name : Text)
  | other (tag : Nat)
deriving DecidableEq, Repr

/-- `Expr`, expr.rs:328-384.  A `let` has the names and the values of its bindings in two lists; its
flag says whether it is a `DefaultBlockLet`. -/
inductive Exp where
  | var (v : Var)
  | lit (p : Prim)
  | letE (ns : List Text) (vs : List Exp) (body : Exp) (dflt : Bool)
  | lam (ps : List Text) (body : Exp)
  | node (k : Kind) (xs : List Exp)
deriving Repr

/-- `names.iter().position(..)`, expr.rs:1579. -/
def position : List Text → Text → Option Nat
  | [], _ => none
  | n :: ns, x => if n = x then some 0 else (position ns x).map (· + 1)

/-- `close_expr_vars` at a variable, expr.rs:1578-1602. -/
def closeVar (names : List Text) (d : Nat) : Var → Var
  | .free x => match position names x with
    | some i => .bound d i x
    | none => .free x
  | .bound s i n => if d ≤ s then .bound (s + 1) i n else .bound s i n

mutual
/-- `close_expr_vars`, expr.rs:1576-1635. -/
def close (names : List Text) (d : Nat) : Exp → Exp
  | .var v => .var (closeVar names d v)
  | .lit p => .lit p
  | .letE ns vs b f => .letE ns (closeL names (d + 1) vs) (close names (d + 1) b) f
  | .lam ps b => .lam ps (close names (d + 1) b)
  | .node k xs => .node k (closeL names d xs)
def closeL (names : List Text) (d : Nat) : List Exp → List Exp
  | [] => []
  | x :: xs => close names d x :: closeL names d xs
end

/-- `core::list`, expr.rs:1952-1954. -/
def listE (xs : List Exp) : Exp := .node .list xs

/-- `IndexMap::insert`: the value of a key already there is replaced where it is. -/
def insertKey (k : Text) (v : Exp) : List (Text × Exp) → List (Text × Exp)
  | [] => [(k, v)]
  | (k', v') :: r => if k' = k then (k, v) :: r else (k', v') :: insertKey k v r

/-- `core::block`, expr.rs:1957-1959: the entries are collected into an index map. -/
def blockE (kvs : List (Text × Exp)) : Exp :=
  let m := kvs.foldl (fun m kv => insertKey kv.1 kv.2 m) []
  .node (.block (m.map (·.1))) (m.map (·.2))

/-- `core::default_let`, expr.rs:1963-1976, with `close_let_scope`, expr.rs:1449-1462. -/
def defaultLet (kvs : List (Text × Exp)) : Exp :=
  let ns := kvs.map (·.1)
  .letE ns (closeL ns 0 (kvs.map (·.2))) (close ns 0 (blockE (ns.map fun n => (n, .var (.free n))))) true

/-! ## Regular expressions -/

/-- The regular expressions used, over classes of characters. -/
inductive Rx where
  | cls (p : Char → Bool)
  /-- any number of characters of a class, `[..]*` -/
  | many (p : Char → Bool)
  /-- so many characters of a class, `[..]{n}` -/
  | rep (n : Nat) (p : Char → Bool)
  | word (w : Text)
  | eps
  | cat (a b : Rx)
  | alt (a b : Rx)
  /-- `^` -/
  | start
  /-- `$` -/
  | stop

/-- What matching means: in the text `pre ++ mid ++ post` the expression matches `mid`. -/
def Rx.Match : Rx → (pre mid post : Text) → Prop
  | .cls p, _, mid, _ => ∃ c, mid = [c] ∧ p c = true
  | .many p, _, mid, _ => ∀ c ∈ mid, p c = true
  | .rep n p, _, mid, _ => mid.length = n ∧ ∀ c ∈ mid, p c = true
  | .word w, _, mid, _ => mid = w
  | .eps, _, mid, _ => mid = []
  | .cat a b, pre, mid, post =>
    ∃ m n, mid = m ++ n ∧ a.Match pre m (n ++ post) ∧ b.Match (pre ++ m) n post
  | .alt a b, pre, mid, post => a.Match pre mid post ∨ b.Match pre mid post
  | .start, pre, mid, _ => mid = [] ∧ pre = []
  | .stop, _, mid, post => mid = [] ∧ post = []

/-- `is_match`: the expression matches somewhere in the text. -/
def Rx.Found (r : Rx) (s : Text) : Prop :=
  ∃ pre mid post, s = pre ++ mid ++ post ∧ r.Match pre mid post

infixr:60 " ⬝ " => Rx.cat

def Rx.opt (a : Rx) : Rx := .alt a .eps
/-- `[..]+` -/
def Rx.some (p : Char → Bool) : Rx := .cls p ⬝ .many p

def digit (c : Char) : Bool := decide ('0' ≤ c ∧ c ≤ '9')
def octal (c : Char) : Bool := decide ('0' ≤ c ∧ c ≤ '7')
def hex (c : Char) : Bool :=
  decide (('0' ≤ c ∧ c ≤ '9') ∨ ('a' ≤ c ∧ c ≤ 'f') ∨ ('A' ≤ c ∧ c ≤ 'F'))
def sign (c : Char) : Bool := decide (c = '-' ∨ c = '+')
def isE (c : Char) : Bool := decide (c = 'e' ∨ c = 'E')
def is (a : Char) (c : Char) : Bool := decide (c = a)

/-- `YAML_SCALAR_PATTERNS`, yaml.rs:574-589, in order. -/
def patterns : List Rx :=
  [ .start ⬝ .cls (fun c => decide (c = 'n' ∨ c = 'N')) ⬝ .word ['u', 'l', 'l'] ⬝ .stop,
    .start ⬝ .word ['N', 'U', 'L', 'L'] ⬝ .stop,
    .start ⬝ .word ['~'] ⬝ .stop,
    .start ⬝ .stop,
    .start ⬝ .cls (fun c => decide (c = 't' ∨ c = 'T')) ⬝ .word ['r', 'u', 'e'] ⬝ .stop,
    .start ⬝ .cls (fun c => decide (c = 'f' ∨ c = 'F')) ⬝ .word ['a', 'l', 's', 'e'] ⬝ .stop,
    .alt (.start ⬝ .word ['T', 'R', 'U', 'E']) (.word ['F', 'A', 'L', 'S', 'E'] ⬝ .stop),
    .start ⬝ .opt (.cls sign) ⬝ .some digit ⬝ .stop,
    .start ⬝ .word ['0', 'o'] ⬝ .some octal ⬝ .stop,
    .start ⬝ .word ['0', 'x'] ⬝ .some hex ⬝ .stop,
    .start ⬝ .opt (.cls sign)
      ⬝ .alt (.cls (is '.') ⬝ .some digit) (.some digit ⬝ .opt (.cls (is '.') ⬝ .many digit))
      ⬝ .opt (.cls isE ⬝ .opt (.cls sign) ⬝ .some digit) ⬝ .stop,
    .start ⬝ .opt (.cls sign)
      ⬝ .alt (.word ['.', 'i', 'n', 'f']) (.alt (.word ['.', 'I', 'n', 'f']) (.word ['.', 'I', 'N', 'F']))
      ⬝ .stop,
    .alt (.start ⬝ .word ['.', 'n', 'a', 'n'])
      (.alt (.word ['.', 'N', 'a', 'N']) (.word ['.', 'N', 'A', 'N'] ⬝ .stop)) ]

/-- `YAML_TIMESTAMP_PATTERN`, yaml.rs:593-595; `\d` is any decimal digit of Unicode, `dig`. -/
def timestampPattern (dig : Char → Bool) : Rx :=
  .start ⬝ .rep 4 dig ⬝ .word ['-'] ⬝ .rep 2 dig ⬝ .word ['-'] ⬝ .rep 2 dig
    ⬝ .opt (.cls (fun c => decide (c = 'T' ∨ c = ' '))
      ⬝ .rep 2 dig ⬝ .word [':'] ⬝ .rep 2 dig ⬝ .word [':'] ⬝ .rep 2 dig
      ⬝ .opt (.word ['.'] ⬝ .some dig)
      ⬝ .opt (.alt (.word ['Z']) (.cls sign ⬝ .rep 2 dig ⬝ .opt (.word [':'] ⬝ .rep 2 dig))))
    ⬝ .stop

/-- What `serde_json::Number::from_str` takes: a number of JSON.  That a number may be out of range, or
lose digits, is left out. -/
def jsonNumber : Rx :=
  .start ⬝ .opt (.cls (is '-'))
    ⬝ .alt (.word ['0']) (.cls (fun c => digit c && !is '0' c) ⬝ .many digit)
    ⬝ .opt (.cls (is '.') ⬝ .some digit)
    ⬝ .opt (.cls isE ⬝ .opt (.cls sign) ⬝ .some digit) ⬝ .stop

/-! ## Scalars -/

/-- `Tag`, yaml.rs:538-546. -/
inductive Tag where
  | null | bool | int | float | str | timestamp
  | general (handle content : Text)
deriving DecidableEq, Repr

/-- `Tag::from_token_type`, yaml.rs:550-567; the token is the handle and the content. -/
def fromToken (t : Text × Text) : Option Tag :=
  if t.1 = ['!', '!'] then
    if t.2 = ['n', 'u', 'l', 'l'] then some .null
    else if t.2 = ['b', 'o', 'o', 'l'] then some .bool
    else if t.2 = ['i', 'n', 't'] then some .int
    else if t.2 = ['f', 'l', 'o', 'a', 't'] then some .float
    else if t.2 = ['s', 't', 'r'] then some .str
    else none
  else some (.general t.1 t.2)

/-- What is outside: the parser of eucalypt expressions with their desugaring (`parse_eu`, yaml.rs:327-344),
that of functions (`parse_eu_fn`, yaml.rs:347-386, giving the parameters and the body), whether a text
is a date there is (`parse_timestamp`, yaml.rs:659-718), the decimal digits and blanks of Unicode, and
the scanner of YAML, giving the events of the first document. -/
structure Outside (Ev : Type) where
  eu : Text → Option Exp
  euFn : Text → Option (List Text × Exp)
  date : Text → Bool
  dig : Char → Bool
  blank : Char → Bool
  scan : Text → Option (List Ev)

open Classical in
/-- `is_timestamp`, yaml.rs:623-630. -/
noncomputable def isTimestamp {Ev} (o : Outside Ev) (s : Text) : Bool :=
  decide ((timestampPattern o.dig).Found s) && o.date s

open Classical in
/-- `infer_tag_for_plain_scalar`, yaml.rs:599-613. -/
noncomputable def infer {Ev} (o : Outside Ev) (s : Text) : Tag :=
  match patterns.findIdx? (fun r => decide (r.Found s)) with
  | some i =>
    if i ≤ 3 then .null else if i ≤ 6 then .bool else if i ≤ 9 then .int
    else if i ≤ 12 then .float else .str
  | none => if isTimestamp o s then .timestamp else .str

/-- `parse_bool`, yaml.rs:720-722. -/
def parseBool (s : Text) : Bool :=
  decide (s = ['T', 'R', 'U', 'E'] ∨ s = ['T', 'r', 'u', 'e'] ∨ s = ['t', 'r', 'u', 'e'])

/-- `text.replacen(' ', "T", 1)`. -/
def spaceToT : Text → Text
  | [] => []
  | c :: cs => if c = ' ' then 'T' :: cs else c :: spaceToT cs

/-- `normalize_timestamp`, yaml.rs:636-654. -/
def normalize (s : Text) : Text :=
  let n := if s.contains ' ' && !s.contains 'T' then spaceToT s else s
  let after := n.dropWhile (fun c => c != 'T')
  if n.contains 'T' && !(after.getLast? == some 'Z') && !after.contains '+' && !after.contains '-'
  then n ++ ['Z'] else n

/-- `SourceError`, as far as it says what is wrong. -/
inductive Err where
  | number (s : Text)
  | merge
  | key
  | alias (id : Nat)
  | code
  | scan
  | jsonl (line : Nat)
deriving DecidableEq, Repr

def tagMeta (t : Text) (s : Text) : Exp :=
  .node .withMeta [.lit (.str s), blockE [(['t', 'a', 'g'], .lit (.str ('!' :: t)))]]

def suppressMeta (s : Text) : Exp :=
  .node .withMeta [.lit (.str s),
    blockE [(['e', 'x', 'p', 'o', 'r', 't'], .lit (.sym ['s', 'u', 'p', 'p', 'r', 'e', 's', 's']))]]

def zdtParse : Text := ['Z', 'D', 'T', '.', 'P', 'A', 'R', 'S', 'E']

/-- `parse_eu_fn`, yaml.rs:347-386: `acore::lam` closes the body. -/
def lamE (ps : List Text) (b : Exp) : Exp := .lam ps (close ps 0 b)

def tagEu : Text := ['e', 'u']
def tagEuFn : Text := ['e', 'u', ':', ':', 'f', 'n']
def tagEuSuppress : Text := ['e', 'u', ':', ':', 's', 'u', 'p', 'p', 'r', 'e', 's', 's']

open Classical in
/-- `convert_scalar` for a tag, yaml.rs:273-313. -/
noncomputable def convertTag {Ev} (o : Outside Ev) (dataOnly : Bool) (text : Text) : Tag → Except Err Exp
  | .null => .ok (.lit .null)
  | .bool => .ok (.lit (.bool (parseBool text)))
  | .str => .ok (.lit (.str text))
  | .int | .float => if jsonNumber.Found text then .ok (.lit (.num text)) else .error (.number text)
  | .timestamp =>
    if dataOnly then .ok (.lit (.str text))
    else .ok (.node .app [.node (.bif zdtParse) [], .lit (.str (normalize text))])
  | .general _ t =>
    if t = tagEu ∧ dataOnly = false then
      match o.eu text with | some e => .ok e | none => .error .code
    else if t = tagEuFn ∧ dataOnly = false then
      match o.euFn text with | some (ps, b) => .ok (lamE ps b) | none => .error .code
    else if t = tagEu ∨ t = tagEuFn then .ok (.lit (.str text))
    else if t = tagEuSuppress then .ok (suppressMeta text)
    else .ok (tagMeta t text)

/-- `convert_scalar`, yaml.rs:252-314. -/
noncomputable def convertScalar {Ev} (o : Outside Ev) (dataOnly : Bool) (text : Text) (plain : Bool)
    (token : Option (Text × Text)) : Except Err Exp :=
  convertTag o dataOnly text
    ((token.bind fromToken).getD (if plain then infer o text else .str))

/-! ## Documents -/

/-- `Event`, of yaml-rust: the beginnings and ends of streams and documents are `other`.  An anchor is
0 when there is none. -/
inductive Ev where
  | other
  | alias (id : Nat)
  | scalar (text : Text) (plain : Bool) (anchor : Nat) (token : Option (Text × Text))
  | seqStart (anchor : Nat)
  | seqEnd
  | mapStart (anchor : Nat)
  | mapEnd
deriving DecidableEq, Repr

/-- `Expectation`, yaml.rs:390-398. -/
inductive Expect where
  | value (e : Exp)
  | list (items : List Exp) (anchor : Nat)
  | even (entries : List (Text × Exp)) (anchor : Nat)
  | odd (entries : List (Text × Exp)) (key : Text) (anchor : Nat)

/-- `Receiver`, yaml.rs:55-66; the top of the stack is the head, the latest anchor is the head. -/
structure Receiver where
  stack : List Expect := []
  anchors : List (Nat × Exp) := []
  error : Option Err := none

/-- `HashMap::get`. -/
def getAnchor (an : List (Nat × Exp)) (i : Nat) : Option Exp :=
  (an.find? (fun p => p.1 == i)).map (·.2)

def putAnchor (an : List (Nat × Exp)) (i : Nat) (e : Exp) : List (Nat × Exp) :=
  if i = 0 then an else (i, e) :: an

/-- `entries.retain(|(k, _)| k != &key); entries.push((key, expr))`, yaml.rs:441-442 and 227-228. -/
def override (es : List (Text × Exp)) (k : Text) (e : Exp) : List (Text × Exp) :=
  es.filter (fun p => decide (p.1 ≠ k)) ++ [(k, e)]

/-- yaml.rs:191-195: an entry is added if there is none of that key. -/
def addNew (es : List (Text × Exp)) (k : Text) (e : Exp) : List (Text × Exp) :=
  if es.any (fun p => decide (p.1 = k)) then es else es ++ [(k, e)]

mutual
/-- `extract_merge_entries`, yaml.rs:205-248. -/
def extract : Exp → Except Err (List (Text × Exp))
  | .letE ns vs _ true => .ok (ns.zip vs)
  | .node .list xs => extractL xs []
  | _ => .error .merge
/-- The loop over the items of a list, yaml.rs:220-231. -/
def extractL : List Exp → List (Text × Exp) → Except Err (List (Text × Exp))
  | [], acc => .ok acc
  | x :: xs, acc =>
    match extract x with
    | .ok es => extractL xs (es.foldl (fun a p => override a p.1 p.2) acc)
    | .error e => .error e
end

/-- `handle_merge`, yaml.rs:179-198. -/
def handleMerge (e : Exp) (es : List (Text × Exp)) (a : Nat) : Except Err Expect :=
  match extract e with
  | .ok ms => .ok (.even (ms.foldl (fun es p => addNew es p.1 p.2) es) a)
  | .error er => .error er

/-- `Expectation::feed`, yaml.rs:409-447. -/
def Expect.feed (e : Exp) : Expect → Except Err Expect
  | .list items a => .ok (.list (items ++ [e]) a)
  | .even es a => match e with
    | .lit (.str s) => .ok (.odd es s a)
    | .lit (.sym s) => .ok (.odd es s a)
    | _ => .error .key
  | .odd es k a => .ok (.even (override es k e) a)
  | .value _ => .ok (.value e)

def mergeKey : Text := ['<', '<']

/-- `Receiver::feed`, yaml.rs:150-176. -/
def Receiver.feed (r : Receiver) (e : Exp) : Receiver :=
  match r.stack with
  | [] => { r with stack := [.value e] }
  | x :: rest =>
    let res := match x with
      | .odd es k a => if k = mergeKey then handleMerge e es a else x.feed e
      | _ => x.feed e
    match res with
    | .ok y => { r with stack := y :: rest }
    | .error er => { r with stack := rest, error := some er }

/-- `MarkedEventReceiver::on_event`, yaml.rs:455-533, with `complete_list` and `complete_block`,
yaml.rs:102-147; `none` is a panic.  The replacement of free names by themselves, yaml.rs:123-137, changes
nothing. -/
noncomputable def Receiver.onEvent (o : Outside Ev) (dataOnly : Bool) (r : Receiver) (ev : Ev) :
    Option Receiver :=
  if r.error.isSome then some r else
  match ev with
  | .other => some r
  | .alias id =>
    match getAnchor r.anchors id with
    | some e => some (r.feed e)
    | none => some { r with error := some (.alias id) }
  | .scalar text plain anchor token =>
    match r.stack with
    | .even _ _ :: _ => some (r.feed (.lit (.sym text)))
    | _ =>
      match convertScalar o dataOnly text plain token with
      | .ok e => some ({ r with anchors := putAnchor r.anchors anchor e }.feed e)
      | .error er => some { r with error := some er }
  | .seqStart a => some { r with stack := .list [] a :: r.stack }
  | .seqEnd =>
    match r.stack with
    | .list items a :: rest =>
      some ({ r with stack := rest, anchors := putAnchor r.anchors a (listE items) }.feed (listE items))
    | _ => none
  | .mapStart a => some { r with stack := .even [] a :: r.stack }
  | .mapEnd =>
    match r.stack with
    | .even es a :: rest =>
      some ({ r with stack := rest, anchors := putAnchor r.anchors a (defaultLet es) }.feed (defaultLet es))
    | _ => none

noncomputable def runEvents (o : Outside Ev) (dataOnly : Bool) : Receiver → List Ev → Option Receiver
  | r, [] => some r
  | r, ev :: evs => (r.onEvent o dataOnly ev).bind (fun r' => runEvents o dataOnly r' evs)

/-- What reading comes to. -/
inductive Outcome where
  | ok (e : Exp)
  | err (e : Err)
  | panic
deriving Repr

/-- `Receiver::core`, yaml.rs:88-94. -/
def Receiver.core (r : Receiver) : Exp :=
  match r.stack with
  | .value e :: _ => e
  | _ => blockE []

/-- `read_yaml` for the events of a text, yaml.rs:25-52. -/
noncomputable def readEvents (o : Outside Ev) (dataOnly : Bool) (evs : List Ev) : Outcome :=
  match runEvents o dataOnly {} evs with
  | none => .panic
  | some r => match r.error with
    | some e => .err e
    | none => .ok r.core

noncomputable def readYaml (o : Outside Ev) (dataOnly : Bool) (text : Text) : Outcome :=
  match o.scan text with
  | none => .err .scan
  | some evs => readEvents o dataOnly evs

/-! ## The other formats -/

/-- `str::lines`: the pieces between line ends, without the last if it is empty, each without a
carriage return at its end. -/
def splitNl : Text → Text → List Text
  | acc, [] => if acc = [] then [] else [acc]
  | acc, c :: cs => if c = '\n' then acc :: splitNl [] cs else splitNl (acc ++ [c]) cs

def dropCr (l : Text) : Text := if l.getLast? = some '\r' then l.dropLast else l

def linesOf (t : Text) : List Text := (splitNl [] t).map dropCr

def trim (blank : Char → Bool) (l : Text) : Text :=
  ((l.dropWhile blank).reverse.dropWhile blank).reverse

/-- The loop of `read_jsonl`, jsonl.rs:20-40; the number is that of the line.  Every line is read with
`data_only` false, jsonl.rs:27. -/
noncomputable def jsonlGo (o : Outside Ev) : Nat → List Text → List Exp → Outcome
  | _, [], acc => .ok (listE acc)
  | n, l :: ls, acc =>
    let t := trim o.blank l
    if t = [] then jsonlGo o (n + 1) ls acc
    else match readYaml o false t with
      | .ok e => jsonlGo o (n + 1) ls (acc ++ [e])
      | .err _ => .err (.jsonl n)
      | .panic => .panic

/-- `read_jsonl`, jsonl.rs:12-43. -/
noncomputable def readJsonl (o : Outside Ev) (text : Text) : Outcome := jsonlGo o 1 (linesOf text) []

/-- `toml::Value`; a float is `none` when it is infinite or not a number. -/
inductive Toml where
  | str (s : Text)
  | int (s : Text)
  | float (s : Option Text)
  | bool (b : Bool)
  | datetime (s : Text)
  | array (xs : List Toml)
  | table (ks : List Text) (vs : List Toml)

mutual
/-- `to_core`, toml.rs:35-64. -/
def tomlCore (dataOnly : Bool) : Toml → Except Err Exp
  | .str s => .ok (.lit (.str s))
  | .int s => .ok (.lit (.num s))
  | .float (some s) => .ok (.lit (.num s))
  | .float none => .error (.number [])
  | .bool b => .ok (.lit (.bool b))
  | .datetime s =>
    if dataOnly then .ok (.lit (.str s))
    else .ok (.node .app [.node (.bif zdtParse) [], .lit (.str s)])
  | .array xs => (tomlCoreL dataOnly xs).map listE
  | .table ks vs => (tomlCoreL dataOnly vs).map fun es => blockE (ks.zip es)
def tomlCoreL (dataOnly : Bool) : List Toml → Except Err (List Exp)
  | [] => .ok []
  | x :: xs => match tomlCore dataOnly x with
    | .error e => .error e
    | .ok e => match tomlCoreL dataOnly xs with
      | .error er => .error er
      | .ok es => .ok (e :: es)
end

/-- `edn_format::Value`; a map has its keys and its values in two lists. -/
inductive Edn where
  | nil
  | bool (b : Bool)
  | char (c : Char)
  | str (s : Text)
  | symbol (name : Text)
  | keyword (name : Text)
  | int (s : Text)
  | float (s : Option Text)
  | big (s : Text)
  | list (xs : List Edn)
  | map (ks vs : List Edn)
  | inst (s : Text)
  | uuid (s : Text)
  | tagged (t : Text) (e : Edn)

/-- `value_to_key`, edn.rs:32-44. -/
def ednKey : Edn → Except Err Text
  | .char c => .ok [c]
  | .str s => .ok s
  | .symbol n => .ok n
  | .keyword n => .ok n
  | _ => .error .key

def ednKeys : List Edn → Except Err (List Text)
  | [] => .ok []
  | k :: ks => match ednKey k with
    | .error e => .error e
    | .ok t => match ednKeys ks with
      | .error e => .error e
      | .ok ts => .ok (t :: ts)

def tagBlock (t : Text) : Exp := blockE [(['t', 'a', 'g'], .lit (.str t))]

mutual
/-- `value_to_core`, edn.rs:46-121: lists, vectors and sets alike are lists.  Which of several errors in
a map is given is not kept. -/
def ednCore (dataOnly : Bool) : Edn → Except Err Exp
  | .nil => .ok (.lit .null)
  | .bool b => .ok (.lit (.bool b))
  | .char c => .ok (.lit (.str [c]))
  | .str s => .ok (.lit (.str s))
  | .symbol n => .ok (.lit (.sym n))
  | .keyword n => .ok (.lit (.sym n))
  | .int s => .ok (.lit (.num s))
  | .float (some s) => .ok (.lit (.num s))
  | .float none => .error (.number [])
  | .big s => .error (.number s)
  | .list xs => (ednCoreL dataOnly xs).map listE
  | .map ks vs => match ednKeys ks with
    | .error e => .error e
    | .ok ts => (ednCoreL dataOnly vs).map fun es => blockE (ts.zip es)
  | .inst s =>
    if dataOnly then .ok (.lit (.str s))
    else .ok (.node .app [.node (.bif zdtParse) [], .lit (.str s)])
  | .uuid s => .ok (.node .withMeta [.lit (.str s), tagBlock ['u', 'u', 'i', 'd']])
  | .tagged t e => (ednCore dataOnly e).map fun x => .node .withMeta [x, tagBlock t]
def ednCoreL (dataOnly : Bool) : List Edn → Except Err (List Exp)
  | [] => .ok []
  | x :: xs => match ednCore dataOnly x with
    | .error e => .error e
    | .ok e => match ednCoreL dataOnly xs with
      | .error er => .error er
      | .ok es => .ok (e :: es)
end

/-- `convert_string_record`, csv.rs:35-42. -/
def csvRow (headers row : List Text) : Exp :=
  blockE ((headers.zip row).map fun p => (p.1, .lit (.str p.2)))

/-- `read_csv`, csv.rs:8-32, of the header and the records. -/
def readCsv (headers : List Text) (rows : List (List Text)) : Exp := listE (rows.map (csvRow headers))

/-- `read_text`, text.rs:8-14. -/
def readText (text : Text) : Exp := listE ((linesOf text).map fun l => .lit (.str l))

/-- A text in one of the formats, for the formats whose libraries are not modelled with what the library
makes of it. -/
inductive Source where
  | yaml (text : Text)
  | json (text : Text)
  | jsonl (text : Text)
  | toml (v : Toml)
  | edn (v : Edn)
  | csv (headers : List Text) (rows : List (List Text))
  | text (t : Text)

def ofExcept : Except Err Exp → Outcome
  | .ok e => .ok e
  | .error e => .err e

/-- `read_to_core_impl`, mod.rs:46-72. -/
noncomputable def readToCore (o : Outside Ev) (dataOnly : Bool) : Source → Outcome
  | .yaml t => readYaml o dataOnly t
  | .json t => readYaml o dataOnly t
  | .jsonl t => readJsonl o t
  | .toml v => ofExcept (tomlCore dataOnly v)
  | .edn v => ofExcept (ednCore dataOnly v)
  | .csv h rs => .ok (readCsv h rs)
  | .text t => .ok (readText t)

end Verif.Yaml
