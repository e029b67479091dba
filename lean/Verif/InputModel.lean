/-!
# Input descriptors

Models src/syntax/input.rs: `Locator::from`, `infer_format`, `Input::from_str`,
`split_name_prefix` and the two `Display` implementations.  Strings are lists
of characters; `Char.utf8Size` gives the byte lengths that slicing depends on.
The `url` crate is not part of the repository: its parser is a parameter.
-/

namespace Verif.Input

abbrev Str := List Char

/-- What `Url::parse` finds, if it accepts: the parts that are looked at. -/
structure Url where
  scheme : Str
  path : Str
  text : Str
  deriving DecidableEq, Repr

/-- The `url` crate. -/
abbrev UrlParser := Str → Option Url

/-- `Locator`, input.rs:17-46, without the variants that parsing cannot make
and nothing here looks at. -/
inductive Locator
  | url (u : Url)
  | fs (path : Str)
  | resource (s : Str)
  | pseudo (s : Str)
  | stdin
  | cli (s : Str)
  | literal (s : Str)
  deriving DecidableEq, Repr

/-- `char::is_whitespace`: the White_Space property. -/
def isWs (c : Char) : Bool :=
  let n := c.toNat
  (9 ≤ n && n ≤ 13) || n == 32 || n == 0x85 || n == 0xA0 || n == 0x1680 ||
    (0x2000 ≤ n && n ≤ 0x200A) || n == 0x2028 || n == 0x2029 || n == 0x202F || n == 0x205F ||
    n == 0x3000

def trimStart (s : Str) : Str := s.dropWhile isWs
/-- `str::trim`. -/
def trim (s : Str) : Str := (trimStart (trimStart s).reverse).reverse

/-- `strip_prefix`. -/
def stripPrefix : Str → Str → Option Str
  | [], s => some s
  | _ :: _, [] => none
  | p :: ps, c :: cs => if p = c then stripPrefix ps cs else none

/-- `"resource:"`. -/
def resourcePrefix : Str := ['r', 'e', 's', 'o', 'u', 'r', 'c', 'e', ':']
/-- `"pseudo:"`. -/
def pseudoPrefix : Str := ['p', 's', 'e', 'u', 'd', 'o', ':']

/-- `is_windows_drive_path`, input.rs:91-97; on ASCII bytes, which are
characters. -/
def isDrive : Str → Bool
  | a :: b :: c :: _ => a.isAlpha && b == ':' && (c == '\\' || c == '/')
  | _ => false

/-- input.rs:50-54: `&url_text[1..(url_text.len() - 1)]` if it starts with `[`.
`none` is the panic: on `[` alone the range is backwards, and if the last
character takes several bytes the end is not on a character boundary. -/
def chomp (s : Str) : Option Str :=
  match s with
  | '[' :: rest =>
    match rest.getLast? with
    | none => none
    | some c => if c.utf8Size = 1 then some rest.dropLast else none
  | _ => some s

/-- `Locator::normalise`, input.rs:139-148. -/
def Locator.normalise : Locator → Locator
  | .url u =>
    if u.scheme = ['r', 'e', 's', 'o', 'u', 'r', 'c', 'e'] then .resource u.path
    else if u.scheme = ['f', 'i', 'l', 'e'] then .fs u.path
    else .url u
  | l => l

/-- `Locator::from(&str)`, input.rs:48-85.  `none` is the panic. -/
def Locator.ofStr (parse : UrlParser) (s : Str) : Option Locator :=
  match chomp s with
  | none => none
  | some t =>
    if t = ['-'] then some .stdin
    else
      match stripPrefix resourcePrefix t with
      | some r => some (.resource (trim r))
      | none =>
        match stripPrefix pseudoPrefix t with
        | some r => some (.pseudo (trim r))
        | none =>
          if isDrive t then some (.fs t)
          else
            match parse t with
            | some u => some (Locator.normalise (.url u))
            | none => some (.fs t)

/-- Split at every `/`. -/
def splitSlash : Str → Str × List Str
  | [] => ([], [])
  | c :: cs =>
    let r := splitSlash cs
    if c = '/' then ([], r.1 :: r.2) else (c :: r.1, r.2)

/-- `Path::file_name`: the last component, repeated and final slashes and `.`
components not counting; none if it is `..` or there is none. -/
def fileName (p : Str) : Option Str :=
  let r := splitSlash p
  match (r.1 :: r.2).reverse.dropWhile fun c => c == [] || c == ['.'] with
  | [] => none
  | c :: _ => if c = ['.', '.'] then none else some c

/-- `Path::extension`: after the last `.` of the file name, unless that is the
first character. -/
def extension (p : Str) : Option Str :=
  match fileName p with
  | none => none
  | some f =>
    let ext := (f.reverse.takeWhile (· ≠ '.')).reverse
    if ext.length + 1 < f.length then some ext else none

/-- Formats. -/
inductive Fmt
  | json | jsonl | text | toml | edn | yaml | csv | eu | core
  | other (s : Str)
  deriving DecidableEq, Repr

/-- The text of a format. -/
def Fmt.str : Fmt → Str
  | .json => ['j', 's', 'o', 'n']
  | .jsonl => ['j', 's', 'o', 'n', 'l']
  | .text => ['t', 'e', 'x', 't']
  | .toml => ['t', 'o', 'm', 'l']
  | .edn => ['e', 'd', 'n']
  | .yaml => ['y', 'a', 'm', 'l']
  | .csv => ['c', 's', 'v']
  | .eu => ['e', 'u']
  | .core => ['c', 'o', 'r', 'e']
  | .other s => s

/-- `ext_to_format`, input.rs:150-163. -/
def extToFormat (e : Str) : Option Str :=
  if e = ['j', 's', 'o', 'n'] then some Fmt.json.str
  else if e = ['j', 's', 'o', 'n', 'l'] then some Fmt.jsonl.str
  else if e = ['t', 'x', 't'] then some Fmt.text.str
  else if e = ['t', 'o', 'm', 'l'] then some Fmt.toml.str
  else if e = ['e', 'd', 'n'] then some Fmt.edn.str
  else if e = ['y', 'a', 'm', 'l'] then some Fmt.yaml.str
  else if e = ['y', 'm', 'l'] then some Fmt.yaml.str
  else if e = ['c', 's', 'v'] then some Fmt.csv.str
  else if e = ['e', 'u'] then some Fmt.eu.str
  else none

/-- `infer_format`, input.rs:166-192. -/
def Locator.inferFormat : Locator → Option Str
  | .url u => (extension u.path).bind extToFormat
  | .fs p => (extension p).bind extToFormat
  | .stdin => some Fmt.json.str
  | .resource _ => some Fmt.eu.str
  | .pseudo _ => some Fmt.core.str
  | .cli _ | .literal _ => some Fmt.eu.str

/-- `Input`, input.rs:197-205. -/
structure Input where
  locator : Locator
  name : Option Str
  format : Str
  deriving DecidableEq, Repr

/-- `find` and `split_at` and dropping the separator. -/
def splitOnce (c : Char) : Str → Option (Str × Str)
  | [] => none
  | x :: xs =>
    if x = c then some ([], xs)
    else
      match splitOnce c xs with
      | none => none
      | some (a, b) => some (x :: a, b)

/-- `split_name_prefix`, input.rs:261-268. -/
def splitNamePrefix (s : Str) : Option Str × Str :=
  match splitOnce '=' s with
  | some (n, rem) => (some (trim n), trim rem)
  | none => (none, trim s)

/-- `Input::from_str`, input.rs:274-303.  `none` is the panic. -/
def Input.ofStr (parse : UrlParser) (s : Str) : Option Input :=
  let (name, rem) : Option Str × Str :=
    match splitOnce '=' s with
    | some (n, rem) => (some (trim n), rem)
    | none => (none, s)
  let (fmt, rem) : Option Str × Str :=
    match splitOnce '@' rem with
    | some (f, rem) => (some (trim f), rem)
    | none => (none, rem)
  match Locator.ofStr parse (trim rem) with
  | none => none
  | some l => some ⟨l, name, (fmt.or l.inferFormat).getD Fmt.eu.str⟩

/-- `Display for Locator`, input.rs:107-123. -/
def Locator.display : Locator → Str
  | .url u => u.text
  | .fs p => p
  | .resource s => '[' :: (s ++ [']'])
  | .pseudo s => '«' :: (s ++ ['»'])
  | .stdin => ['-']
  | .cli s => '\'' :: (s ++ ['\''])
  | .literal s => '\'' :: '\'' :: '\'' :: (s ++ ['\'', '\'', '\''])

/-- `Display for Input`, input.rs:207-214. -/
def Input.display (i : Input) : Str :=
  match i.name with
  | some n => n ++ '=' :: (i.format ++ '@' :: i.locator.display)
  | none => i.format ++ '@' :: i.locator.display

end Verif.Input
