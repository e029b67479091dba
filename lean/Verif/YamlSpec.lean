import Verif.YamlModel

/-!
# What the data read should be

The schema of YAML for plain scalars, the meaning of a document, and what a value is as an expression.
-/

namespace Verif.Yaml

/-! ## The core schema of YAML 1.2 -/

/-- A run of digits, not empty. -/
def Digits (p : Char → Prop) (s : Text) : Prop := s ≠ [] ∧ ∀ c ∈ s, p c

def Dec (c : Char) : Prop := '0' ≤ c ∧ c ≤ '9'
def Oct (c : Char) : Prop := '0' ≤ c ∧ c ≤ '7'
def Hex (c : Char) : Prop := ('0' ≤ c ∧ c ≤ '9') ∨ ('a' ≤ c ∧ c ≤ 'f') ∨ ('A' ≤ c ∧ c ≤ 'F')

/-- A sign or nothing. -/
def Sign (s : Text) : Prop := s = [] ∨ s = ['-'] ∨ s = ['+']

/-- An exponent or nothing. -/
def Exponent (s : Text) : Prop :=
  s = [] ∨ ∃ e sg ds, s = e :: (sg ++ ds) ∧ (e = 'e' ∨ e = 'E') ∧ Sign sg ∧ Digits Dec ds

def CoreNull (s : Text) : Prop :=
  s = [] ∨ s = ['~'] ∨ s = ['n', 'u', 'l', 'l'] ∨ s = ['N', 'u', 'l', 'l'] ∨ s = ['N', 'U', 'L', 'L']

def CoreBool (s : Text) : Prop :=
  s = ['t', 'r', 'u', 'e'] ∨ s = ['T', 'r', 'u', 'e'] ∨ s = ['T', 'R', 'U', 'E'] ∨
  s = ['f', 'a', 'l', 's', 'e'] ∨ s = ['F', 'a', 'l', 's', 'e'] ∨ s = ['F', 'A', 'L', 'S', 'E']

def CoreInt (s : Text) : Prop :=
  (∃ sg ds, s = sg ++ ds ∧ Sign sg ∧ Digits Dec ds) ∨
  (∃ ds, s = '0' :: 'o' :: ds ∧ Digits Oct ds) ∨ (∃ ds, s = '0' :: 'x' :: ds ∧ Digits Hex ds)

/-- Digits with a point somewhere or without one. -/
def Mantissa (s : Text) : Prop :=
  (∃ ds, s = '.' :: ds ∧ Digits Dec ds) ∨ Digits Dec s ∨
  (∃ ds fs, s = ds ++ '.' :: fs ∧ Digits Dec ds ∧ ∀ c ∈ fs, Dec c)

def CoreFloat (s : Text) : Prop :=
  (∃ sg m e, s = sg ++ (m ++ e) ∧ Sign sg ∧ Mantissa m ∧ Exponent e) ∨
  (∃ sg, Sign sg ∧ (s = sg ++ ['.', 'i', 'n', 'f'] ∨ s = sg ++ ['.', 'I', 'n', 'f'] ∨
    s = sg ++ ['.', 'I', 'N', 'F'])) ∨
  s = ['.', 'n', 'a', 'n'] ∨ s = ['.', 'N', 'a', 'N'] ∨ s = ['.', 'N', 'A', 'N']

open Classical in
/-- What a plain scalar is. -/
noncomputable def schema (s : Text) : Tag :=
  if CoreNull s then .null else if CoreBool s then .bool else if CoreInt s then .int
  else if CoreFloat s then .float else .str

/-- The texts that are taken for a boolean or for a number without being one. -/
def StrayBool (s : Text) : Prop :=
  (['T', 'R', 'U', 'E'] <+: s ∧ s ≠ ['T', 'R', 'U', 'E']) ∨
  (['F', 'A', 'L', 'S', 'E'] <:+ s ∧ s ≠ ['F', 'A', 'L', 'S', 'E'])

def StrayFloat (s : Text) : Prop :=
  (['.', 'n', 'a', 'n'] <+: s ∧ s ≠ ['.', 'n', 'a', 'n']) ∨
  (['.', 'N', 'a', 'N'] <:+: s ∧ s ≠ ['.', 'N', 'a', 'N']) ∨
  (['.', 'N', 'A', 'N'] <:+ s ∧ s ≠ ['.', 'N', 'A', 'N'])

/-- A number of JSON (RFC 8259, section 6). -/
def JsonNumber (s : Text) : Prop :=
  ∃ sg i f e, s = sg ++ (i ++ (f ++ e)) ∧ (sg = [] ∨ sg = ['-']) ∧
    (i = ['0'] ∨ ∃ c ds, i = c :: ds ∧ Dec c ∧ c ≠ '0' ∧ ∀ d ∈ ds, Dec d) ∧
    (f = [] ∨ ∃ ds, f = '.' :: ds ∧ Digits Dec ds) ∧ Exponent e

/-! ## Values -/

/-- What a document says.  A mapping has its keys and its values in two lists; `code` is an embedded
expression, in which names may occur. -/
inductive Y where
  | null
  | bool (b : Bool)
  | num (s : Text)
  | str (s : Text)
  | tagged (t s : Text)
  | suppressed (s : Text)
  | time (s : Text)
  | code (e : Exp)
  | list (ys : List Y)
  | map (ks : List Text) (vs : List Y)

/-- A name refers to the innermost mapping that has it as a key. -/
def resolveVar : List (List Text) → Nat → Var → Var
  | [], _, v => v
  | _ :: _, _, .bound s i n => .bound s i n
  | ns :: Γ, d, .free x => match position ns x with
    | some i => .bound d i x
    | none => resolveVar Γ (d + 1) (.free x)

mutual
/-- The expression with the free names that are keys of the mappings around it, the innermost first,
made to refer to them; `d` counts the binders inside the expression. -/
def resolve (Γ : List (List Text)) (d : Nat) : Exp → Exp
  | .var v => .var (resolveVar Γ d v)
  | .lit p => .lit p
  | .letE ns vs b f => .letE ns (resolveL Γ (d + 1) vs) (resolve Γ (d + 1) b) f
  | .lam ps b => .lam ps (resolve Γ (d + 1) b)
  | .node k xs => .node k (resolveL Γ d xs)
def resolveL (Γ : List (List Text)) (d : Nat) : List Exp → List Exp
  | [] => []
  | x :: xs => resolve Γ d x :: resolveL Γ d xs
end

mutual
/-- A value as an expression, inside mappings with the keys `Γ`: a mapping is a `let` of its entries
whose body is the block of them. -/
def enc (Γ : List (List Text)) : Y → Exp
  | .null => .lit .null
  | .bool b => .lit (.bool b)
  | .num s => .lit (.num s)
  | .str s => .lit (.str s)
  | .tagged t s => .node .withMeta [.lit (.str s),
      .node (.block [['t', 'a', 'g']]) [.lit (.str ('!' :: t))]]
  | .suppressed s => .node .withMeta [.lit (.str s),
      .node (.block [['e', 'x', 'p', 'o', 'r', 't']])
        [.lit (.sym ['s', 'u', 'p', 'p', 'r', 'e', 's', 's'])]]
  | .time s => .node .app [.node (.bif ['Z', 'D', 'T', '.', 'P', 'A', 'R', 'S', 'E']) [], .lit (.str s)]
  | .code e => resolve Γ 0 e
  | .list ys => .node .list (encL Γ ys)
  | .map ks vs => .letE ks (encL (ks :: Γ) vs)
      (.node (.block ks) (ks.zipIdx.map fun p => .var (.bound 0 p.2 p.1))) true
def encL (Γ : List (List Text)) : List Y → List Exp
  | [] => []
  | y :: ys => enc Γ y :: encL Γ ys
end

mutual
/-- No reference leads out of the expression by its number; `d` is the depth. -/
def lc (d : Nat) : Exp → Prop
  | .var (.bound s _ _) => s < d
  | .var (.free _) => True
  | .lit _ => True
  | .letE _ vs b _ => lcL (d + 1) vs ∧ lc (d + 1) b
  | .lam _ b => lc (d + 1) b
  | .node _ xs => lcL d xs
def lcL (d : Nat) : List Exp → Prop
  | [] => True
  | x :: xs => lc d x ∧ lcL d xs
end

mutual
def noFree : Exp → Prop
  | .var (.free _) => False
  | .var _ => True
  | .lit _ => True
  | .letE _ vs b _ => noFreeL vs ∧ noFree b
  | .lam _ b => noFree b
  | .node _ xs => noFreeL xs
def noFreeL : List Exp → Prop
  | [] => True
  | x :: xs => noFree x ∧ noFreeL xs
end

mutual
/-- No name occurs in the code of a value that is not bound in that code. -/
def Y.shut : Y → Prop
  | .code e => noFree e
  | .list ys => shutL ys
  | .map _ vs => shutL vs
  | _ => True
def shutL : List Y → Prop
  | [] => True
  | y :: ys => y.shut ∧ shutL ys
end

/-! ## Scalars -/

open Classical in
/-- What a scalar with a tag says: `eu` and `euFn` give the code that a text is, `dataOnly` says that
there is to be none. -/
noncomputable def tagMeans (eu euFn : Text → Option Exp) (dataOnly : Bool) (t : Text) : Tag → Option Y
  | .null => some .null
  | .bool => some (.bool (decide (t ∈ [['t', 'r', 'u', 'e'], ['T', 'r', 'u', 'e'], ['T', 'R', 'U', 'E']])))
  | .int => if JsonNumber t then some (.num t) else none
  | .float => if JsonNumber t then some (.num t) else none
  | .str => some (.str t)
  | .timestamp => if dataOnly then some (.str t) else some (.time (normalize t))
  | .general _ c =>
    if c = ['e', 'u'] then (if dataOnly then some (.str t) else (eu t).map .code)
    else if c = ['e', 'u', ':', ':', 'f', 'n'] then (if dataOnly then some (.str t) else (euFn t).map .code)
    else if c = ['e', 'u', ':', ':', 's', 'u', 'p', 'p', 'r', 'e', 's', 's'] then some (.suppressed t)
    else some (.tagged c t)

/-- The tags `!!null`, `!!bool`, `!!int`, `!!float` and `!!str`; other tags of that handle say nothing. -/
def coreTag (c : Text) : Option Tag :=
  if c = ['n', 'u', 'l', 'l'] then some .null else if c = ['b', 'o', 'o', 'l'] then some .bool
  else if c = ['i', 'n', 't'] then some .int else if c = ['f', 'l', 'o', 'a', 't'] then some .float
  else if c = ['s', 't', 'r'] then some .str else none

/-- What a scalar says: `untagged` is what a plain one without a tag is, one in quotes is a string. -/
noncomputable def scalarMeans (untagged : Text → Tag) (eu euFn : Text → Option Exp) (dataOnly : Bool)
    (t : Text) (plain : Bool) (token : Option (Text × Text)) : Option Y :=
  let self := if plain then untagged t else .str
  tagMeans eu euFn dataOnly t (match token with
    | none => self
    | some (h, c) => if h = ['!', '!'] then (coreTag c).getD self else .general h c)

/-- The functions of a text. -/
def fnOf (o : Outside Ev) (t : Text) : Option Exp := (o.euFn t).map fun p => lamE p.1 p.2

/-- The code of the outside is closed but for names. -/
def Closed (o : Outside Ev) : Prop :=
  (∀ t e, o.eu t = some e → lc 0 e) ∧ ∀ t ps e, o.euFn t = some (ps, e) → lc 0 e

/-! ## Documents -/

mutual
/-- A document of YAML: an anchor is 0 when there is none, a mapping has keys that are themselves nodes. -/
inductive Doc where
  | scalar (text : Text) (plain : Bool) (anchor : Nat) (token : Option (Text × Text))
  | seq (anchor : Nat) (items : Docs)
  | map (anchor : Nat) (entries : Ents)
  | alias (id : Nat)
inductive Docs where
  | nil
  | cons (d : Doc) (ds : Docs)
inductive Ents where
  | nil
  | cons (k v : Doc) (es : Ents)
end

mutual
/-- The events of a document, in order. -/
def Doc.events : Doc → List Ev
  | .scalar t p a g => [.scalar t p a g]
  | .seq a ds => .seqStart a :: (ds.events ++ [.seqEnd])
  | .map a es => .mapStart a :: (es.events ++ [.mapEnd])
  | .alias i => [.alias i]
def Docs.events : Docs → List Ev
  | .nil => []
  | .cons d ds => d.events ++ ds.events
def Ents.events : Ents → List Ev
  | .nil => []
  | .cons k v es => k.events ++ (v.events ++ es.events)
end

/-- An entry written into a mapping: the key, the value and whether the key is written out (or else comes
from a mapping that is merged in). -/
structure Write where
  key : Text
  val : Y
  own : Bool

/-- Which entries count: of those written out the last of a key; of those merged in the first of a key,
if the key is nowhere written out. -/
def counts (before : List Write) (w : Write) (after : List Write) : Prop :=
  if w.own then ∀ u ∈ after, u.own → u.key ≠ w.key
  else (∀ u ∈ before, u.key ≠ w.key) ∧ (∀ u ∈ after, u.own → u.key ≠ w.key)

open Classical in
noncomputable def settleGo (before : List Write) : List Write → List (Text × Y)
  | [] => []
  | w :: ws =>
    if counts before w ws then (w.key, w.val) :: settleGo (before ++ [w]) ws
    else settleGo (before ++ [w]) ws

/-- The entries of a mapping. -/
noncomputable def settle (ws : List Write) : List (Text × Y) := settleGo [] ws

/-- The value of a key. -/
def valueOf (es : List (Text × Y)) (k : Text) : Option Y := (es.find? (fun p => p.1 == k)).map (·.2)

mutual
/-- The entries that a value merged in brings: those of a mapping, or those of all mappings of a list,
where a later one goes before an earlier. -/
noncomputable def merged : Y → Option (List (Text × Y))
  | .map ks vs => some (ks.zip vs)
  | .list ys => (mergedL ys).map fun es => settle (es.map fun p => ⟨p.1, p.2, true⟩)
  | _ => none
noncomputable def mergedL : List Y → Option (List (Text × Y))
  | [] => some []
  | y :: ys => match merged y, mergedL ys with
    | some a, some b => some (a ++ b)
    | _, _ => none
end

abbrev Env := List (Nat × Y)

def Env.get (env : Env) (i : Nat) : Option Y := (env.find? (fun p => p.1 == i)).map (·.2)
def Env.put (env : Env) (i : Nat) (y : Y) : Env := if i = 0 then env else (i, y) :: env

open Classical in
mutual
/-- The meaning of a document, `sc` being that of scalars: an alias is a copy of what its anchor is on,
the key `<<` merges, and any node that is a scalar may be a key, as it is written.  With `strict`, a
value merged in must not have names in it that are to be found outside its code. -/
noncomputable def mean (sc : Text → Bool → Option (Text × Text) → Option Y) (strict : Bool) :
    Doc → Env → Option (Y × Env)
  | .scalar t p a g, env => (sc t p g).map fun y => (y, env.put a y)
  | .seq a ds, env => (meanL sc strict ds env).map fun r => (.list r.1, r.2.put a (.list r.1))
  | .map a es, env => (meanE sc strict es env).map fun r =>
      let m := Y.map ((settle r.1).map (·.1)) ((settle r.1).map (·.2))
      (m, r.2.put a m)
  | .alias i, env => (env.get i).map fun y => (y, env)
noncomputable def meanL (sc : Text → Bool → Option (Text × Text) → Option Y) (strict : Bool) :
    Docs → Env → Option (List Y × Env)
  | .nil, env => some ([], env)
  | .cons d ds, env => (mean sc strict d env).bind fun r =>
      (meanL sc strict ds r.2).map fun q => (r.1 :: q.1, q.2)
/-- A key. -/
noncomputable def meanK (sc : Text → Bool → Option (Text × Text) → Option Y) (strict : Bool) :
    Doc → Env → Option (Text × Env)
  | .scalar t _ a _, env => some (t, env.put a (.str t))
  | .alias i, env => match env.get i with
    | some (.str t) => some (t, env)
    | _ => none
  | .seq _ _, _ => none
  | .map _ _, _ => none
noncomputable def meanE (sc : Text → Bool → Option (Text × Text) → Option Y) (strict : Bool) :
    Ents → Env → Option (List Write × Env)
  | .nil, env => some ([], env)
  | .cons k v es, env => (meanK sc strict k env).bind fun r =>
      (mean sc strict v r.2).bind fun q =>
        (if r.1 = ['<', '<'] then
          (if strict = true ∧ ¬ q.1.shut then none
           else (merged q.1).map fun ms => ms.map fun p => ⟨p.1, p.2, false⟩)
         else some [⟨r.1, q.1, true⟩]).bind fun ws =>
          (meanE sc strict es q.2).map fun u => (ws ++ u.1, u.2)
end

mutual
/-- No key of the document has an anchor. -/
def Doc.bareKeys : Doc → Prop
  | .scalar _ _ _ _ => True
  | .seq _ ds => ds.bareKeys
  | .map _ es => es.bareKeys
  | .alias _ => True
def Docs.bareKeys : Docs → Prop
  | .nil => True
  | .cons d ds => d.bareKeys ∧ ds.bareKeys
def Ents.bareKeys : Ents → Prop
  | .nil => True
  | .cons k v es => k.bareKey ∧ v.bareKeys ∧ es.bareKeys
def Doc.bareKey : Doc → Prop
  | .scalar _ _ a _ => a = 0
  | .seq _ ds => ds.bareKeys
  | .map _ es => es.bareKeys
  | .alias _ => True
end

/-- What is read of a plain scalar without a tag is what its kind says; a date may be read as one where
there is a string. -/
def Conforms (k : Tag) (s : Text) (x : Except Err Exp) : Prop :=
  match k with
  | .null => x = .ok (.lit .null)
  | .bool => x = .ok (.lit (.bool (decide (s ∈ [['t', 'r', 'u', 'e'], ['T', 'r', 'u', 'e'], ['T', 'R', 'U', 'E']]))))
  | .int => x = .ok (.lit (.num s)) ∨ x = .error (.number s)
  | .float => x = .ok (.lit (.num s)) ∨ x = .error (.number s)
  | _ => x = .ok (.lit (.str s)) ∨ ∃ t, x = .ok (enc [] (.time t))

/-! ## Parts of what is read -/

/-- The value of a key of a block. -/
def Exp.at : Exp → Text → Option Exp
  | .node (.block ks) vs, k => ((ks.zip vs).find? (fun p => p.1 == k)).map (·.2)
  | _, _ => none

/-- An item of a list. -/
def Exp.item : Exp → Nat → Option Exp
  | .node .list xs, i => xs[i]?
  | _, _ => none

/-- What a key of EDN is called. -/
def Edn.name : Edn → Option Text
  | .char c => some [c]
  | .str s => some s
  | .symbol n => some n
  | .keyword n => some n
  | _ => none

/-! ## Data without code -/

mutual
/-- Nothing is there to be evaluated: no function, no application, no intrinsic, no name that is to be
found outside. -/
def Inert : Exp → Prop
  | .var (.free _) => False
  | .var (.bound _ _ _) => True
  | .lit _ => True
  | .letE _ vs b _ => InertL vs ∧ Inert b
  | .lam _ _ => False
  | .node .list xs => InertL xs
  | .node (.block _) xs => InertL xs
  | .node .withMeta xs => InertL xs
  | .node .app _ => False
  | .node (.bif _) _ => False
  | .node (.other _) _ => False
def InertL : List Exp → Prop
  | [] => True
  | x :: xs => Inert x ∧ InertL xs
end

end Verif.Yaml
