import Mathlib.Data.List.Basic

/-!
# Contracts

Model of lib/contract.eu: `validate` and `ensure`, on types as `TYPE_TO_DATA` gives them (eval/stg/typedata.rs:37-170).
Values are data that are already computed, so that nothing raises; the predicates of values (`number?`, …) answer false on
functions, sets, vectors and arrays. Paths are lists of steps: how they and the violations are written is left out, as is the
text of the type in a violation.
-/

namespace Verif.Contract

/-- Data. `special`: sets, vectors and arrays, by the name of their type. -/
inductive Val where
  | null
  | num (n : Int)
  | str (s : String)
  | sym (s : String)
  | bool (b : Bool)
  | date (n : Int)
  | list (l : List Val)
  | block (es : List (String × Val))
  | fn
  | typeData
  | special (kind : String)

mutual
/-- Types as tagged lists, eval/stg/typedata.rs:37-170. `app`: a constructor such as `Dict` on a type; `other`: bare
constructors, variables, recursive types and lambdas. -/
inductive Ty where
  | prim (name : String)
  | list (t : Ty)
  | tuple (ts : Tys)
  | prefixList (ts : Tys) (tail : Ty)
  | record (fs : Fields) (isOpen : Bool)
  | union (ts : Tys)
  | part (t : Ty)
  | fn
  | litStr (s : String)
  | litSym (s : String)
  | all (t : Ty)
  | app (con : String) (t : Ty)
  | other

inductive Tys where
  | nil
  | cons (t : Ty) (ts : Tys)

inductive Fields where
  | nil
  | cons (k : String) (optional : Bool) (t : Ty) (fs : Fields)
end

def Tys.count : Tys → Nat
  | .nil => 0
  | .cons _ ts => ts.count + 1

def Fields.keys : Fields → List String
  | .nil => []
  | .cons k _ _ fs => k :: fs.keys

/-- `type-name`, lib/contract.eu:27-38. -/
def typeName : Val → String
  | .fn => "function"
  | .null => "null"
  | .num _ => "number"
  | .str _ => "string"
  | .sym _ => "symbol"
  | .bool _ => "bool"
  | .date _ => "datetime"
  | .list _ => "list"
  | .block _ => "block"
  | .typeData => "type-data"
  | .special _ => "unknown"

/-- Steps of `path-key` and `path-index`, lib/contract.eu:57-66. -/
inductive Step where
  | key (k : String)
  | idx (i : Nat)
  deriving DecidableEq

abbrev Path := List Step

/-- Kinds of violation, with what was found. -/
inductive Kind where
  | mismatch (found : String)
  | missing (k : String)
  | unexpected (ks : List String)
  | length (expected found : Nat)
  deriving DecidableEq

/-- `violation`, lib/contract.eu:75. -/
structure Viol where
  path : Path
  kind : Kind
  deriving DecidableEq

/-- `mismatch`, lib/contract.eu:111. -/
def mismatch (p : Path) (v : Val) : List Viol := [⟨p, .mismatch (typeName v)⟩]

/-- `prim-preds`, lib/contract.eu:78-85, with `any?` for other names. -/
def pred (name : String) (v : Val) : Bool :=
  if name = "number" then (match v with | .num _ => true | _ => false)
  else if name = "string" then (match v with | .str _ => true | _ => false)
  else if name = "symbol" then (match v with | .sym _ => true | _ => false)
  else if name = "bool" then (match v with | .bool _ => true | _ => false)
  else if name = "null" then (match v with | .null => true | _ => false)
  else if name = "datetime" then (match v with | .date _ => true | _ => false)
  else true

/-- `accepting-prims`, lib/contract.eu:89. -/
def accepting : List String := ["any", "top", "error", "set", "vec", "array"]

/-- `prim-check`, lib/contract.eu:114-118. -/
def primCheck (name : String) (p : Path) (v : Val) : List Viol :=
  if name ∈ accepting then []
  else if name = "never" then mismatch p v
  else if pred name v then [] else mismatch p v

/-- `zip-with(elem, range(i, …), vs) concat`. -/
def indexed (f : Nat → Val → List Viol) (i : Nat) : List Val → List Viol
  | [] => []
  | v :: vs => f i v ++ indexed f (i + 1) vs

/-- `lookup` of a key. -/
def find (k : String) : List (String × Val) → Option Val
  | [] => none
  | e :: es => if e.1 = k then some e.2 else find k es

/-- `extras`, lib/contract.eu:157-164. -/
def extras (ks : List String) (isOpen : Bool) (p : Path) (es : List (String × Val)) : List Viol :=
  let extra := (es.map Prod.fst).filter (· ∉ ks)
  if isOpen || extra.isEmpty then [] else [⟨p, .unexpected extra⟩]

mutual
/-- `walk`, lib/contract.eu:180-198, with the checks of 120-178 in it. -/
def walk : Ty → Path → Val → List Viol
  | .prim name, p, v => primCheck name p v
  | .list t, p, v =>
    match v with
    | .list l => indexed (fun i x => walk t (p ++ [.idx i]) x) 0 l
    | _ => mismatch p v
  | .tuple ts, p, v =>
    match v with
    | .list l => if ts.count = l.length then walkEach ts p 0 l else [⟨p, .length ts.count l.length⟩]
    | _ => mismatch p v
  | .prefixList ts tail, p, v =>
    match v with
    | .list l =>
      if l.length < ts.count then [⟨p, .length ts.count l.length⟩]
      else walkEach ts p 0 (l.take ts.count) ++
        indexed (fun i x => walk tail (p ++ [.idx i]) x) ts.count (l.drop ts.count)
    | _ => mismatch p v
  | .record fs isOpen, p, v =>
    match v with
    | .block es => walkFields fs p es ++ extras fs.keys isOpen p es
    | _ => mismatch p v
  | .union ts, p, v => if anyOk ts p v then [] else mismatch p v
  | .part t, p, v =>
    match v with
    | .null => []
    | _ => walk t p v
  | .fn, p, v =>
    match v with
    | .fn => []
    | _ => mismatch p v
  | .litStr s, p, v =>
    match v with
    | .str s' => if s' = s then [] else mismatch p v
    | _ => mismatch p v
  | .litSym s, p, v =>
    match v with
    | .sym s' => if s' = s then [] else mismatch p v
    | _ => mismatch p v
  | .all t, p, v => walk t p v
  | .app _ _, _, _ => []
  | .other, _, _ => []

/-- The elements of a tuple. -/
def walkEach : Tys → Path → Nat → List Val → List Viol
  | .cons t ts, p, i, v :: vs => walk t (p ++ [.idx i]) v ++ walkEach ts p (i + 1) vs
  | _, _, _, _ => []

/-- `field-check` of each field, lib/contract.eu:148-155. -/
def walkFields : Fields → Path → List (String × Val) → List Viol
  | .nil, _, _ => []
  | .cons k optional t fs, p, es =>
    (match find k es with
      | some x => walk t (p ++ [.key k]) x
      | none => if optional then [] else [⟨p, .missing k⟩]) ++ walkFields fs p es

/-- `union-check`, lib/contract.eu:166-168. -/
def anyOk : Tys → Path → Val → Bool
  | .nil, _, _ => false
  | .cons t ts, p, v => (walk t p v).isEmpty || anyOk ts p v
end

/-- `validate`, lib/contract.eu:102-201. -/
def validate (t : Ty) (v : Val) : List Viol := walk t [] v

/-- `ensure`, lib/contract.eu:240-248: the data, or the violations that are raised. -/
def ensure (t : Ty) (v : Val) : Except (List Viol) Val :=
  let vs := validate t v
  if vs.isEmpty then .ok v else .error vs

end Verif.Contract
