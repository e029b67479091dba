import Verif.LibModel

/-!
# Nested blocks in the prelude

Model of functions of lib/prelude.eu on blocks within blocks and lists. Values are evaluated to the end,
so that an error in a part is an error. Functions given to them may fail.
-/

namespace Verif.Nest

/-- Values: what is neither a list nor a block is told apart only by a number. -/
inductive Val where
  | atom (a : Nat)
  | list (l : List Val)
  | block (es : List (String × Val))

/-- The value of the first element with the key: `BLOCK.LOOKUP`, eval/stg/block.rs. -/
def find {ν : Type} (k : String) : List (String × ν) → Option ν
  | [] => none
  | e :: es => if e.1 = k then some e.2 else find k es

/-- `lookup` and `lookup-in`, lib/prelude.eu:430-434: an error if it is no block, or has no such key. -/
def lookup (k : String) : Val → Option Val
  | .block es => find k es
  | _ => none

/-- `has`, lib/prelude.eu:425, on the elements of a block. -/
def has (k : String) (es : List (String × Val)) : Bool :=
  match find k (Lib.map (fun e => (e.1, true)) es) with
  | some b => b
  | none => false

/-- `lookup-path`, lib/prelude.eu:460. -/
def lookupPath (ks : List String) (b : Val) : Option Val :=
  Lib.foldl (fun o k => o.bind (lookup k)) (some b) ks

/-- `lookup-alts`, lib/prelude.eu:451, with `lookup-or`. -/
def lookupOr (k : String) (d : Val) (es : List (String × Val)) : Val :=
  match find k es with
  | some v => v
  | none => d

def lookupAlts (ks : List String) (d : Val) (es : List (String × Val)) : Val :=
  Lib.foldr (fun k a => lookupOr k a es) d ks

/-- `lookup-across`, lib/prelude.eu:454-456. -/
def lookupAcross (k : String) (d : Val) (bs : List (List (String × Val))) : Val :=
  Lib.foldr (fun b a => lookupOr k a b) d bs

/-! ## Changing -/

/-- `update-value`, lib/prelude.eu:1881, with `update?`: on each element with the key. -/
def updateElems (k : String) (f : Val → Option Val) : List (String × Val) → Option (List (String × Val))
  | [] => some []
  | e :: es =>
    match (if e.1 = k then f e.2 else some e.2), updateElems k f es with
    | some v, some r => some ((e.1, v) :: r)
    | _, _ => none

def updateValue (k : String) (f : Val → Option Val) : Val → Option Val
  | .block es => (updateElems k f es).map .block
  | _ => none

/-- `update`, lib/prelude.eu:1889. -/
def update (ks : List String) (f : Val → Option Val) : Val → Option Val :=
  Lib.foldr updateValue f ks

/-- `alter`, lib/prelude.eu:1885. -/
def alter (ks : List String) (v : Val) : Val → Option Val := update ks fun _ => some v

/-- `acc` of `update-value-or`, lib/prelude.eu:1894-1896. -/
def orStep (k : String) (f : Val → Option Val) :
    Option (List (String × Val) × List (String × Val)) → String × Val →
      Option (List (String × Val) × List (String × Val))
  | none, _ => none
  | some st, el =>
    if k = el.1 then (f el.2).map fun v => ((k, v) :: st.1, [])
    else some (el :: st.1, st.2)

/-- `update-value-or`, lib/prelude.eu:1893-1902: as in Lib, with a function that may fail. -/
def updateOrElems (k : String) (f : Val → Option Val) (d : Val) (es : List (String × Val)) :
    Option (List (String × Val)) :=
  match Lib.foldl (orStep k f) (some ([], [(k, d)])) es with
  | none => none
  | some st => some (Lib.reverse (Lib.append st.2 st.1))

def updateValueOr (k : String) (f : Val → Option Val) (d : Val) : Val → Option Val
  | .block es => (updateOrElems k f d es).map .block
  | _ => none

/-- `set-value`, lib/prelude.eu:1905. -/
def setValue (k : String) (v : Val) : Val → Option Val := updateValueOr k (fun _ => some v) v

/-- `tongue`, lib/prelude.eu:1908. -/
def tongue (ks : List String) (v : Val) : Val := Lib.foldr (fun k e => .block [(k, e)]) v ks

/-- `merge`: elements into an ordered map, each in the place of the first with its key; eval/stg/block.rs. -/
def insert (k : String) (v : Val) : List (String × Val) → List (String × Val)
  | [] => [(k, v)]
  | e :: es => if e.1 = k then (k, v) :: es else e :: insert k v es

def insertAll (m : List (String × Val)) : List (String × Val) → List (String × Val)
  | [] => m
  | e :: es => insertAll (insert e.1 e.2 m) es

def merge : Val → Val → Option Val
  | .block l, .block r => some (.block (insertAll (insertAll [] l) r))
  | _, _ => none

/-- `merge-at`, lib/prelude.eu:1913-1917. -/
def mergeAt (v : Val) : List String → Val → Option Val
  | [], b => merge b v
  | k :: ks, b => updateValueOr k (mergeAt v ks) (tongue ks v) b

/-- `select` and `dissoc`, lib/prelude.eu:1857-1863, on elements. -/
def select (ks : List String) (es : List (String × Val)) : List (String × Val) :=
  Lib.filter (fun e => ks.contains e.1) es

def dissoc (ks : List String) (es : List (String × Val)) : List (String × Val) :=
  Lib.filter (fun e => !ks.contains e.1) es

/-- `sort-keys`, lib/prelude.eu:1777-1778. Symbols are compared by their text. -/
def sortKeys (es : List (String × Val)) : List (String × Val) :=
  Lib.qsort (fun a b => decide (a.1 < b.1)) es

/-! ## Finding -/

section
variable {σ β : Type} (emit : σ → List (String × Val) → List β) (next : σ → String → σ)

mutual
/-- `deep-fold`, lib/prelude.eu:468-473. -/
def walk (s : σ) : Val → List β
  | .atom _ => []
  | .list l => walkList s l
  | .block es => Lib.append (emit s es) (walkElems s es)
def walkList (s : σ) : List Val → List β
  | [] => []
  | v :: vs => Lib.append (walk s v) (walkList s vs)
def walkElems (s : σ) : List (String × Val) → List β
  | [] => []
  | e :: es => Lib.append (walkElem s e) (walkElems s es)
def walkElem (s : σ) : String × Val → List β
  | (k, v) => walk (next s k) v
end
end

/-- `deep-find`, lib/prelude.eu:480-483. -/
def deepFind (k : String) (b : Val) : List Val :=
  walk (fun _ es => if has k es then (find k es).toList else []) (fun (_ : Unit) _ => ()) () b

/-- `deep-find-paths`, lib/prelude.eu:489-492. -/
def deepFindPaths (k : String) (b : Val) : List (List String) :=
  walk (fun p es => if has k es then [Lib.append p [k]] else []) (fun p ck => Lib.append p [ck]) [] b

/-- What a part of a query between dots is. -/
inductive Seg where
  | deep
  | one
  | key (k : String)
  deriving DecidableEq

mutual
/-- `desc-pairs`, lib/prelude.eu:503-508. -/
def desc (p : List String) : Val → List (List String × Val)
  | .atom _ => []
  | .list _ => []
  | .block es => (p, .block es) :: descElems p es
def descElems (p : List String) : List (String × Val) → List (List String × Val)
  | [] => []
  | e :: es => Lib.append (descElem p e) (descElems p es)
def descElem (p : List String) : String × Val → List (List String × Val)
  | (k, v) => desc (Lib.append p [k]) v
end

/-- `expand-star`, lib/prelude.eu:510-511. -/
def expand (p : List String) : Val → List (List String × Val)
  | .block es => Lib.map (fun e => (Lib.append p [e.1], e.2)) es
  | _ => []

/-- `match-sym`, lib/prelude.eu:513-516. -/
def matchSym (k : String) (p : List String) : Val → List (List String × Val)
  | .block es => if has k es then (find k es).toList.map fun v => (Lib.append p [k], v) else []
  | _ => []

def mapcat {α β : Type} (f : α → List β) (l : List α) : List β := Lib.concat (Lib.map f l)

/-- `apply-segment`, lib/prelude.eu:518-521. -/
def applySeg (pairs : List (List String × Val)) : Seg → List (List String × Val)
  | .deep => mapcat (fun x => desc x.1 x.2) pairs
  | .one => mapcat (fun x => expand x.1 x.2) pairs
  | .key k => mapcat (fun x => matchSym k x.1 x.2) pairs

/-- `deep-query-fold`, lib/prelude.eu:499-524, of a pattern in parts: there is one at least. -/
def query (segs : List Seg) (b : Val) : List (List String × Val) :=
  Lib.foldl applySeg [([], b)] (if segs.head? = some .deep then segs else .deep :: segs)

/-! ## Matching -/

/-- A pattern of `match?`: something to be equal to, a function, a list, a block. -/
inductive Pat where
  | lit (a : Nat)
  | fn (p : Val → Bool)
  | list (l : List Pat)
  | block (es : List (String × Pat))

mutual
/-- `match?`, lib/prelude.eu:557-574. What is equal to something that is no list and no block is no list
and no block. -/
def matchV : Pat → Val → Bool
  | .lit a, v => match v with
    | .atom b => decide (a = b)
    | _ => false
  | .fn p, v => p v
  | .list l, v => match v with
    | .list vs => decide (Lib.count vs = Lib.count l) && matchL l vs
    | _ => false
  | .block es, v => match v with
    | .block t => matchE es t
    | _ => false
def matchL : List Pat → List Val → Bool
  | p :: ps, v :: vs => matchV p v && matchL ps vs
  | _, _ => true
def matchE : List (String × Pat) → List (String × Val) → Bool
  | [], _ => true
  | e :: es, t => matchEl e t && matchE es t
def matchEl : String × Pat → List (String × Val) → Bool
  | (k, p), t => has k t && (match find k t with
    | some v => matchV p v
    | none => false)
end

end Verif.Nest
