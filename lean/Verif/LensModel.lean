import Verif.LibModel
import Verif.NestModel

/-!
# Lenses and traversals

Model of lib/lens.eu. An optic takes what to do at a focus (`k`) and gives what to do with the data; the
metadata of `k` carries `fmap`, `pure` and `ap`, which say whether values are fetched, changed, collected
or dealt out. Data are evaluated to the end; what is handed to `k` or comes from it may be an error (`none`)
and is an error of the whole only if it is used. Predicates do not fail. Arrays are not modelled, nor optics
written by hand.
-/

namespace Verif.Lens

inductive Val where
  | atom (n : Int)
  | sym (s : String)
  | list (l : List Val)
  | block (es : List (String × Val))

/-- A value which may turn out to be an error when it is used. -/
abbrev D := Option Val

/-- What the metadata of `k` hold, lib/lens.eu:6-9 and 191-197: `FD` is what `k` returns, `FF` the same
holding a function. `fmapC` is `fmap` for `cons`, `fail` an error in place of what `k` returns. -/
structure Dict where
  FD : Type
  FF : Type
  fmap : (D → D) → FD → FD
  fmapC : (D → D → D) → FD → FF
  pure : D → FD
  ap : FF → FD → FD
  fail : FD

/-- `cons` on evaluated values. -/
def cons : D → D → D
  | some x, some (.list l) => some (.list (x :: l))
  | _, _ => none

/-- `lookup`, lib/prelude.eu:430. -/
def lookup (key : String) : Val → D
  | .block es => Nest.find key es
  | _ => none

/-- `alter-value`, lib/prelude.eu:1866-1877: on each element with the key; the new value is used only there. -/
def alterElems (key : String) (nv : D) : List (String × Val) → Option (List (String × Val))
  | [] => some []
  | e :: es =>
    match (if e.1 = key then nv else some e.2), alterElems key nv es with
    | some v, some r => some ((e.1, v) :: r)
    | _, _ => none

def alterValue (key : String) (nv : D) : Val → D
  | .block es => (alterElems key nv es).map .block
  | _ => none

/-- `!!`, lib/prelude.eu:1462, on lists. -/
def nth (n : Int) : Val → D
  | .list l => Lib.nth n l
  | _ => none

/-- Whether all of the elements of a list are no errors, when it is evaluated to the end. -/
def allOf {α : Type} : List (Option α) → Option (List α)
  | [] => some []
  | some x :: xs => (allOf xs).map (x :: ·)
  | none :: _ => none

/-- `update-nth(n, ->nv)`, lib/prelude.eu:1451. -/
def updateNth (n : Int) (nv : D) : Val → D
  | .list l => ((Lib.updateNth n (fun _ => nv) (l.map some)).bind allOf).map .list
  | _ => none

/-- `update-first(p?, ->nv)`, lib/prelude.eu:1455-1457, on the elements of a list. -/
def updateFirst {α : Type} (p : α → Bool) (nv : Option α) (l : List α) : Option (List α) :=
  let s := Lib.splitWhen p l
  match s.2 with
  | [] => some l
  | _ :: xs => nv.map fun v => Lib.append s.1 (v :: xs)

/-- `filter(p?) head`. -/
def firstOf {α : Type} (p : α → Bool) (l : List α) : Option α := Lib.head (Lib.filter p l)

/-- `elements`, lib/prelude.eu:417: pairs of a key and a value. -/
def elements (es : List (String × Val)) : List Val := es.map fun e => .list [.sym e.1, e.2]

/-- `block`, lib/prelude.eu:421: an error unless each is a pair of a key and a value. -/
def toPairs : List Val → Option (List (String × Val))
  | [] => some []
  | .list [.sym k, v] :: r => (toPairs r).map ((k, v) :: ·)
  | _ :: _ => none

def toBlock : Val → D
  | .list l => (toPairs l).map .block
  | _ => none

/-- `s` of `each`, lib/lens.eu:195-196, and `walk` of `each-element`, lib/lens.eu:244-245. -/
def walk (d : Dict) (k : D → d.FD) : List Val → d.FD
  | [] => d.pure (some (.list []))
  | x :: xs => d.ap (d.fmapC cons (k (some x))) (walk d k xs)

/-- `s` of `filtered`, lib/lens.eu:205-208, and `walk` of `filtered-elements`, lib/lens.eu:255-258. -/
def walkIf (d : Dict) (p : Val → Bool) (k : D → d.FD) : List Val → d.FD
  | [] => d.pure (some (.list []))
  | x :: xs =>
    if p x then d.ap (d.fmapC cons (k (some x))) (walkIf d p k xs)
    else d.ap (d.fmapC cons (d.pure (some x))) (walkIf d p k xs)

/-- `to-list-of`, lib/lens.eu:25: `fmap` keeps what was collected, `ap` joins. -/
def collecting : Dict where
  FD := Option (List D)
  FF := Option (List D)
  fmap _ x := x
  fmapC _ x := x
  pure _ := some []
  ap a b := a.bind fun x => b.map fun y => Lib.append x y
  fail := none

def single (x : D) : Option (List D) := some [x]

/-- The state of `parts-of`, lib/lens.eu:218-222: the values still to be dealt out, which may be an error. -/
def dealing : Dict where
  FD := Option (List D) → D × Option (List D)
  FF := Option (List D) → (D → D) × Option (List D)
  fmap f action st := let r := action st; (f r.1, r.2)
  fmapC f action st := let r := action st; (f r.1, r.2)
  pure v st := (v, st)
  ap fa xa st := let r1 := fa st; let r2 := xa r1.2; (r1.1 r2.1, r2.2)
  fail _ := (none, none)

/-- `pop`, lib/lens.eu:225. -/
def pop (_ : D) (st : Option (List D)) : D × Option (List D) :=
  ((st.bind Lib.head).join, st.bind Lib.tail)

/-- The list which `to-list-of` gives, as a value. -/
def asVal (r : Option (List D)) : D := (r.bind allOf).map .list

/-- The values of a list given to `distribute`. -/
def asState : D → Option (List D)
  | some (.list l) => some (l.map some)
  | _ => none

inductive Optic where
  | identity
  | at (key : String)
  | ix (n : Int)
  | item (p : Val → Bool)
  | element (p : Val → Bool)
  | each
  | filtered (p : Val → Bool)
  | eachElement
  | filteredElements (p : Val → Bool)
  | partsOf (t : Optic)
  | comp (a b : Optic)

/-- The optics of lib/lens.eu: `at` 6-9, `ix` 60-63, `item` 130-133, `element` 149-152, `each` 191-197,
`filtered` 201-209, `parts-of` 215-236, `each-element` 240-247, `filtered-elements` 251-260, and `∘`. -/
def run : Optic → (d : Dict) → (D → d.FD) → D → d.FD
  | .identity, _, k => k
  | .at key, d, k => fun obj => d.fmap (fun nv => obj.bind (alterValue key nv)) (k (obj.bind (lookup key)))
  | .ix n, d, k => fun data => d.fmap (fun nv => data.bind (updateNth n nv)) (k (data.bind (nth n)))
  | .item p, d, k => fun data =>
    match data with
    | some (.list l) => d.fmap (fun nv => (updateFirst p nv l).map .list) (k (firstOf p l))
    | _ => d.fmap (fun _ => none) (k none)
  | .element p, d, k => fun data =>
    match data with
    | some (.block es) =>
      d.fmap (fun nv => ((updateFirst p nv (elements es)).map .list).bind toBlock) (k (firstOf p (elements es)))
    | _ => d.fmap (fun _ => none) (k none)
  | .each, d, k => fun data =>
    match data with
    | some (.list l) => walk d k l
    | _ => d.fail
  | .filtered p, d, k => fun data =>
    match data with
    | some (.list l) => walkIf d p k l
    | _ => d.fail
  | .eachElement, d, k => fun data =>
    match data with
    | some (.block es) => d.fmap (fun r => r.bind toBlock) (walk d k (elements es))
    | _ => d.fmap (fun _ => none) d.fail
  | .filteredElements p, d, k => fun data =>
    match data with
    | some (.block es) => d.fmap (fun r => r.bind toBlock) (walkIf d p k (elements es))
    | _ => d.fmap (fun _ => none) d.fail
  | .partsOf t, d, k => fun data =>
    d.fmap (fun new => (run t dealing pop data (asState new)).1) (k (asVal (run t collecting single data)))
  | .comp a b, d, k => run a d (run b d k)

/-- `view`, lib/lens.eu:17: `fmap` keeps what was fetched; there is no `pure` and no `ap`. -/
def fetching : Dict where
  FD := D
  FF := D
  fmap _ x := x
  fmapC _ x := x
  pure _ := none
  ap _ _ := none
  fail := none

def view (o : Optic) (data : D) : D := run o fetching id data

/-- `over`, lib/lens.eu:21. -/
def changing : Dict where
  FD := D
  FF := D → D
  fmap f x := f x
  fmapC f x := f x
  pure x := x
  ap f x := f x
  fail := none

def over (o : Optic) (fn : D → D) (data : D) : D := run o changing fn data

def toListOf (o : Optic) (data : D) : D := asVal (run o collecting single data)

/-- What may stand in a path, lib/lens.eu:93-95. -/
inductive Seg where
  | key (s : String)
  | index (n : Int)
  | optic (o : Optic)

def Seg.toLens : Seg → Optic
  | .key s => .at s
  | .index n => .ix n
  | .optic o => o

def path (xs : List Seg) : Optic := Lib.foldr .comp .identity (Lib.map Seg.toLens xs)

end Verif.Lens
