import Verif.LensModel

/-!
# Monads of the library

Model of `monad` and the monads made with it: `let`, `for` and `random` of lib/prelude.eu, `state` of
lib/state.eu and `do` of lib/do.eu. Values are of any type, so that a value may be an error that is never
looked at. `io` is left open: any type with its own `bind` and `return` (the `Io` component has more).
The drawing of random numbers is in the `Rand` component.
-/

namespace Verif.Eff

/-- The block given to `monad`, lib/prelude.eu:106. -/
structure Dict (M : Type → Type) where
  bind : {α β : Type} → M α → (α → M β) → M β
  ret : {α : Type} → α → M α

variable {M : Type → Type}

/-- `map`, lib/prelude.eu:114. -/
def Dict.map (m : Dict M) {α β : Type} (f : α → β) (action : M α) : M β :=
  m.bind action fun x => m.ret (f x)

/-- `then`, lib/prelude.eu:117. -/
def Dict.andNext (m : Dict M) {α β : Type} (b : M β) (a : M α) : M β := m.bind a fun _ => b

/-- `and-then`, lib/prelude.eu:120. -/
def Dict.andThen (m : Dict M) {α β : Type} (f : α → M β) (action : M α) : M β := m.bind action f

/-- `join`, lib/prelude.eu:123. -/
def Dict.join (m : Dict M) {α : Type} (mm : M (M α)) : M α := m.bind mm id

/-- `sequence`, lib/prelude.eu:126-129. -/
def Dict.sequence (m : Dict M) {α : Type} : List (M α) → M (List α)
  | [] => m.ret []
  | x :: xs => m.bind x fun hd => m.bind (m.sequence xs) fun r => m.ret (hd :: r)

/-- `map-m`, lib/prelude.eu:132. -/
def Dict.mapM (m : Dict M) {α β : Type} (f : α → M β) (xs : List α) : M (List β) :=
  m.sequence (Lib.map f xs)

/-- `filter-m`, lib/prelude.eu:135-138. -/
def Dict.filterM (m : Dict M) {α : Type} (p : α → M Bool) : List α → M (List α)
  | [] => m.ret []
  | x :: xs => m.bind (p x) fun flag => m.bind (m.filterM p xs) fun rest =>
      m.ret (if flag then x :: rest else rest)

/-- `let`, lib/prelude.eu:2234. -/
def letM : Dict (fun α => α) where
  bind m f := f m
  ret x := x

/-- `for`, lib/prelude.eu:2242. -/
def forM : Dict List where
  bind m f := Lib.concat (Lib.map f m)
  ret v := [v]

/-- What a state action returns: a block, with the names of its keys as they are written. -/
structure Res (σ α : Type) where
  keys : List String
  value : α
  state : σ

/-- `state-ret` and `state-bind`, lib/state.eu:8-16: the block of `state-bind` holds `r` and `run` too.
`random-ret` and `random-bind`, lib/prelude.eu:151-158, are the same with `rest` for `state` (`rest` below). -/
def threadM (σ : Type) (rest : String) : Dict (fun α => σ → Res σ α) where
  bind action f s :=
    let r := action s
    let run := f r.value r.state
    ⟨["r", "run", "value", rest], run.value, run.state⟩
  ret v s := ⟨["value", rest], v, s⟩

abbrev stateM (σ : Type) := threadM σ "state"

abbrev randomM (σ : Type) := threadM σ "rest"

abbrev Act (α : Type) := Lens.D → Res Lens.D α

/-- `state-get`, `state-lift`, `state-query`, lib/state.eu:21, 27, 30. -/
def get : Act Lens.D := fun s => ⟨["value", "state"], s, s⟩

def lift (f : Lens.D → Lens.D) : Act Unit := fun s => ⟨["value", "state"], (), f s⟩

def query {α : Type} (f : Lens.D → α) : Act α := fun s => ⟨["value", "state"], f s, s⟩

/-- `IndexMap::insert`, as used by `Merge`, eval/stg/block.rs. -/
def insert (k : String) (v : Lens.Val) : List (String × Lens.Val) → List (String × Lens.Val)
  | [] => [(k, v)]
  | e :: es => if e.1 = k then (k, v) :: es else e :: insert k v es

def insertAll : List (String × Lens.Val) → List (String × Lens.Val) → List (String × Lens.Val)
  | m, [] => m
  | m, e :: es => insertAll (insert e.1 e.2 m) es

/-- `state-put`, lib/state.eu:24: the block with the one key is merged on top of the state. -/
def putIn (k : String) (v : Lens.D) : Lens.D → Lens.D
  | some (.block es) => v.map fun x => .block (insertAll (insertAll [] es) [(k, x)])
  | _ => none

def put (k : String) (v : Lens.D) : Act Unit := fun s => ⟨["value", "state"], (), putIn k v s⟩

/-- `update-value`, lib/prelude.eu:1881: each value with the key. -/
def updateElems (k : String) (f : Lens.D → Lens.D) : List (String × Lens.Val) → Option (List (String × Lens.Val))
  | [] => some []
  | e :: es =>
    match (if e.1 = k then f (some e.2) else some e.2), updateElems k f es with
    | some v, some r => some ((e.1, v) :: r)
    | _, _ => none

def updateIn (k : String) (f : Lens.D → Lens.D) : Lens.D → Lens.D
  | some (.block es) => (updateElems k f es).map .block
  | _ => none

/-- `state-modify`, lib/state.eu:33. -/
def modify (k : String) (f : Lens.D → Lens.D) : Act Unit := fun s => ⟨["value", "state"], (), updateIn k f s⟩

/-- `set-at` and `mod-at`, lib/state.eu:37-39, which are `=!` and `%!`. -/
def setAt (o : Lens.Optic) (v : Lens.D) : Act Unit := fun s => ⟨["value", "state"], (), Lens.over o (fun _ => v) s⟩

def modAt (o : Lens.Optic) (f : Lens.D → Lens.D) : Act Unit := fun s => ⟨["value", "state"], (), Lens.over o f s⟩

/-- The context of `do`, lib/do.eu:46 and 54. -/
structure Ctx (σ ρ : Type) where
  state : σ
  seed : ρ

/-- `do-ret`, `resume` and `do-bind`, lib/do.eu:23-31: a value and a context in `io`. -/
def doM (io : Dict M) (σ ρ : Type) : Dict (fun α => Ctx σ ρ → M (α × Ctx σ ρ)) where
  bind m f c := io.bind (m c) fun r => f r.1 r.2
  ret v c := io.ret (v, c)

/-- `do-lift-io`, lib/do.eu:37-41. -/
def liftIo (io : Dict M) {σ ρ α : Type} (action : M α) (c : Ctx σ ρ) : M (α × Ctx σ ρ) :=
  io.map (fun v => (v, c)) action

/-- `do-lift-state`, lib/do.eu:44-49. -/
def liftState (io : Dict M) {σ ρ α : Type} (action : σ → Res σ α) (c : Ctx σ ρ) : M (α × Ctx σ ρ) :=
  let s := action c.state
  io.ret (s.value, ⟨s.state, c.seed⟩)

/-- `do-lift-random`, lib/do.eu:52-57. -/
def liftRandom (io : Dict M) {σ ρ α : Type} (action : ρ → Res ρ α) (c : Ctx σ ρ) : M (α × Ctx σ ρ) :=
  let r := action c.seed
  io.ret (r.value, ⟨c.state, r.state⟩)

/-- `do.eval`, lib/do.eu:132. -/
def doEval (io : Dict M) {σ ρ α : Type} (a : Ctx σ ρ → M (α × Ctx σ ρ)) (c : Ctx σ ρ) : M α :=
  io.map Prod.fst (a c)

end Verif.Eff
