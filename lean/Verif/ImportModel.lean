/-!
# Imports

Models src/syntax/import.rs (`ImportGraph`) and the loading of imports in
src/driver/source.rs (`load`, `load_tree_as`, `load_simple`, `load_source`).

The graph algorithms are petgraph's (0.6), which is a dependency and not part
of the repository; `toposort` and `Bfs` are transcribed from that library:
`Graph::neighbors` yields the most recently added edge first, `toposort` is a
depth-first search followed by a second one over the reversed edges, `Bfs` uses
a queue.  Loops are run with a bound on the number of steps, which the theorems
show is never reached.
-/

namespace Verif.Import

abbrev Edges := List (Nat × Nat)

/-- `Graph::neighbors`. -/
def succs (es : Edges) (v : Nat) : List Nat := (es.reverse.filter fun e => e.1 = v).map Prod.snd
/-- `Reversed(g).neighbors`. -/
def preds (es : Edges) (v : Nat) : List Nat := (es.reverse.filter fun e => e.2 = v).map Prod.fst

/-! ## `petgraph::algo::toposort` -/

/-- The search state; the top of the stack is the head of its list, and the last
node finished is the head of `finished` (so it is already reversed). -/
structure Dfs where
  stack : List Nat
  discovered : List Nat
  finished : List Nat
  deriving DecidableEq, Repr

/-- Results of a bounded loop. -/
inductive Res (α : Type)
  | ok (a : α)
  | cycle (v : Nat)
  | fuel
  deriving DecidableEq, Repr

/-- `for succ in g.neighbors(nx) { if succ == nx { return Err } if !discovered
{ stack.push(succ) } }`; `none` is the error. -/
def pushAll (disc : List Nat) (nx : Nat) : List Nat → List Nat → Option (List Nat)
  | [], stack => some stack
  | s :: ss, stack =>
    if s = nx then none
    else if s ∈ disc then pushAll disc nx ss stack
    else pushAll disc nx ss (s :: stack)

/-- `while let Some(&nx) = dfs.stack.last()`. -/
def walk (es : Edges) : Nat → Dfs → Res Dfs
  | 0, _ => .fuel
  | k + 1, d =>
    match d.stack with
    | [] => .ok d
    | nx :: rest =>
      if nx ∈ d.discovered then
        walk es k ⟨rest, d.discovered,
          if nx ∈ d.finished then d.finished else nx :: d.finished⟩
      else
        match pushAll (nx :: d.discovered) nx (succs es nx) (nx :: rest) with
        | none => .cycle nx
        | some stack => walk es k ⟨stack, nx :: d.discovered, d.finished⟩

/-- `for i in g.node_identifiers()`. -/
def walkFrom (es : Edges) (fuel : Nat) : List Nat → Dfs → Res Dfs
  | [], d => .ok d
  | i :: is, d =>
    if i ∈ d.discovered then walkFrom es fuel is d
    else
      match walk es fuel { d with stack := i :: d.stack } with
      | .ok d' => walkFrom es fuel is d'
      | .cycle v => .cycle v
      | .fuel => .fuel

/-- `while let Some(j) = dfs.next(Reversed(g)) { if cycle { return Err(j) }
cycle = true }`; the result is the new set of discovered nodes. -/
def sweep (es : Edges) : Nat → Bool → List Nat → List Nat → Res (List Nat)
  | 0, _, _, _ => .fuel
  | k + 1, cycle, stack, disc =>
    match stack with
    | [] => .ok disc
    | j :: rest =>
      if j ∈ disc then sweep es k cycle rest disc
      else if cycle then .cycle j
      else
        sweep es k true
          ((preds es j).foldl (fun st p => if p ∈ j :: disc then st else p :: st) rest) (j :: disc)

/-- `for &i in &finish_stack`. -/
def sweepAll (es : Edges) (fuel : Nat) : List Nat → List Nat → Res Unit
  | [], _ => .ok ()
  | i :: is, disc =>
    match sweep es fuel false [i] disc with
    | .ok disc' => sweepAll es fuel is disc'
    | .cycle v => .cycle v
    | .fuel => .fuel

/-- A bound on the steps of either loop. -/
def bound (n : Nat) (es : Edges) : Nat := (n + 1) * (es.length + 1) + 2

/-- `toposort` of a graph with nodes `0 … n-1`. -/
def toposort (n : Nat) (es : Edges) : Res (List Nat) :=
  match walkFrom es (bound n es) (List.range n) ⟨[], [], []⟩ with
  | .ok d =>
    match sweepAll es (bound n es) d.finished [] with
    | .ok () => .ok d.finished
    | .cycle v => .cycle v
    | .fuel => .fuel
  | .cycle v => .cycle v
  | .fuel => .fuel

/-! ## `petgraph::visit::Bfs` -/

/-- `for succ in neighbors { if discovered.visit(succ) { queue.push_back(succ) } }`. -/
def enqueue : List Nat → List Nat → List Nat → List Nat × List Nat
  | [], queue, disc => (queue, disc)
  | s :: ss, queue, disc =>
    if s ∈ disc then enqueue ss queue disc else enqueue ss (queue ++ [s]) (s :: disc)

/-- Iterating a `Bfs` to the end; `none` is the bound. -/
def bfs (es : Edges) : Nat → List Nat → List Nat → Option (List Nat)
  | 0, _, _ => none
  | k + 1, queue, disc =>
    match queue with
    | [] => some []
    | v :: rest =>
      let r := enqueue (succs es v) rest disc
      match bfs es k r.1 r.2 with
      | none => none
      | some out => some (v :: out)

/-! ## `ImportGraph` -/

/-- An `Input`: its locator, its name, and whether its format is `eu`. -/
structure Inp (L N : Type) where
  loc : L
  name : Option N
  eu : Bool
  deriving DecidableEq, Repr

variable {L N F D : Type} [DecidableEq L]

/-- `ImportGraph`, import.rs:18-21. -/
structure Graph (L N : Type) where
  nodes : List (Inp L N)
  edges : Edges
  deriving DecidableEq, Repr

/-- `find_index`, import.rs:104-108. -/
def Graph.find (g : Graph L N) (i : Inp L N) : Option Nat :=
  g.nodes.findIdx? fun n => n.loc = i.loc

/-- `encounter_input`, import.rs:113-118. -/
def Graph.encounter (g : Graph L N) (i : Inp L N) : Graph L N × Nat :=
  match g.find i with
  | some k => (g, k)
  | none => ({ g with nodes := g.nodes ++ [i] }, g.nodes.length)

/-- `register_imports`, import.rs:60-72. -/
def Graph.register (g : Graph L N) (i : Inp L N) (imports : List (Inp L N)) : Graph L N :=
  let (g, source) := g.encounter i
  imports.foldl (fun g j =>
    let (g, target) := g.encounter j
    { g with edges := g.edges ++ [(source, target)] }) g

/-- `add_leaf`, import.rs:76-79. -/
def Graph.addLeaf (g : Graph L N) (i : Inp L N) : Graph L N := (g.encounter i).1

/-- `check_for_cycles`, import.rs:82-89: `some` node is the error; `none` inside
is the bound. -/
def Graph.check (g : Graph L N) : Res Unit :=
  match toposort g.nodes.length g.edges with
  | .ok _ => .ok ()
  | .cycle v => .cycle v
  | .fuel => .fuel

/-- `unit_inputs`, import.rs:92-101; `none` is `UnknownInput`. -/
def Graph.unitInputs (g : Graph L N) (i : Inp L N) : Option (List (Inp L N)) :=
  match g.find i with
  | none => none
  | some k => (bfs g.edges (g.nodes.length + 1) [k] [k]).map fun ks => ks.filterMap fun k => g.nodes[k]?

/-! ## Loading -/

/-- What the loader can see: the text a locator leads to, given the search path;
the directory it was found in; and the imports of a text. -/
structure World (L N F D : Type) where
  read : List D → L → Option F
  dir : List D → L → Option D
  imports : F → List (Inp L N)

/-- The part of `SourceLoader` that matters: the import graph, the texts already
read (`locators` and `files`), and the search path. -/
structure Loader (L N F D : Type) where
  graph : Graph L N
  cache : List (L × F)
  libPath : List D

/-- Errors. -/
inductive LoadErr (L : Type)
  | unreadable (l : L)
  | cycle (node : Nat)
  | fuel
  deriving DecidableEq, Repr

/-- `load_source`, source.rs:708-762. -/
def Loader.source (w : World L N F D) (s : Loader L N F D) (l : L) : Option (F × Loader L N F D) :=
  match s.cache.find? fun e => e.1 = l with
  | some e => some (e.2, s)
  | none =>
    match w.read s.libPath l with
    | none => none
    | some f => some (f, { s with cache := (l, f) :: s.cache })

/-- `load`, source.rs:300-351 (without git locators), with `load_tree_as`,
source.rs:499-551, and `load_simple`, source.rs:415-430. -/
def Loader.load (w : World L N F D) : Nat → Loader L N F D → Inp L N →
    Except (LoadErr L) (Loader L N F D)
  | 0, _, _ => .error .fuel
  | k + 1, s, i =>
    match s.source w i.loc with
    | none => .error (.unreadable i.loc)
    | some (f, s1) =>
      if i.eu then
        let g := s1.graph.register i (w.imports f)
        match g.check with
        | .cycle v => .error (.cycle v)
        | .fuel => .error .fuel
        | .ok () =>
          let inner := { s1 with graph := g, libPath := s1.libPath ++ (w.dir s1.libPath i.loc).toList }
          match (w.imports f).foldlM (fun s j => Loader.load w k s j) inner with
          | .error e => .error e
          | .ok s2 => .ok { s2 with libPath := s1.libPath }
      else .ok { s1 with graph := s1.graph.addLeaf i }

/-- The command line's inputs, one after the other. -/
def Loader.loadAll (w : World L N F D) (fuel : Nat) (s : Loader L N F D) (is : List (Inp L N)) :
    Except (LoadErr L) (Loader L N F D) :=
  is.foldlM (fun s i => Loader.load w fuel s i) s

/-- `SourceLoader::new`. -/
def Loader.new (libPath : List D) : Loader L N F D := ⟨⟨[], []⟩, [], libPath⟩

end Verif.Import
