/-!
# The graph intrinsics

`src/eval/stg/graph.rs`, with the prelude functions over them, `lib/prelude.eu:2212-2225`.

A vector index out of range, a subtraction below zero and a loop that takes more turns than it is given are `none`.

Simplifications.  Numbers are integers: they reach the intrinsic as doubles, exact below `2 ^ 53`, and a fraction is cut off.
Results, which are written as doubles again, are natural numbers.
-/

namespace Verif.Graph

/-- `as usize` of a double: what is negative becomes 0. -/
def asUsize (x : Int) : Nat := x.toNat

/-- `concat` of the edges, prelude.eu:2214, and `chunks(2)` with its odd remainder skipped, graph.rs:94-96. -/
def chunks : List Int → List (Int × Int)
  | a :: b :: rest => (a, b) :: chunks rest
  | _ => []

/-- The pairs of an argument. -/
def pairs (edges : List (List Int)) : List (Int × Int) := chunks edges.flatten

/-- `find`, graph.rs:71-77: with path halving. -/
def find : Nat → List Nat → Nat → Option (List Nat × Nat)
  | 0, _, _ => none
  | fuel + 1, parent, x => do
      let a ← parent[x]?
      if a = x then some (parent, x)
      else do
        let b ← parent[a]?
        find fuel (parent.set x b) b

/-- The parents and the ranks. -/
structure UF where
  parent : List Nat
  rank : List Nat

/-- Linking two roots by rank, graph.rs:83-90. -/
def link (u : UF) (rx ry : Nat) : Option UF := do
  let a ← u.rank[rx]?
  let b ← u.rank[ry]?
  if a < b then some { u with parent := u.parent.set rx ry }
  else if b < a then some { u with parent := u.parent.set ry rx }
  else some { parent := u.parent.set ry rx, rank := u.rank.set rx (a + 1) }

/-- `union`, graph.rs:79-92. -/
def union (fuel : Nat) (u : UF) (x y : Nat) : Option UF := do
  let (p, rx) ← find fuel u.parent x
  let (p, ry) ← find fuel p y
  if rx ≠ ry then link { u with parent := p } rx ry else some { u with parent := p }

/-- The loop over the edges, graph.rs:94-104. -/
def unions (fuel n : Nat) : List (Int × Int) → UF → Option UF
  | [], u => some u
  | (a, b) :: es, u => do
      let i := asUsize a
      let j := asUsize b
      let u ← if i < n ∧ j < n then union fuel u i j else some u
      unions fuel n es u

/-- The labels, graph.rs:107. -/
def labels (fuel : Nat) : List Nat → List Nat → Option (List Nat)
  | [], _ => some []
  | i :: is, parent => do
      let (parent, r) ← find fuel parent i
      let rs ← labels fuel is parent
      some (r :: rs)

/-- `graph.union-find`, graph.rs:55-109. -/
def unionFind (fuel : Nat) (n : Int) (edges : List (List Int)) : Option (List Nat) := do
  let n := asUsize n
  let u ← unions fuel n (pairs edges) ⟨List.range n, List.replicate n 0⟩
  labels fuel (List.range n) u.parent

/-- The loop of `graph.kruskal-edges`, graph.rs:256-280. -/
def merges (fuel n : Nat) : Nat → List (Int × Int) → UF → Nat → Option (List (Nat × Nat))
  | _, [], _, _ => some []
  | idx, (a, b) :: es, u, components => do
      let i := asUsize a
      let j := asUsize b
      if i < n ∧ j < n then do
        let (p, ri) ← find fuel u.parent i
        let (p, rj) ← find fuel p j
        if ri ≠ rj then do
          let u ← link { u with parent := p } ri rj
          let components ← if components = 0 then none else some (components - 1)
          let rest ← merges fuel n (idx + 1) es u components
          some ((idx, components) :: rest)
        else merges fuel n (idx + 1) es { u with parent := p } components
      else merges fuel n (idx + 1) es u components

/-- `graph.kruskal-edges`, graph.rs:224-284; the flat result as the pairs it consists of. -/
def kruskal (fuel : Nat) (n : Int) (edges : List (List Int)) : Option (List (Nat × Nat)) :=
  let n := asUsize n
  merges fuel n 0 (pairs edges) ⟨List.range n, List.replicate n 0⟩ n

/-- Adjacency and in-degrees, graph.rs:155-168. -/
def adjacency (n : Nat) : List (Int × Int) → List (List Nat) × List Nat → List (List Nat) × List Nat
  | [], s => s
  | (a, b) :: es, (adj, deg) =>
      let i := asUsize a
      let j := asUsize b
      adjacency n es (if i < n ∧ j < n then (adj.modify i (· ++ [j]), deg.modify j (· + 1)) else (adj, deg))

/-- The loop over the edges that leave a node, graph.rs:181-186. -/
def release : List Nat → List Nat × List Nat → Option (List Nat × List Nat)
  | [], s => some s
  | v :: vs, (deg, queue) => do
      let d ← deg[v]?
      if d = 0 then none
      else release vs (deg.set v (d - 1), if d - 1 = 0 then queue ++ [v] else queue)

/-- The loop over the queue, graph.rs:179-187. -/
def drain (adj : List (List Nat)) : Nat → List Nat → List Nat → Option (List Nat)
  | 0, _, _ => none
  | _ + 1, _, [] => some []
  | fuel + 1, deg, v :: queue => do
      let next ← adj[v]?
      let (deg, queue) ← release next (deg, queue)
      let rest ← drain adj fuel deg queue
      some (v :: rest)

/-- `graph.topo-sort`, graph.rs:139-191. -/
def topoSort (fuel : Nat) (n : Int) (edges : List (List Int)) : Option (List Nat) :=
  let n := asUsize n
  let (adj, deg) := adjacency n (pairs edges) (List.replicate n [], List.replicate n 0)
  drain adj fuel deg ((List.range n).filter fun i => deg[i]? == some 0)

end Verif.Graph
