import Mathlib.Logic.Relation
import Mathlib.Data.Finset.Card
import Mathlib.Data.Finset.Range

/-!
# Graphs

Nodes are the numbers below `n`, an edge is a pair of integers; an edge that names something that is not a node does not count.
-/

namespace Verif.Graph

/-- An edge from node `i` to node `j`. -/
def Edge (n : Nat) (es : List (Int × Int)) (i j : Nat) : Prop := i < n ∧ j < n ∧ ((i : Int), (j : Int)) ∈ es

/-- There is a way from `i` to `j` along edges in either direction. -/
def Connected (n : Nat) (es : List (Int × Int)) : Nat → Nat → Prop := Relation.EqvGen (Edge n es)

/-- There is a way of at least one edge. -/
def Path (n : Nat) (es : List (Int × Int)) : Nat → Nat → Prop := Relation.TransGen (Edge n es)

/-- The number of components: of nodes that are connected to no smaller one. -/
noncomputable def components (n : Nat) (es : List (Int × Int)) : Nat :=
  open Classical in ((Finset.range n).filter fun i => ∀ j < i, ¬ Connected n es j i).card

/-- The edges as the prelude functions take them. -/
def lists (es : List (Int × Int)) : List (List Int) := es.map fun e => [e.1, e.2]

end Verif.Graph
