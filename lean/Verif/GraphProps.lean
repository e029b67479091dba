import Verif.GraphTopo

/-!
# C78–C81: the graph functions of the prelude
-/

namespace Verif.Graph

/-! ## C78: components -/

/-- There is one label for each node; two nodes have the same label exactly if they are connected, and the label of a node is itself a
node of its component, labelled by itself. -/
theorem union_find_labels (n : Int) (es : List (Int × Int)) (h : ∀ e ∈ es, 0 ≤ e.1 ∧ 0 ≤ e.2) :
    ∃ N, ∀ fuel ≥ N, ∃ ls, unionFind fuel n (lists es) = some ls ∧ ls.length = n.toNat ∧
      (∀ i j, i < n.toNat → j < n.toNat → (ls[i]? = ls[j]? ↔ Connected n.toNat es i j)) ∧
      ∀ i r, ls[i]? = some r → r < n.toNat ∧ Connected n.toNat es i r ∧ ls[r]? = some r := by
  refine ⟨es.length + 1, fun fuel hf => ?_⟩
  have hu := unions_ok (fuel := fuel) es [] ⟨List.range n.toNat, List.replicate n.toNat 0⟩ id h (start_good n.toNat)
    (by simp only [List.length_nil]; omega)
  obtain ⟨u, ro, h1, hg⟩ := hu
  rw [List.nil_append] at hg
  have hl := labels_ok hg.bound (fuel := fuel) (by omega) (List.range n.toNat) u.parent hg.forest (fun i hi => List.mem_range.1 hi)
  have hget : ∀ i, i < n.toNat → ((List.range n.toNat).map ro)[i]? = some (ro i) := by
    intro i hi
    rw [List.getElem?_map, List.getElem?_range hi]; rfl
  refine ⟨(List.range n.toNat).map ro, ?_, by simp, ?_, ?_⟩
  · simp only [unionFind, pairs_lists, asUsize, h1, hl, Option.bind_eq_bind, Option.bind_some]
  · intro i j hi hj
    rw [hget i hi, hget j hj, Option.some.injEq]
    exact hg.same hi hj
  · intro i r hr
    have hi : i < n.toNat := by
      have := (List.getElem?_eq_some_iff.1 hr).1
      simpa using this
    rw [hget i hi, Option.some.injEq] at hr
    subst hr
    have hlt := hg.forest.lt i hi
    exact ⟨hlt, hg.to_root i hi, by rw [hget _ hlt, hg.forest.ro_ro hi]⟩

/-- Six nodes, two components of which one has a cycle, and one edge that names no node. -/
example : unionFind 9 6 (lists [(1, 2), (3, 1), (2, 3), (4, 5), (4, 9)]) = some [0, 1, 1, 1, 4, 4] := by decide +kernel

/-! ## C79: topological order -/

/-- A cycle, or something a cycle leads to. -/
def AfterCycle (n : Nat) (es : List (Int × Int)) (v : Nat) : Prop := ∃ c, Path n es c c ∧ (c = v ∨ Path n es c v)

/-- The order has no node twice; it has the nodes that no cycle leads to and no others; and an edge between two of them goes from the
earlier one to the later one. -/
theorem topo_order (n : Int) (es : List (Int × Int)) (h : ∀ e ∈ es, 0 ≤ e.1 ∧ 0 ≤ e.2) :
    ∃ N, ∀ fuel ≥ N, ∃ order, topoSort fuel n (lists es) = some order ∧ order.Nodup ∧
      (∀ v, v ∈ order ↔ v < n.toNat ∧ ¬ AfterCycle n.toNat es v) ∧
      ∀ i j, Edge n.toNat es i j → j ∈ order → [i, j].Sublist order := by
  refine ⟨n.toNat + 1, fun fuel hf => ?_⟩
  obtain ⟨adj, deg, ha, _, hdl, hadj, hdeg⟩ := adjacency_ok (n := n.toNat) es [] (List.replicate n.toNat []) (List.replicate n.toNat 0)
    (by simp) (by simp) (by intro i hi; simp [outs, hi]) (by intro i hi; simp [into, hi])
  rw [List.nil_append] at hadj hdeg
  have hE : ∀ e ∈ within n.toNat es, e.1 < n.toNat ∧ e.2 < n.toNat := by
    intro e he
    simp only [within, List.mem_filter, decide_eq_true_eq] at he
    exact he.2
  obtain ⟨order, h1, h2, h3, h4⟩ := drain_ok hE hadj fuel [] deg _ (start_kahn hdl hdeg) (by simp; omega)
  simp only [List.nil_append] at h2 h3 h4
  have hclosed : ∀ v, v ∈ order ↔ v < n.toNat ∧ ∀ u, Edge n.toNat es u v → u ∈ order := by
    intro v
    rw [h3 v]
    simp only [mem_within h]
  refine ⟨order, ?_, h2, ?_, ?_⟩
  · simp only [topoSort, pairs_lists, asUsize] at ha ⊢
    simp only [ha]
    exact h1
  · exact no_cycle hclosed (fun u v he hv => idx_of_before h2 hv (fun pre post e => h4 pre v post e u ((mem_within h).2 he)))
  · intro i j he hj
    exact sublist_of_before hj (fun pre post e => h4 pre j post e i ((mem_within h).2 he))

/-- What the documentation says: the result has all the nodes exactly if there is no cycle. -/
theorem topo_complete (n : Int) (es : List (Int × Int)) (h : ∀ e ∈ es, 0 ≤ e.1 ∧ 0 ≤ e.2) :
    ∃ N, ∀ fuel ≥ N, ∃ order, topoSort fuel n (lists es) = some order ∧
      (order.length = n.toNat ↔ ∀ c, ¬ Path n.toNat es c c) := by
  obtain ⟨N, hN⟩ := topo_order n es h
  refine ⟨N, fun fuel hf => ?_⟩
  obtain ⟨order, h1, h2, h3, _⟩ := hN fuel hf
  refine ⟨order, h1, ?_⟩
  have hsub : order ⊆ List.range n.toNat := fun v hv => List.mem_range.2 ((h3 v).1 hv).1
  constructor
  · intro hlen c hc
    have hcn : c < n.toNat := by
      cases hc with
      | single he => exact he.1
      | tail _ he => exact he.2.1
    classical
    have hfin : order.toFinset = Finset.range n.toNat := by
      apply Finset.eq_of_subset_of_card_le
      · intro x hx
        rw [List.mem_toFinset] at hx
        exact Finset.mem_range.2 ((h3 x).1 hx).1
      · rw [List.toFinset_card_of_nodup h2, hlen, Finset.card_range]
    have hmem : c ∈ order := by
      rw [← List.mem_toFinset, hfin]
      exact Finset.mem_range.2 hcn
    exact ((h3 c).1 hmem).2 ⟨c, hc, .inl rfl⟩
  · intro hno
    apply Nat.le_antisymm
    · exact nodup_le h2 (fun x hx => ((h3 x).1 hx).1)
    · have h5 : (List.range n.toNat).toFinset ⊆ order.toFinset := by
        intro x hx
        rw [List.mem_toFinset] at hx ⊢
        exact (h3 x).2 ⟨List.mem_range.1 hx, fun ⟨c, hc, _⟩ => hno c hc⟩
      have h6 := Finset.card_le_card h5
      rw [List.toFinset_card_of_nodup List.nodup_range, List.toFinset_card_of_nodup h2, List.length_range] at h6
      exact h6

/-- An order in which 3 precedes 1, with a double edge. -/
example : topoSort 9 5 (lists [(3, 1), (1, 0), (1, 0), (3, 4)]) = some [2, 3, 1, 4, 0] := by decide +kernel

/-- A cycle of 1 and 2, which leads to 3. -/
example : topoSort 9 5 (lists [(0, 1), (1, 2), (2, 1), (2, 3)]) = some [0, 4] := by decide +kernel

/-! ## C80: merges in order -/

/-- An edge is reported exactly if its ends are nodes that the edges before it do not connect, with the number of components that
there are after it, in the order of the edges. -/
theorem kruskal_merges (n : Int) (es : List (Int × Int)) (h : ∀ e ∈ es, 0 ≤ e.1 ∧ 0 ≤ e.2) :
    ∃ N, ∀ fuel ≥ N, ∃ out, kruskal fuel n (lists es) = some out ∧ out.Pairwise (fun x y => x.1 < y.1) ∧
      ∀ k c, (k, c) ∈ out ↔ (∃ i j : Nat, i < n.toNat ∧ j < n.toNat ∧ es[k]? = some ((i : Int), (j : Int)) ∧
        ¬ Connected n.toNat (es.take k) i j) ∧ c = components n.toNat (es.take (k + 1)) := by
  refine ⟨es.length + 1, fun fuel hf => ?_⟩
  have hc : n.toNat = components n.toNat [] := by
    rw [count_roots (start_good n.toNat)]
    simp
  obtain ⟨out, h1, h2, h3⟩ := merges_ok (fuel := fuel) es [] ⟨List.range n.toNat, List.replicate n.toNat 0⟩ id n.toNat h
    (start_good n.toNat) (by simp only [List.length_nil]; omega) hc
  refine ⟨out, ?_, h2, ?_⟩
  · simp only [kruskal, pairs_lists, asUsize]
    exact h1
  · intro k c
    rw [h3, List.nil_append]
    constructor
    · rintro ⟨_, i, j, h4, h5, h6, h7, h8⟩
      exact ⟨⟨i, j, h4, h5, h6, h7⟩, h8⟩
    · rintro ⟨⟨i, j, h4, h5, h6, h7⟩, h8⟩
      exact ⟨Nat.zero_le _, i, j, h4, h5, h6, h7, h8⟩

/-- The third edge closes a cycle, the fourth names no node. -/
example : kruskal 9 5 (lists [(0, 1), (1, 2), (2, 0), (9, 4), (3, 4), (4, 0)]) = some [(0, 4), (1, 3), (4, 2), (5, 1)] := by decide +kernel

/-! ## C81: what is not an edge between nodes -/

/-- C81 in full: an edge that names something that is not a node changes no label. -/
def Ignored : Prop := ∀ (n : Int) (es : List (Int × Int)) (a b : Int),
  ¬ (0 ≤ a ∧ a < n ∧ 0 ≤ b ∧ b < n) → ∀ fuel, unionFind fuel n (lists ((a, b) :: es)) = unionFind fuel n (lists es)

/-- False of the code: a negative number stands for node 0. -/
theorem negative_joins : ¬ Ignored := fun h => absurd (h 2 [] (-1) 1 (by decide) 9) (by decide +kernel)

/-- It is so for numbers that are not negative. -/
theorem ignored_partial (n : Int) (es : List (Int × Int)) (a b : Int) (ha : 0 ≤ a) (hb : 0 ≤ b) (h : ¬ (a < n ∧ b < n)) (fuel : Nat) :
    unionFind fuel n (lists ((a, b) :: es)) = unionFind fuel n (lists es) ∧
    topoSort fuel n (lists ((a, b) :: es)) = topoSort fuel n (lists es) := by
  have hout : ¬ (asUsize a < asUsize n ∧ asUsize b < asUsize n) := by simp only [asUsize]; omega
  constructor
  · simp only [unionFind, pairs_lists, unions]
    rw [if_neg hout]
    rfl
  · simp only [topoSort, pairs_lists, adjacency]
    rw [if_neg hout]

/-- A sort puts a negative number where 0 belongs, too: here a cycle is seen in a graph that has none. -/
theorem negative_cycle : topoSort 9 2 (lists [(0, 1), (1, -1)]) = some [] := by decide +kernel

/-- A third number in an edge, a weight, say, becomes an end of the next edge: 2 and 3 are not joined, and with another weight 0 and 2 are. -/
theorem weight_shifts : unionFind 9 4 [[0, 1, 7], [2, 3, 7]] = some [0, 0, 2, 3] ∧ unionFind 9 4 [[0, 1, 0], [2, 3, 7]] = some [0, 0, 0, 3] := by decide +kernel

end Verif.Graph
