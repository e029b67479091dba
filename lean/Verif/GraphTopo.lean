import Verif.GraphUnion
import Mathlib.Data.Fintype.Card
import Mathlib.Data.Fintype.EquivFin

/-!
# Proofs only.

Kahn's algorithm: a node's in-degree counts the edges from nodes that are not out yet.
-/

namespace Verif.Graph

/-- The edges between nodes, as the loop reads them. -/
def within (n : Nat) (es : List (Int × Int)) : List (Nat × Nat) :=
  (es.map fun e => (asUsize e.1, asUsize e.2)).filter fun e => decide (e.1 < n ∧ e.2 < n)

theorem mem_within {n : Nat} {es : List (Int × Int)} (h : ∀ e ∈ es, Nat2 e) {i j : Nat} : (i, j) ∈ within n es ↔ Edge n es i j := by
  simp only [within, List.mem_filter, List.mem_map, decide_eq_true_eq, Edge]
  constructor
  · rintro ⟨⟨⟨a, b⟩, he, heq⟩, h1, h2⟩
    have hab := h _ he
    have h3 : ((asUsize a : Nat) : Int) = a := to_from hab.1
    have h4 : ((asUsize b : Nat) : Int) = b := to_from hab.2
    simp only [Prod.mk.injEq] at heq
    refine ⟨h1, h2, ?_⟩
    rw [← heq.1, ← heq.2, h3, h4]
    exact he
  · rintro ⟨h1, h2, h3⟩
    refine ⟨⟨_, h3, ?_⟩, h1, h2⟩
    simp [asUsize]

/-- The targets of a node. -/
def outs (E : List (Nat × Nat)) (i : Nat) : List Nat := (E.filter fun e => decide (e.1 = i)).map (·.2)

/-- The edges into a node. -/
def into (E : List (Nat × Nat)) (j : Nat) : Nat := E.countP fun e => decide (e.2 = j)

theorem adjacency_ok {n : Nat} : ∀ (es : List (Int × Int)) (E : List (Nat × Nat)) (adj : List (List Nat)) (deg : List Nat),
    adj.length = n → deg.length = n → (∀ i, i < n → adj[i]? = some (outs E i)) → (∀ i, i < n → deg[i]? = some (into E i)) →
    ∃ adj' deg', adjacency n es (adj, deg) = (adj', deg') ∧ adj'.length = n ∧ deg'.length = n ∧
      (∀ i, i < n → adj'[i]? = some (outs (E ++ within n es) i)) ∧ (∀ i, i < n → deg'[i]? = some (into (E ++ within n es) i))
  | [], E, adj, deg, h1, h2, h3, h4 => ⟨adj, deg, rfl, h1, h2, by simpa [within] using h3, by simpa [within] using h4⟩
  | (a, b) :: es, E, adj, deg, h1, h2, h3, h4 => by
    simp only [adjacency]
    by_cases hin : asUsize a < n ∧ asUsize b < n
    · rw [if_pos hin]
      have happ : E ++ within n ((a, b) :: es) = (E ++ [(asUsize a, asUsize b)]) ++ within n es := by
        simp [within, hin]
      rw [happ]
      refine adjacency_ok es _ _ _ (by simp [h1]) (by simp [h2]) ?_ ?_
      · intro i hi
        rw [List.getElem?_modify, h3 i hi]
        by_cases he : asUsize a = i
        · simp [he, outs]
        · simp [he, outs]
      · intro i hi
        rw [List.getElem?_modify, h4 i hi]
        by_cases he : asUsize b = i
        · simp [he, into]
        · simp [he, into]
    · rw [if_neg hin]
      have happ : within n ((a, b) :: es) = within n es := by
        simp only [within, List.map_cons]
        rw [List.filter_cons_of_neg (by simpa using hin)]
      rw [happ]
      exact adjacency_ok es E adj deg h1 h2 h3 h4

/-- The edges into a node from nodes that are not out. -/
def left (E : List (Nat × Nat)) (D : List Nat) (j : Nat) : Nat := E.countP fun e => decide (e.2 = j ∧ e.1 ∉ D)

/-- The state between two turns, or within one with `vs` still to release. -/
structure Kahn (n : Nat) (f : Nat → Nat) (D vs deg q : List Nat) : Prop where
  len : deg.length = n
  deg_eq : ∀ w, w < n → deg[w]? = some (f w + vs.count w)
  mem : ∀ w, w ∈ D ++ q ↔ w < n ∧ deg[w]? = some 0
  nodup : (D ++ q).Nodup

theorem release_ok {n : Nat} {f : Nat → Nat} {D : List Nat} : ∀ (vs deg q : List Nat), (∀ w ∈ vs, w < n) → Kahn n f D vs deg q →
    ∃ deg' q', release vs (deg, q) = some (deg', q') ∧ Kahn n f D [] deg' q'
  | [], deg, q, _, h => ⟨deg, q, rfl, h⟩
  | v :: vs, deg, q, hv, h => by
    have hvn := hv v (List.mem_cons_self ..)
    have hd := h.deg_eq v hvn
    have hcount : (v :: vs).count v = vs.count v + 1 := by simp
    rw [hcount] at hd
    have hd' : deg[v]? = some (f v + vs.count v + 1) := hd
    simp only [release, hd', Option.bind_eq_bind, Option.bind_some, if_neg (Nat.succ_ne_zero _), Nat.add_sub_cancel]
    have hvlen : v < deg.length := by rw [h.len]; exact hvn
    refine release_ok vs _ _ (fun w hw => hv w (List.mem_cons_of_mem _ hw)) ⟨by simp [h.len], ?_, ?_, ?_⟩
    · intro w hw
      rw [List.getElem?_set]
      by_cases hvw : v = w
      · subst hvw
        rw [if_pos rfl, if_pos hvlen]
      · rw [if_neg hvw, h.deg_eq w hw, List.count_cons_of_ne hvw]
    · intro w
      rw [List.getElem?_set]
      by_cases hvw : v = w
      · subst hvw
        rw [if_pos rfl, if_pos hvlen]
        by_cases hz : f v + vs.count v = 0
        · rw [if_pos hz, hz]; simp [hvn]
        · rw [if_neg hz]
          rw [h.mem v, hd']
          constructor
          · rintro ⟨_, h2⟩; exact absurd (Option.some.inj h2) (Nat.succ_ne_zero _)
          · rintro ⟨_, h2⟩; exact absurd (Option.some.inj h2) hz
      · rw [if_neg hvw]
        by_cases hz : f v + vs.count v = 0
        · rw [if_pos hz, ← h.mem w]
          simp only [List.mem_append, List.mem_singleton]
          constructor
          · rintro (h1 | h1 | h1)
            · exact .inl h1
            · exact .inr h1
            · exact absurd h1.symm hvw
          · rintro (h1 | h1)
            · exact .inl h1
            · exact .inr (.inl h1)
        · rw [if_neg hz]; exact h.mem w
    · by_cases hz : f v + vs.count v = 0
      · rw [if_pos hz, ← List.append_assoc]
        refine List.nodup_append.2 ⟨h.nodup, by simp, ?_⟩
        intro x hx y hy
        rw [List.mem_singleton] at hy
        subst hy
        rintro rfl
        have := ((h.mem x).1 hx).2
        rw [hd'] at this
        exact absurd (Option.some.inj this) (Nat.succ_ne_zero _)
      · rw [if_neg hz]; exact h.nodup

theorem left_step {E : List (Nat × Nat)} {D : List Nat} {v : Nat} (hv : v ∉ D) (w : Nat) :
    left E D w = left E (D ++ [v]) w + (outs E v).count w := by
  induction E with
  | nil => rfl
  | cons e E ih =>
    obtain ⟨a, b⟩ := e
    simp only [left, outs] at ih ⊢
    simp only [List.countP_cons, List.filter_cons]
    rw [ih]
    by_cases hb : b = w
    · subst hb
      by_cases ha : a = v
      · subst ha
        simp [hv]
        omega
      · by_cases hd : a ∈ D
        · simp [ha, hd]
        · simp [ha, hd]
          omega
    · by_cases ha : a = v
      · subst ha; simp [hb]
      · simp [ha, hb]

theorem left_zero {E : List (Nat × Nat)} {D : List Nat} {w : Nat} : left E D w = 0 ↔ ∀ u, (u, w) ∈ E → u ∈ D := by
  simp only [left, List.countP_eq_zero, decide_eq_true_eq]
  constructor
  · intro h u hu
    by_cases hd : u ∈ D
    · exact hd
    · exact absurd ⟨rfl, hd⟩ (h (u, w) hu)
  · rintro h ⟨a, b⟩ he ⟨h1, h2⟩
    dsimp only at h1 h2
    subst h1
    exact h2 (h a he)

theorem nodup_le {n : Nat} {l : List Nat} (h : l.Nodup) (hl : ∀ x ∈ l, x < n) : l.length ≤ n := by
  classical
  have h1 : l.toFinset ⊆ Finset.range n := by
    intro x hx
    rw [List.mem_toFinset] at hx
    exact Finset.mem_range.2 (hl x hx)
  have h2 := Finset.card_le_card h1
  rw [List.toFinset_card_of_nodup h, Finset.card_range] at h2
  exact h2

theorem Kahn.closed {n : Nat} {E : List (Nat × Nat)} {D deg q : List Nat} (h : Kahn n (left E D) D [] deg q) (v : Nat) :
    v ∈ D ++ q ↔ v < n ∧ ∀ u, (u, v) ∈ E → u ∈ D := by
  rw [h.mem]
  constructor
  · rintro ⟨h1, h2⟩
    refine ⟨h1, left_zero.1 ?_⟩
    rw [h.deg_eq v h1] at h2
    simpa using h2
  · rintro ⟨h1, h2⟩
    refine ⟨h1, ?_⟩
    rw [h.deg_eq v h1, left_zero.2 h2]; rfl

theorem drain_ok {n : Nat} {E : List (Nat × Nat)} (hE : ∀ e ∈ E, e.1 < n ∧ e.2 < n) {adj : List (List Nat)}
    (hadj : ∀ i, i < n → adj[i]? = some (outs E i)) : ∀ (fuel : Nat) (D deg q : List Nat), Kahn n (left E D) D [] deg q →
    n < fuel + D.length → ∃ rest, drain adj fuel deg q = some rest ∧ (D ++ rest).Nodup ∧
      (∀ v, v ∈ D ++ rest ↔ v < n ∧ ∀ u, (u, v) ∈ E → u ∈ D ++ rest) ∧
      (∀ pre v post, rest = pre ++ v :: post → ∀ u, (u, v) ∈ E → u ∈ D ++ pre)
  | 0, D, deg, q, h, hf => by
    have := nodup_le h.nodup (fun x hx => ((h.mem x).1 hx).1)
    rw [List.length_append] at this
    omega
  | fuel + 1, D, deg, [], h, _ => by
    refine ⟨[], rfl, by simpa using h.nodup, ?_, ?_⟩
    · intro v
      have := h.closed v
      simpa using this
    · intro pre v post he
      have := congrArg List.length he
      simp at this
  | fuel + 1, D, deg, v :: q, h, hf => by
    have hv : v ∈ D ++ v :: q := by simp
    have hvc := (h.closed v).1 hv
    have hnd := h.nodup
    have hvD : v ∉ D := by
      intro hd
      rw [List.nodup_append] at hnd
      exact hnd.2.2 v hd v (List.mem_cons_self ..) rfl
    have houts : ∀ w ∈ outs E v, w < n := by
      intro w hw
      simp only [outs, List.mem_map, List.mem_filter] at hw
      obtain ⟨e, ⟨he, _⟩, rfl⟩ := hw
      exact (hE e he).2
    have hk : Kahn n (left E (D ++ [v])) (D ++ [v]) (outs E v) deg q := by
      refine ⟨h.len, ?_, ?_, by simpa using h.nodup⟩
      · intro w hw
        rw [h.deg_eq w hw, ← left_step hvD w]; rfl
      · intro w
        have := h.mem w
        simpa using this
    obtain ⟨deg', q', h1, h2⟩ := release_ok (outs E v) deg q houts hk
    obtain ⟨rest, h3, h4, h5, h6⟩ := drain_ok hE hadj fuel (D ++ [v]) deg' q' h2 (by rw [List.length_append]; simp; omega)
    refine ⟨v :: rest, ?_, by simpa using h4, ?_, ?_⟩
    · simp only [drain, hadj v hvc.1, Option.bind_eq_bind, Option.bind_some, h1, h3]
    · intro w
      have := h5 w
      simpa using this
    · intro pre w post he u hu
      cases pre with
      | nil =>
        simp only [List.nil_append, List.cons.injEq] at he
        rw [← he.1] at hu
        simpa using hvc.2 u hu
      | cons x pre =>
        simp only [List.cons_append, List.cons.injEq] at he
        have := h6 pre w post he.2 u hu
        rw [← he.1]
        simpa using this

theorem start_kahn {n : Nat} {E : List (Nat × Nat)} {deg : List Nat} (hlen : deg.length = n)
    (hdeg : ∀ i, i < n → deg[i]? = some (into E i)) :
    Kahn n (left E []) [] [] deg ((List.range n).filter fun i => deg[i]? == some 0) := by
  refine ⟨hlen, ?_, ?_, ?_⟩
  · intro w hw
    rw [hdeg w hw]
    simp [into, left]
  · intro w
    simp
  · exact List.Nodup.filter _ List.nodup_range

/-! ## Cycles -/

/-- A set that is closed both ways holds the nodes that no cycle leads to. -/
theorem no_cycle {n : Nat} {es : List (Int × Int)} {l : List Nat}
    (hclosed : ∀ v, v ∈ l ↔ v < n ∧ ∀ u, Edge n es u v → u ∈ l)
    (hsub : ∀ u v, Edge n es u v → v ∈ l → l.idxOf u < l.idxOf v) (v : Nat) :
    v ∈ l ↔ v < n ∧ ¬ ∃ c, Path n es c c ∧ (c = v ∨ Path n es c v) := by
  have hpath : ∀ c w, Path n es c w → w ∈ l → c ∈ l ∧ l.idxOf c < l.idxOf w := by
    intro c w hp hw
    induction hp with
    | single he => exact ⟨((hclosed _).1 hw).2 _ he, hsub _ _ he hw⟩
    | tail hp he ih =>
      have h1 := ((hclosed _).1 hw).2 _ he
      have h2 := hsub _ _ he hw
      obtain ⟨h3, h4⟩ := ih h1
      exact ⟨h3, by omega⟩
  constructor
  · intro hv
    refine ⟨((hclosed v).1 hv).1, ?_⟩
    rintro ⟨c, hc, hcv⟩
    have hcl : c ∈ l := by
      rcases hcv with rfl | hcv
      · exact hv
      · exact (hpath c v hcv hv).1
    have := (hpath c c hc hcl).2
    omega
  · rintro ⟨hvn, hno⟩
    let S := { v : Nat // v < n ∧ ¬ ∃ c, Path n es c c ∧ (c = v ∨ Path n es c v) }
    have : Finite S := Finite.of_injective (fun s : S => (⟨s.1, s.2.1⟩ : Fin n)) (by
      intro a b hab
      apply Subtype.ext
      simpa using hab)
    let r : S → S → Prop := fun a b => Path n es a.1 b.1
    have h1 : IsTrans S r := ⟨fun a b c h h' => Relation.TransGen.trans h h'⟩
    have h2 : Std.Irrefl r := ⟨fun a h => a.2.2 ⟨a.1, h, .inl rfl⟩⟩
    have hwf : WellFounded r := Finite.wellFounded_of_trans_of_irrefl r
    suffices ∀ s : S, s.1 ∈ l from this ⟨v, hvn, hno⟩
    intro s
    induction s using hwf.induction with
    | _ s ih =>
      refine (hclosed _).2 ⟨s.2.1, fun u hu => ?_⟩
      refine ih ⟨u, hu.1, ?_⟩ (.single hu)
      rintro ⟨c, hc, hcu⟩
      refine s.2.2 ⟨c, hc, .inr ?_⟩
      rcases hcu with rfl | hcu
      · exact .single hu
      · exact .tail hcu hu

theorem sublist_of_before {l : List Nat} {u v : Nat} (hv : v ∈ l) (h : ∀ pre post, l = pre ++ v :: post → u ∈ pre) :
    [u, v].Sublist l := by
  obtain ⟨pre, post, he⟩ := List.append_of_mem hv
  have hu := h pre post he
  rw [he]
  exact List.Sublist.append (List.singleton_sublist.2 hu) (List.singleton_sublist.2 (List.mem_cons_self ..))

theorem idx_of_before {l : List Nat} {u v : Nat} (hnd : l.Nodup) (hv : v ∈ l) (h : ∀ pre post, l = pre ++ v :: post → u ∈ pre) :
    l.idxOf u < l.idxOf v := by
  obtain ⟨pre, post, he⟩ := List.append_of_mem hv
  have hu := h pre post he
  subst he
  have hvp : v ∉ pre := by
    intro hp
    rw [List.nodup_append] at hnd
    exact hnd.2.2 v hp v (List.mem_cons_self ..) rfl
  rw [List.idxOf_append_of_mem hu, List.idxOf_append_of_notMem hvp]
  have := List.idxOf_lt_length_of_mem hu
  omega

end Verif.Graph
