import Verif.TarjanLemmas

/-!
# Strongly connected components are computed correctly (C08)
-/

namespace Verif.Tarjan

/-- The computation always succeeds, and its result:
* lists every node exactly once;
* has two nodes in one component exactly when each can be reached from the other;
* lists what a node depends on in the node's own component or an earlier one;
* has no empty component. -/
theorem tarjan_correct (n : Nat) (deps : Nat → List Nat) (hdeps : ∀ v, v < n → ∀ w ∈ deps v, w < n) :
    ∃ sccs, tarjan n deps = some sccs ∧
      sccs.flatten.Perm (List.range n) ∧
      (∀ c ∈ sccs, ∀ a ∈ c, ∀ b, b ∈ c ↔ Reach deps a b ∧ Reach deps b a) ∧
      (∀ (i j : Nat) ci cj, sccs[i]? = some ci → sccs[j]? = some cj →
        ∀ a ∈ ci, ∀ b ∈ cj, b ∈ deps a → j ≤ i) ∧
      ∀ c ∈ sccs, c ≠ [] := by
  have h0 : Inv deps init [] := by
    constructor <;> simp [State.done, init]
  obtain ⟨st, hst, hinv, hall, _⟩ := roots_post hdeps (List.range n) _ (fun v hv => List.mem_range.mp hv) h0
  have hsmall := roots_small hdeps (List.range n) _ st (fun v hv => List.mem_range.mp hv)
    (fun x hx => absurd rfl hx) hst
  have hempty := hinv.stack_empty
  have hdone : ∀ x, x ∈ st.sccs.flatten ↔ x < n := by
    intro x
    have := hinv.visited x
    rw [hempty] at this
    simp only [List.not_mem_nil, false_or] at this
    constructor
    · intro hx; exact hsmall x (this.mpr hx)
    · intro hx; exact this.mp (hall x (List.mem_range.mpr hx))
  -- reachability never leads to a later component
  have htake : ∀ (i : Nat) c, st.sccs[i]? = some c → ∀ a ∈ c, ∀ b, Reach deps a b →
      b ∈ (st.sccs.take (i + 1)).flatten := by
    intro i c hc a ha b hr
    have hmono : ∀ (j k : Nat) (x : Nat), j ≤ k → x ∈ (st.sccs.take j).flatten → x ∈ (st.sccs.take k).flatten := by
      intro j k x hjk hx
      obtain ⟨d, hd, hx⟩ := List.mem_flatten.mp hx
      refine List.mem_flatten.mpr ⟨d, ?_, hx⟩
      rw [← Nat.min_eq_left hjk, ← List.take_take] at hd
      exact List.mem_of_mem_take hd
    refine hr.closed (S := fun x => x ∈ (st.sccs.take (i + 1)).flatten) ?_ ?_
    · intro x hx w hw
      obtain ⟨d, hd, hxd⟩ := List.mem_flatten.mp hx
      obtain ⟨j, hj, hjd⟩ := List.mem_iff_getElem.mp hd
      rw [List.getElem_take] at hjd
      have hlen : j < st.sccs.length := by simp at hj; omega
      have := hinv.topo j d (by rw [List.getElem?_eq_getElem hlen, hjd]) x hxd w hw
      exact hmono (j + 1) (i + 1) w (by simp at hj; omega) this
    · refine List.mem_flatten.mpr ⟨c, ?_, ha⟩
      obtain ⟨hl, hc'⟩ := List.getElem?_eq_some_iff.mp hc
      exact List.mem_take_iff_getElem.mpr ⟨i, by omega, hc'⟩
  -- a node is in one component only
  have huniq : ∀ (i j : Nat) ci cj, st.sccs[i]? = some ci → st.sccs[j]? = some cj → ∀ a, a ∈ ci → a ∈ cj → i = j := by
    intro i j ci cj hi hj a hai haj
    have hp := (List.pairwise_flatten.mp hinv.nodup).2
    rw [List.pairwise_iff_getElem] at hp
    obtain ⟨hil, hi⟩ := List.getElem?_eq_some_iff.mp hi
    obtain ⟨hjl, hj⟩ := List.getElem?_eq_some_iff.mp hj
    rcases Nat.lt_trichotomy i j with h | h | h
    · exact absurd haj (fun h' => hp i j hil hjl h a (hi ▸ hai) a (hj ▸ h') rfl)
    · exact h
    · exact absurd hai (fun h' => hp j i hjl hil h a (hj ▸ haj) a (hi ▸ h') rfl)
  have hle : ∀ (i j : Nat) ci cj, st.sccs[i]? = some ci → st.sccs[j]? = some cj → ∀ a ∈ ci, ∀ b ∈ cj,
      Reach deps a b → j ≤ i := by
    intro i j ci cj hi hj a ha b hb hr
    have := htake i ci hi a ha b hr
    obtain ⟨d, hd, hbd⟩ := List.mem_flatten.mp this
    obtain ⟨k, hk, hkd⟩ := List.mem_iff_getElem.mp hd
    rw [List.getElem_take] at hkd
    have hlen : k < st.sccs.length := by simp at hk; omega
    have := huniq j k cj d hj (by rw [List.getElem?_eq_getElem hlen, hkd]) b hb hbd
    simp at hk
    omega
  refine ⟨st.sccs, by unfold tarjan; rw [hst]; rfl, ?_, ?_, ?_, fun c hc => (hinv.conn c hc).1⟩
  · rw [List.perm_ext_iff_of_nodup hinv.nodup List.nodup_range]
    intro a
    rw [hdone, List.mem_range]
  · intro c hc a ha b
    constructor
    · intro hb
      exact ⟨(hinv.conn c hc).2 a ha b hb, (hinv.conn c hc).2 b hb a ha⟩
    · rintro ⟨hab, hba⟩
      obtain ⟨i, hi⟩ := List.mem_iff_getElem?.mp hc
      have hb := htake i c hi a ha b hab
      obtain ⟨d, hd, hbd⟩ := List.mem_flatten.mp hb
      obtain ⟨j, hj⟩ := List.mem_iff_getElem?.mp (List.mem_of_mem_take hd)
      have h1 := hle i j c d hi hj a ha b hbd hab
      have h2 := hle j i d c hj hi b hbd a ha hba
      have : i = j := by omega
      subst this
      rw [hi] at hj
      cases hj
      exact hbd
  · intro i j ci cj hi hj a ha b hb hd
    exact hle i j ci cj hi hj a ha b hb (.edge hd)

-- Two mutually dependent pairs, one depending on the other, and a node that depends on itself.
example : tarjan 5 (fun v => [[1], [0, 2], [3], [2], [4]].getD v []) = some [[3, 2], [1, 0], [4]] := by
  decide +kernel
example : ∀ v, v < 5 → ∀ w ∈ [[1], [0, 2], [3], [2], [4]].getD v [], w < 5 := by decide

end Verif.Tarjan
