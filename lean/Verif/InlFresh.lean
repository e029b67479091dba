import Verif.InlTrav
import Mathlib.Data.List.Perm.Subperm

/-!
# Fresh names, and what is planned for the arguments

Proofs only.
-/

namespace Verif.Inl
variable {K : Type}

theorem toDigits_inj {n m : Nat} (h : Nat.toDigits 10 n = Nat.toDigits 10 m) : n = m := by
  induction n using Nat.strongRecOn generalizing m with
  | ind n ih =>
    have hd : ∀ k : Nat, k < 10 → k.digitChar.toNat = 48 + k := fun k hk => Nat.toNat_digitChar_of_lt_ten hk
    have hlen : ∀ k, 0 < (Nat.toDigits 10 k).length := fun k => Nat.length_toDigits_pos
    have hne : ∀ k, Nat.toDigits 10 k ≠ [] := fun k he => by have := hlen k; rw [he] at this; cases this
    rw [Nat.toDigits_eq_if (by decide : 1 < 10), Nat.toDigits_eq_if (n := m) (by decide : 1 < 10)] at h
    split at h <;> rename_i h1 <;> split at h <;> rename_i h2
    · simp only [List.cons.injEq, and_true] at h
      have := congrArg Char.toNat h
      rw [hd n h1, hd m h2] at this
      omega
    · have := congrArg List.length h
      have := hlen (m / 10)
      simp only [List.length_append, List.length_cons, List.length_nil] at *
      omega
    · have := congrArg List.length h
      have := hlen (n / 10)
      simp only [List.length_append, List.length_cons, List.length_nil] at *
      omega
    · have h3 := List.append_inj' h rfl
      have h4 := ih (n / 10) (by omega) h3.1
      have h5 := congrArg Char.toNat (List.cons.inj h3.2).1
      rw [hd _ (Nat.mod_lt _ (by decide)), hd _ (Nat.mod_lt _ (by decide))] at h5
      omega

theorem toString_toList (n : Nat) : (toString n).toList = Nat.toDigits 10 n := by
  simp [toString, Nat.repr]

theorem candidate_inj (base : String) {n m : Nat} (h : candidate base n = candidate base m) : n = m := by
  unfold candidate at h
  have hlen : ∀ k, 0 < (Nat.toDigits 10 k).length := fun k => Nat.length_toDigits_pos
  split at h <;> rename_i h1 <;> split at h <;> rename_i h2
  · omega
  · have := congrArg (fun s => s.toList.length) h
    have h3 := hlen m
    simp only [String.toList_append, toString_toList, List.length_append] at this
    simp only [show "__shared_".toList.length = 9 by decide, show "__shared".toList.length = 8 by decide,
      show "_".toList.length = 1 by decide] at this
    omega
  · have := congrArg (fun s => s.toList.length) h
    have h3 := hlen n
    simp only [String.toList_append, toString_toList, List.length_append] at this
    simp only [show "__shared_".toList.length = 9 by decide, show "__shared".toList.length = 8 by decide,
      show "_".toList.length = 1 by decide] at this
    omega
  · have := congrArg String.toList h
    simp only [String.toList_append, toString_toList, List.append_assoc] at this
    exact toDigits_inj (List.append_cancel_right (List.append_cancel_left this))

/-- **A fresh name is not among those to avoid.** -/
theorem freshName_fresh (base : String) (avoid : List String) : freshName base avoid ∉ avoid := by
  unfold freshName
  cases hf : (List.range (avoid.length + 1)).find? fun n => !avoid.contains (candidate base n) with
  | some n =>
    have := List.find?_some hf
    simpa using this
  | none =>
    exfalso
    rw [List.find?_eq_none] at hf
    have hsub : (List.range (avoid.length + 1)).map (candidate base) ⊆ avoid := by
      intro s hs
      obtain ⟨n, hn, rfl⟩ := List.mem_map.1 hs
      simpa using hf n hn
    have hnd : ((List.range (avoid.length + 1)).map (candidate base)).Nodup := by
      exact List.pairwise_map.2 (List.nodup_range.imp fun hne he => hne (candidate_inj base he))
    have := (hnd.subperm hsub).length_le
    simp at this
    omega

/-- What is planned: every argument is put in itself or by a fresh name bound to it. -/
theorem plan_spec (occ : List String) (l : List (String × Exp K)) (avoid : List String) :
    ((plan occ l avoid).1.map (·.1) = l.map (·.1)) ∧
    (∀ (i : Nat) (p : String) (x : Exp K), l[i]? = some (p, x) → ∃ y : Exp K, (plan occ l avoid).1[i]? = some (p, y) ∧
      (y = x ∨ ∃ (k : Nat) (n : String), y = Exp.var (.free n) ∧ (plan occ l avoid).2[k]? = some (n, x))) ∧
    ((plan occ l avoid).2.map (·.1)).Nodup ∧ (∀ n ∈ (plan occ l avoid).2.map (·.1), n ∉ avoid) ∧
    (∀ q ∈ (plan occ l avoid).2, q.2 ∈ l.map (·.2)) := by
  induction l generalizing avoid with
  | nil => simp [plan]
  | cons q l ih =>
    obtain ⟨p, x⟩ := q
    by_cases hc : (decide (1 < occ.count p) && !duplicable x) = true
    · obtain ⟨h1, h2, h3, h4, h5⟩ := ih (freshName p avoid :: avoid)
      simp only [plan, hc, if_true]
      refine ⟨by simp [h1], ?_, ?_, ?_, ?_⟩
      · intro i p' x' hi
        cases i with
        | zero =>
          simp only [List.getElem?_cons_zero, Option.some.injEq, Prod.mk.injEq] at hi
          obtain ⟨rfl, rfl⟩ := hi
          exact ⟨_, rfl, .inr ⟨0, _, rfl, rfl⟩⟩
        | succ i =>
          obtain ⟨y, h6, h7⟩ := h2 i p' x' (by simpa using hi)
          refine ⟨y, by simpa using h6, ?_⟩
          rcases h7 with h7 | ⟨k, n, h7, h8⟩
          · exact .inl h7
          · exact .inr ⟨k + 1, n, h7, by simpa using h8⟩
      · simp only [List.map_cons, List.nodup_cons]
        exact ⟨fun hm => h4 _ hm (by simp), h3⟩
      · intro n hn
        simp only [List.map_cons, List.mem_cons] at hn
        rcases hn with rfl | hn
        · exact freshName_fresh p avoid
        · exact fun ha => h4 n hn (by simp [ha])
      · intro q hq
        simp only [List.mem_cons] at hq
        rcases hq with rfl | hq
        · simp
        · simp only [List.map_cons, List.mem_cons]; exact .inr (h5 q hq)
    · obtain ⟨h1, h2, h3, h4, h5⟩ := ih avoid
      simp only [plan, hc, if_false, Bool.false_eq_true]
      refine ⟨by simp [h1], ?_, h3, h4, ?_⟩
      · intro i p' x' hi
        cases i with
        | zero =>
          simp only [List.getElem?_cons_zero, Option.some.injEq, Prod.mk.injEq] at hi
          obtain ⟨rfl, rfl⟩ := hi
          exact ⟨_, rfl, .inl rfl⟩
        | succ i =>
          obtain ⟨y, h6, h7⟩ := h2 i p' x' (by simpa using hi)
          exact ⟨y, by simpa using h6, h7⟩
      · intro q hq
        simp only [List.map_cons, List.mem_cons]; exact .inr (h5 q hq)

end Verif.Inl
