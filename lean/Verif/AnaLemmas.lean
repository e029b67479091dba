import Verif.AnaModel

/-! # Helper lemmas for anaphora -/

namespace Verif.Ana

theorem natCmp_lt {a b : Nat} : natCmp a b = .lt ↔ a < b := by
  unfold natCmp; split
  · simp [*]
  · split <;> simp [*]

theorem natCmp_eq {a b : Nat} : natCmp a b = .eq ↔ a = b := by
  unfold natCmp; split
  · simp; omega
  · split <;> simp [*]

theorem intCmp_lt {a b : Int} : intCmp a b = .lt ↔ a < b := by
  unfold intCmp; split
  · simp [*]
  · split <;> simp [*]

theorem sideCmp_lt {a b : Side} : a.cmp b = .lt ↔ a = .left ∧ b = .right := by
  cases a <;> cases b <;> decide

theorem lt_anon {a b : Nat} : (Anaphor.anon a).lt (.anon b) = true ↔ a < b := by
  simp only [Anaphor.lt, Anaphor.cmp, beq_iff_eq, natCmp_lt]

theorem lt_num {a b : Int} : (Anaphor.num a).lt (.num b) = true ↔ a < b := by
  simp only [Anaphor.lt, Anaphor.cmp, beq_iff_eq, intCmp_lt]

theorem lt_implicit {a b : Nat} {sa sb : Side} :
    (Anaphor.implicit a sa).lt (.implicit b sb) = true ↔
      a < b ∨ (a = b ∧ sa = .left ∧ sb = .right) := by
  simp only [Anaphor.lt, Anaphor.cmp, beq_iff_eq]
  cases h : natCmp a b with
  | eq => rw [natCmp_eq] at h; subst h; simp [sideCmp_lt]
  | lt => rw [natCmp_lt] at h; simp [h]
  | gt =>
    have h1 : ¬ a < b := by rw [← natCmp_lt, h]; simp
    have h2 : ¬ a = b := by rw [← natCmp_eq, h]; simp
    simp [h1, h2]

theorem lt_trans {a b c : Anaphor} (h1 : a.lt b = true) (h2 : b.lt c = true) : a.lt c = true := by
  cases a <;> cases b <;> cases c <;>
    first
      | rfl
      | exact absurd h1 (by decide)
      | exact absurd h2 (by decide)
      | (simp [Anaphor.lt, Anaphor.cmp] at h1; done)
      | (simp [Anaphor.lt, Anaphor.cmp] at h2; done)
      | (rw [lt_anon] at *; omega)
      | (rw [lt_num] at *; omega)
      | skip
  rw [lt_implicit] at *
  rename_i a sa b sb c sc
  rcases h1 with h1 | ⟨h1, h1', h1''⟩
  · rcases h2 with h2 | ⟨h2, h2', h2''⟩ <;> (left; omega)
  · rcases h2 with h2 | ⟨h2, h2', h2''⟩
    · left; omega
    · rw [h1''] at h2'; cases h2'

theorem lt_irrefl (a : Anaphor) : a.lt a = false := by
  cases h : a.lt a with
  | false => rfl
  | true =>
    cases a <;> simp only [lt_anon, lt_num, lt_implicit] at h
    · omega
    · omega
    · rcases h with h | ⟨_, h, h'⟩
      · omega
      · rw [h] at h'; cases h'

theorem lt_total {a b : Anaphor} (hne : a ≠ b) : a.lt b = true ∨ b.lt a = true := by
  cases a <;> cases b <;>
    first
      | (left; rfl)
      | (right; rfl)
      | (simp at hne; rw [lt_anon, lt_anon]; omega)
      | (simp at hne; rw [lt_num, lt_num]; omega)
      | skip
  rw [lt_implicit, lt_implicit]
  rename_i a sa b sb
  by_cases h : a = b
  · subst h
    cases sa <;> cases sb <;> simp_all
  · omega

theorem insertSorted_perm (a : Anaphor) : ∀ as, (insertSorted a as).Perm (a :: as)
  | [] => .refl _
  | b :: bs => by
    unfold insertSorted
    split
    · exact .refl _
    · exact ((insertSorted_perm a bs).cons b).trans (.swap a b bs)

theorem sort_perm : ∀ as, (sort as).Perm as
  | [] => .refl _
  | a :: as => (insertSorted_perm a _).trans ((sort_perm as).cons a)

/-- Strictly increasing. -/
abbrev Inc (as : List Anaphor) : Prop := as.Pairwise fun a b => a.lt b = true

theorem insertSorted_inc {a : Anaphor} : ∀ {as : List Anaphor}, Inc as → a ∉ as →
    Inc (insertSorted a as)
  | [], _, _ => by simp [insertSorted, Inc]
  | b :: bs, h, hn => by
    unfold insertSorted
    have hb := List.pairwise_cons.1 h
    split
    · next hlt =>
      refine List.pairwise_cons.2 ⟨?_, h⟩
      intro c hc
      rcases List.mem_cons.1 hc with rfl | hc
      · exact hlt
      · exact lt_trans hlt (hb.1 c hc)
    · next hlt =>
      refine List.pairwise_cons.2 ⟨?_, insertSorted_inc hb.2 (fun hm => hn (by simp [hm]))⟩
      intro c hc
      rcases List.mem_cons.1 ((insertSorted_perm a bs).mem_iff.1 hc) with rfl | hc
      · rcases lt_total (a := c) (b := b) (by rintro rfl; exact hn (by simp)) with h' | h'
        · exact absurd h' hlt
        · exact h'
      · exact hb.1 c hc

theorem sort_inc : ∀ {as : List Anaphor}, as.Nodup → Inc (sort as)
  | [], _ => .nil
  | a :: as, h => by
    have h' := List.nodup_cons.1 h
    exact insertSorted_inc (sort_inc h'.2) (fun hm => h'.1 ((sort_perm as).mem_iff.1 hm))

/-- A sorted list is determined by its members. -/
theorem inc_unique : ∀ {as bs : List Anaphor}, Inc as → Inc bs → (∀ x, x ∈ as ↔ x ∈ bs) → as = bs
  | [], [], _, _, _ => rfl
  | [], b :: bs, _, _, h => absurd ((h b).2 (by simp)) (by simp)
  | a :: as, [], _, _, h => absurd ((h a).1 (by simp)) (by simp)
  | a :: as, b :: bs, ha, hb, h => by
    have ha' := List.pairwise_cons.1 ha
    have hb' := List.pairwise_cons.1 hb
    have hab : a = b := by
      by_cases he : a = b
      · exact he
      · have h1 : a ∈ bs := by
          rcases List.mem_cons.1 ((h a).1 (by simp)) with h1 | h1
          · exact absurd h1 he
          · exact h1
        have h2 : b ∈ as := by
          rcases List.mem_cons.1 ((h b).2 (by simp)) with h2 | h2
          · exact absurd h2.symm he
          · exact h2
        have := lt_trans (ha'.1 b h2) (hb'.1 a h1)
        rw [lt_irrefl] at this; cases this
    subst hab
    congr 1
    refine inc_unique ha'.2 hb'.2 fun x => ⟨fun hx => ?_, fun hx => ?_⟩
    · rcases List.mem_cons.1 ((h x).1 (by simp [hx])) with rfl | h1
      · have := ha'.1 x hx; rw [lt_irrefl] at this; cases this
      · exact h1
    · rcases List.mem_cons.1 ((h x).2 (by simp [hx])) with rfl | h1
      · have := hb'.1 x hx; rw [lt_irrefl] at this; cases this
      · exact h1

theorem getName_mem {N} {m : List (Anaphor × N)} (hd : (m.map Prod.fst).Nodup) {a : Anaphor}
    {x : N} : getName m a = some x ↔ (a, x) ∈ m := by
  induction m with
  | nil => simp [getName]
  | cons p m ih =>
    obtain ⟨k, v⟩ := p
    simp only [List.map_cons, List.nodup_cons] at hd
    unfold getName
    by_cases h : k = a
    · subst h
      simp only [if_true, Option.some.injEq, List.mem_cons, Prod.mk.injEq, true_and]
      constructor
      · rintro rfl; exact .inl rfl
      · rintro (rfl | h)
        · rfl
        · exact absurd (List.mem_map.2 ⟨_, h, rfl⟩) hd.1
    · simp only [h, if_false, ih hd.2, List.mem_cons, Prod.mk.injEq]
      constructor
      · exact .inr
      · rintro (⟨rfl, _⟩ | h')
        · exact absurd rfl h
        · exact h'

theorem getName_isSome {N} {m : List (Anaphor × N)} {a : Anaphor} (h : a ∈ m.map Prod.fst) :
    ∃ x, getName m a = some x := by
  induction m with
  | nil => simp at h
  | cons p m ih =>
    obtain ⟨k, v⟩ := p
    unfold getName
    by_cases hk : k = a
    · exact ⟨v, by simp [hk]⟩
    · simp only [List.map_cons, List.mem_cons] at h
      rcases h with h | h
      · exact absurd h.symm hk
      · simp only [hk, if_false]; exact ih h

theorem names_eq {N} {m : List (Anaphor × N)} : ∀ {as : List Anaphor} {xs : List N},
    names m as = some xs ↔ as.map (getName m) = xs.map some
  | [], xs => by cases xs <;> simp [names]
  | a :: as, xs => by
    unfold names
    cases h : getName m a with
    | none =>
      simp only [List.map_cons, h, reduceCtorEq, false_iff]
      intro h'
      cases xs <;> simp at h'
    | some x =>
      cases h2 : names m as with
      | none =>
        simp only [List.map_cons, h, reduceCtorEq, false_iff]
        intro h'
        cases xs with
        | nil => simp at h'
        | cons y ys =>
          simp only [List.map_cons, List.cons.injEq] at h'
          rw [names_eq.2 h'.2] at h2
          cases h2
      | some ys =>
        have ih := (names_eq (m := m)).1 h2
        simp only [Option.some.injEq, List.map_cons, h, ih]
        constructor
        · rintro rfl; rfl
        · intro h'
          cases xs with
          | nil => simp at h'
          | cons z zs =>
            simp only [List.map_cons, List.cons.injEq, Option.some.injEq] at h'
            rw [h'.1, List.map_inj_right (fun _ _ h => Option.some.inj h) |>.1 h'.2]

theorem names_exists {N} {m : List (Anaphor × N)} : ∀ {as : List Anaphor},
    (∀ a ∈ as, a ∈ m.map Prod.fst) → ∃ xs, names m as = some xs
  | [], _ => ⟨[], rfl⟩
  | a :: as, h => by
    obtain ⟨x, hx⟩ := getName_isSome (h a (by simp))
    obtain ⟨xs, hxs⟩ := names_exists (m := m) (as := as) fun b hb => h b (by simp [hb])
    exact ⟨x :: xs, by simp [names, hx, hxs]⟩

theorem maxOf_spec : ∀ (ns : List Int) (n : Int),
    maxOf n ns ∈ n :: ns ∧ ∀ m ∈ n :: ns, m ≤ maxOf n ns
  | [], n => by simp [maxOf]
  | m :: ms, n => by
    unfold maxOf
    obtain ⟨h1, h2⟩ := maxOf_spec ms (if n < m then m else n)
    split at h1
    · next h =>
      rw [if_pos h] at *
      refine ⟨List.mem_cons_of_mem _ h1, ?_⟩
      intro k hk
      have hm := h2 m (by simp)
      simp only [List.mem_cons] at hk
      rcases hk with rfl | rfl | hk
      · omega
      · exact hm
      · exact h2 k (by simp [hk])
    · next h =>
      rw [if_neg h] at *
      refine ⟨by simp at h1 ⊢; rcases h1 with h1 | h1; exact .inl h1; exact .inr (.inr h1), ?_⟩
      intro k hk
      have hm := h2 n (by simp)
      simp only [List.mem_cons] at hk
      rcases hk with rfl | rfl | hk
      · exact hm
      · omega
      · exact h2 k (by simp [hk])

theorem place_spec {N} (get : Anaphor → Option N) : ∀ (ns : List Int) (v : List (Option N)),
    (∀ n ∈ ns, 0 ≤ n ∧ n.toNat < v.length ∧ (get (.num n)).isSome) →
    ∃ w, place get ns v = some w ∧ w.length = v.length ∧
      ∀ i : Nat, i < v.length → w[i]? = some (if (i : Int) ∈ ns then get (.num i) else (v[i]?).join)
  | [], v, _ => by
    refine ⟨v, rfl, rfl, ?_⟩
    intro i hi
    simp [List.getElem?_eq_getElem hi]
  | n :: ns, v, h => by
    obtain ⟨h1, h2, h3⟩ := h n (by simp)
    obtain ⟨x, hx⟩ := Option.isSome_iff_exists.1 h3
    obtain ⟨w, hw, hl, hs⟩ := place_spec get ns (v.set n.toNat (some x)) (by
      intro k hk
      simp only [List.length_set]
      exact h k (by simp [hk]))
    refine ⟨w, ?_, ?_, ?_⟩
    · unfold place; rw [hx]; simp only [h1, h2, and_self, if_true]; exact hw
    · rw [hl, List.length_set]
    · intro i hi
      rw [hs i (by simpa using hi)]
      by_cases hm : (i : Int) ∈ ns
      · simp [hm]
      · by_cases he : (i : Int) = n
        · have : n.toNat = i := by omega
          simp only [List.mem_cons, he, true_or, if_true, hx]
          rw [this, List.getElem?_set_self hi]; split <;> rfl
        · have : n.toNat ≠ i := by omega
          simp only [hm, if_false, List.mem_cons, he, false_or]
          rw [List.getElem?_set_ne this]

theorem place_neg {N} (get : Anaphor → Option N) : ∀ (ns : List Int) (v : List (Option N)),
    (∃ n ∈ ns, n < 0) → place get ns v = none
  | [], _, h => by simp at h
  | n :: ns, v, ⟨k, hk, hneg⟩ => by
    unfold place
    cases get (.num n) with
    | none => rfl
    | some x =>
      dsimp only
      split
      · next h =>
        rcases List.mem_cons.1 hk with rfl | hk
        · omega
        · exact place_neg get ns _ ⟨k, hk, hneg⟩
      · rfl

theorem padFrom_spec {N} (dummy : Nat → N) : ∀ (v : List (Option N)) (i : Nat),
    (padFrom dummy i v).length = v.length ∧
    ∀ j : Nat, (padFrom dummy i v)[j]? = (v[j]?).map fun x => x.getD (dummy (i + j))
  | [], i => by simp [padFrom]
  | x :: xs, i => by
    obtain ⟨h1, h2⟩ := padFrom_spec dummy xs (i + 1)
    refine ⟨by simp [padFrom, h1], ?_⟩
    intro j
    cases j with
    | zero => simp [padFrom]
    | succ j =>
      simp only [padFrom, List.getElem?_cons_succ, h2]
      congr 1
      funext y
      rw [show i + 1 + j = i + (j + 1) by omega]

end Verif.Ana
