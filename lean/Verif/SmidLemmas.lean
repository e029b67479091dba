import Verif.SmidModel

/-! Helper lemmas for source locations, descriptors and trace abbreviation. -/

namespace Verif.Smid

/-! ## Words -/

theorem flags_eq (u : Bool) {a n : Nat} (ha : a < 256) (_hn : n < 2 ^ 32) :
    flags u a n = 2 ^ 32 * n + 2 ^ 24 * a + (if u then 1 else 0) := by
  have h : (n <<< 32) ||| (a <<< 24) = 2 ^ 32 * n + 2 ^ 24 * a := by
    rw [Nat.shiftLeft_eq, Nat.shiftLeft_eq, Nat.mul_comm n, Nat.mul_comm a]
    exact (Nat.two_pow_add_eq_or_of_lt (by omega) n).symm
  unfold flags
  rw [h]
  cases u <;> simp

theorem and_tag (s : Nat) : s &&& tag = (s.testBit 31).toNat * 2 ^ 31 := by
  apply Nat.eq_of_testBit_eq
  intro i
  have h : tag = 2 ^ 31 := rfl
  rw [h, Nat.testBit_and, Nat.testBit_two_pow, Nat.testBit_mul_two_pow]
  by_cases hi : i = 31
  · subst hi
    cases s.testBit 31 <;> simp
  · cases hb : s.testBit 31
    · simp; omega
    · have : (decide (31 = i)) = false := by simp; omega
      rw [this]
      simp only [Bool.and_false, Bool.toNat_true]
      by_cases h2 : 31 ≤ i
      · have : i - 31 ≠ 0 := by omega
        cases hk : i - 31 with
        | zero => omega
        | succ k => simp [Nat.testBit_succ]
      · simp [h2]

theorem testBit31 {s : Nat} (h : s < 2 ^ 32) : s.testBit 31 = decide (2 ^ 31 ≤ s) := by
  rw [Nat.testBit_eq_decide_div_mod_eq]
  by_cases h2 : 2 ^ 31 ≤ s
  · simp only [h2, decide_true, decide_eq_true_eq]; omega
  · simp only [h2, decide_false, decide_eq_false_iff_not]; omega

theorem asGlobalSlot_eq {s : Nat} (h : s < 2 ^ 32) :
    asGlobalSlot s = if 2 ^ 31 ≤ s then some (s - 2 ^ 31) else none := by
  have hm : (2 ^ 32 - 1 - tag) = 2 ^ 31 - 1 := by decide
  unfold asGlobalSlot
  rw [and_tag, testBit31 h, hm, Nat.and_two_pow_sub_one_eq_mod]
  by_cases h2 : 2 ^ 31 ≤ s
  · have h0 : s ≠ 0 := by omega
    have hmod : s % 2 ^ 31 = s - 2 ^ 31 := by omega
    rw [if_neg h0, if_pos (by simp [h2]), if_pos h2, hmod]
  · rw [if_neg h2]
    simp [h2]

theorem globalSlot_eq (n : Nat) : globalSlot n = 2 ^ 31 + n % 2 ^ 31 := by
  have hm : (2 ^ 32 - 1 - tag) = 2 ^ 31 - 1 := by decide
  have ht : tag = 2 ^ 31 * 1 := by decide
  unfold globalSlot
  rw [hm, Nat.and_two_pow_sub_one_eq_mod, ht,
    ← Nat.two_pow_add_eq_or_of_lt (Nat.mod_lt _ (by decide)) 1]

/-- What `source_info_for_smid` does. -/
theorem lookup_eq (m : SourceMap) {s : Nat} (h : s < 2 ^ 32) :
    m.lookup s = if m.foreignFloor < s ∧ s < 2 ^ 31 then m.source[s - 1 - m.foreignFloor]? else none := by
  unfold SourceMap.lookup
  rw [asGlobalSlot_eq h]
  by_cases h2 : 2 ^ 31 ≤ s
  · have : ¬ (m.foreignFloor < s ∧ s < 2 ^ 31) := by omega
    simp only [h2, if_true, Option.isSome_some, this, if_false]
  · simp only [h2, if_false, Option.isSome_none, Bool.false_eq_true]
    unfold get SourceMap.infoAt
    by_cases h0 : s = 0
    · have : ¬ (m.foreignFloor < s ∧ s < 2 ^ 31) := by omega
      simp [h0]
    · simp only [h0, if_false, Option.bind_some]
      by_cases h3 : m.foreignFloor < s
      · have h4 : m.foreignFloor ≤ s - 1 := by omega
        have h5 : s < 2 ^ 31 := by omega
        simp only [h4, h3, h5, and_self, if_true]
      · have h4 : ¬ m.foreignFloor ≤ s - 1 := by omega
        simp only [h4, h3, if_false, false_and]

/-- The same, for handles of any width (a wider number resolves only if the tag bit is clear). -/
theorem lookup_some_floor {m : SourceMap} {s : Nat} {i : Info} (h : m.lookup s = some i) :
    m.foreignFloor < s ∧ m.source[s - 1 - m.foreignFloor]? = some i := by
  unfold SourceMap.lookup at h
  split at h
  · cases h
  · unfold get SourceMap.infoAt at h
    split at h
    · cases h
    · simp only [Option.bind_some] at h
      split at h
      · exact ⟨by omega, h⟩
      · cases h

theorem nextSmid_eq {m : SourceMap} {s : Nat} (h : m.foreignFloor + m.source.length < 2 ^ 32)
    (hn : m.nextSmid = some s) : s = m.foreignFloor + m.source.length + 1 := by
  unfold SourceMap.nextSmid new at hn
  split at hn
  · injection hn with hn
    rw [Nat.mod_eq_of_lt h] at hn
    exact hn.symm
  · cases hn

theorem nextSmid_lt {m : SourceMap} {s : Nat} (hn : m.nextSmid = some s) : 0 < s ∧ s < 2 ^ 32 := by
  unfold SourceMap.nextSmid new at hn
  split at hn
  · injection hn with hn; omega
  · cases hn

theorem lookup_push_old {m m' : SourceMap} {i : Info} {r s : Nat} {j : Info} (h : m.push i = some (r, m'))
    (hs : m.lookup s = some j) : m'.lookup s = some j := by
  unfold SourceMap.push at h
  cases hn : m.nextSmid with
  | none => rw [hn] at h; cases h
  | some q =>
    rw [hn] at h
    injection h with h; injection h with _ h; subst h
    unfold SourceMap.lookup at hs ⊢
    split at hs
    · cases hs
    · next hg =>
      rw [if_neg hg]
      unfold SourceMap.infoAt at hs ⊢
      cases hgs : get s with
      | none => rw [hgs] at hs; cases hs
      | some k =>
        rw [hgs] at hs
        simp only [Option.bind_some] at hs ⊢
        split at hs
        · next hk =>
          rw [if_pos hk]
          rw [List.getElem?_append_left]
          · exact hs
          · exact (List.getElem?_eq_some_iff.mp hs).1
        · cases hs

theorem lookup_push_new {m m' : SourceMap} {i : Info} {r : Nat} (h : m.push i = some (r, m'))
    (hc : m.foreignFloor + m.source.length + 1 < 2 ^ 31) : m'.lookup r = some i ∧ m.lookup r = none := by
  unfold SourceMap.push at h
  cases hn : m.nextSmid with
  | none => rw [hn] at h; cases h
  | some q =>
    rw [hn] at h
    injection h with h; injection h with h1 h; subst h h1
    have hq := nextSmid_eq (by omega) hn
    have hlt : q < 2 ^ 32 := by omega
    rw [lookup_eq _ hlt, lookup_eq _ hlt]
    have hc' : m.foreignFloor < q ∧ q < 2 ^ 31 := by omega
    simp only [hc', and_self, if_true]
    have : q - 1 - m.foreignFloor = m.source.length := by omega
    rw [this]
    simp

/-! ## Runs -/

variable {α : Type} [DecidableEq α]

/-- The first repetitions of a pattern. -/
abbrev rep (n : Nat) (pat : List α) : List α := (List.replicate n pat).flatten

theorem repeats_spec (pat xs : List α) : rep (repeats pat xs).1 pat ++ (repeats pat xs).2 = xs := by
  induction xs using repeats.induct (pat := pat) with
  | case1 xs h ih =>
    rw [repeats, dif_pos h]
    simp only [rep, List.replicate_succ, List.flatten_cons, List.append_assoc] at ih ⊢
    rw [ih]
    have h2 := h.2.2
    calc pat ++ xs.drop pat.length = xs.take pat.length ++ xs.drop pat.length := by rw [h2]
      _ = xs := List.take_append_drop _ _
  | case2 xs h => rw [repeats, dif_neg h]; simp

theorem repeats_zero_nil (xs : List α) : (repeats [] xs).1 = 0 := by
  rw [repeats, dif_neg (by simp)]

/-- A further occurrence is always counted. -/
theorem repeats_pos {pat xs : List α} (hp : pat ≠ []) (h : pat <+: xs) : 1 ≤ (repeats pat xs).1 := by
  obtain ⟨t, rfl⟩ := h
  rw [repeats, dif_pos ⟨hp, by simp, by simp⟩]
  simp

/-- No occurrence of the pattern is left after the counted ones. -/
theorem repeats_rest (pat xs : List α) (hp : pat ≠ []) : ¬ pat <+: (repeats pat xs).2 := by
  induction xs using repeats.induct (pat := pat) with
  | case1 xs h ih => rw [repeats, dif_pos h]; exact ih
  | case2 xs h =>
    rw [repeats, dif_neg h]
    rintro ⟨t, ht⟩
    apply h
    subst ht
    exact ⟨hp, by simp, by simp⟩

theorem tryPatterns_spec {xs : List α} {fuel len : Nat} {r : Run α} {rest : List α}
    (h : tryPatterns xs fuel len = some (r, rest)) :
    rep r.count r.pattern ++ rest = xs ∧ 2 ≤ r.count ∧ r.pattern ≠ [] ∧
      r.pattern.length + 1 ≤ len + fuel ∧ ¬ r.pattern <+: rest := by
  induction fuel generalizing len with
  | zero => cases h
  | succ n ih =>
    rw [tryPatterns] at h
    split at h
    · next hc =>
      injection h with h
      injection h with h1 h2; subst h1 h2
      have hne : xs.take len ≠ [] := by
        intro h0
        rw [h0, repeats_zero_nil] at hc
        omega
      refine ⟨?_, hc, hne, ?_, repeats_rest _ _ hne⟩
      · simp only [rep, Nat.add_comm 1, List.replicate_succ, List.flatten_cons, List.append_assoc]
        rw [repeats_spec, List.take_append_drop]
      · simp only [List.length_take]; omega
    · have := ih h
      refine ⟨this.1, this.2.1, this.2.2.1, by omega, this.2.2.2.2⟩

/-- If no pattern is found, none of the lengths tried repeats. -/
theorem tryPatterns_none {xs : List α} {fuel len : Nat} (h : tryPatterns xs fuel len = none) :
    ∀ p : List α, p ≠ [] → len ≤ p.length → p.length < len + fuel → ¬ (p ++ p) <+: xs := by
  induction fuel generalizing len with
  | zero => intro p _ h1 h2; omega
  | succ n ih =>
    rw [tryPatterns] at h
    split at h
    · cases h
    · next hc =>
      intro p hp h1 h2
      by_cases h3 : p.length = len
      · rintro ⟨t, ht⟩
        apply hc
        subst h3
        have e1 : xs.take p.length = p := by rw [← ht]; simp
        have e2 : xs.drop p.length = p ++ t := by rw [← ht]; simp
        rw [e1, e2]
        have := repeats_pos hp (List.prefix_append p t)
        omega
      · exact ih h p hp (by omega) (by omega)

/-- What the abbreviation stands for. -/
def expand (rs : List (Run α)) : List α := rs.flatMap fun r => rep r.count r.pattern

/-- Any property of traces and their abbreviations that holds for the empty trace and is passed on by
both ways of abbreviating holds for all. -/
theorem compress_induct {P : List α → List (Run α) → Prop} (h0 : P [] [])
    (h1 : ∀ r rest rs, 2 ≤ r.count → r.pattern ≠ [] → r.pattern.length ≤ 8 → ¬ r.pattern <+: rest →
      P rest rs → P (rep r.count r.pattern ++ rest) (r :: rs))
    (h2 : ∀ x xs rs, (∀ p : List α, p ≠ [] → p.length ≤ 8 → ¬ (p ++ p) <+: x :: xs) →
      P xs rs → P (x :: xs) (⟨[x], 1⟩ :: rs)) (xs : List α) : P xs (compress xs) := by
  induction xs using compress.induct with
  | case1 => rw [compress]; exact h0
  | case2 x xs r rest h ih =>
    rw [compress]
    split
    · next h' =>
      rw [h] at h'
      injection h' with h'
      injection h' with e1 e2; subst e1 e2
      obtain ⟨s1, s2, s3, s4, s5⟩ := tryPatterns_spec h
      rw [← s1]
      exact h1 _ _ _ s2 s3 (by omega) s5 ih
    · next h' => rw [h] at h'; cases h'
  | case3 x xs h ih =>
    rw [compress]
    split
    · next h' => rw [h] at h'; cases h'
    · refine h2 _ _ _ ?_ ih
      intro p hp hl hpre
      have hlen := hpre.length_le
      simp only [List.length_append, List.length_cons] at hlen
      have hpos := List.length_pos_iff.mpr hp
      exact tryPatterns_none h p hp (by omega) (by simp only [List.length_cons]; omega) hpre

omit [DecidableEq α] in
theorem rep_eq_cons {n : Nat} (h : 1 ≤ n) (pat : List α) : rep n pat = pat ++ rep (n - 1) pat := by
  obtain ⟨k, rfl⟩ : ∃ k, n = k + 1 := ⟨n - 1, by omega⟩
  simp [rep, List.replicate_succ]

/-- What is shown of a trace: each pattern once. -/
abbrev shown (xs : List α) : List α := (compress xs).flatMap (·.pattern)

omit [DecidableEq α] in
theorem find_rep (f : α → Bool) {n : Nat} (h : 1 ≤ n) (pat rest : List α) :
    (rep n pat ++ rest).find? f = (pat ++ rest).find? f := by
  have hstep : ∀ n, pat.find? f = none → (rep n pat).find? f = none := by
    intro n hp
    simp only [List.find?_eq_none, rep, List.mem_flatten, List.mem_replicate] at hp ⊢
    rintro x ⟨l, ⟨_, rfl⟩, hx⟩
    exact hp x hx
  rw [rep_eq_cons h, List.append_assoc, List.find?_append, List.find?_append, List.find?_append]
  cases hp : pat.find? f with
  | some y => rfl
  | none => simp [hstep _ hp]

theorem find_shown (f : α → Bool) (xs : List α) : (shown xs).find? f = xs.find? f := by
  refine compress_induct (P := fun xs rs => (rs.flatMap (·.pattern)).find? f = xs.find? f) rfl ?_ ?_ xs
  · intro r rest rs hc _ _ _ ih
    rw [find_rep f (by omega)]
    simp only [List.flatMap_cons, List.find?_append, ih]
  · intro x xs rs _ ih
    simp only [List.flatMap_cons, List.cons_append, List.nil_append, List.find?_cons, ih]

theorem shown_sublist (xs : List α) : (shown xs).Sublist xs := by
  refine compress_induct (P := fun xs rs => (rs.flatMap (·.pattern)).Sublist xs) (List.Sublist.refl _) ?_ ?_ xs
  · intro r rest rs hc _ _ _ ih
    rw [rep_eq_cons (by omega), List.append_assoc]
    simp only [List.flatMap_cons]
    exact List.Sublist.append (List.Sublist.refl _) (ih.trans (List.sublist_append_right _ _))
  · intro x xs rs _ ih
    simpa using ih

theorem mem_shown {xs : List α} {x : α} : x ∈ shown xs ↔ x ∈ xs := by
  refine compress_induct (P := fun xs rs => x ∈ (rs.flatMap (·.pattern)) ↔ x ∈ xs) (by simp) ?_ ?_ xs
  · intro r rest rs hc _ _ _ ih
    simp only [List.flatMap_cons, List.mem_append, ih, rep, List.mem_flatten, List.mem_replicate]
    constructor
    · rintro (h | h)
      · exact .inl ⟨_, ⟨by omega, rfl⟩, h⟩
      · exact .inr h
    · rintro (⟨l, ⟨_, rfl⟩, h⟩ | h)
      · exact .inl h
      · exact .inr h
  · intro x xs rs _ ih
    simp [ih]

/-! ## Curation -/

/-- The kind of a frame that has a position depends on the position only. -/
theorem classify_of_position {m : SourceMap} {s t : Nat} (h : m.position s = m.position t)
    (hs : (m.position s).isSome) : m.classify s = m.classify t := by
  unfold SourceMap.position at h hs
  unfold SourceMap.classify
  cases h1 : m.lookup s with
  | none => rw [h1] at hs; cases hs
  | some i =>
    cases h2 : m.lookup t with
    | none => rw [h1, h2] at h; cases h
    | some j =>
      rw [h1, h2] at h
      injection h with h
      injection h with e1 h
      injection h with _ e2
      simp only [e1, e2]

/-- The classified trace. -/
abbrev SourceMap.cls (m : SourceMap) (raw : List Nat) : List (Nat × FrameKind) :=
  raw.map fun s => (s, m.classify s)

theorem keepFrames_find (m : SourceMap) (raw : List Nat) :
    ∀ prev i, (prev.isSome → ∀ s, m.position s = prev → m.classify s ≠ .user) →
      (m.keepFrames none prev i (m.cls raw)).find? (fun p => p.2 == .user) =
        (m.cls raw).find? (fun p => p.2 == .user) := by
  induction raw with
  | nil => intros; rfl
  | cons s raw ih =>
    intro prev i hprev
    simp only [SourceMap.cls, List.map_cons, SourceMap.keepFrames]
    split
    · next hk =>
      rw [ih prev _ hprev, List.find?_cons, hk]
      rfl
    · split
      · next hk hp =>
        rw [ih prev _ hprev, List.find?_cons]
        have : (m.classify s == FrameKind.user) = false := by
          have := hprev (hp.2 ▸ hp.1) s hp.2
          simp [this]
        rw [this]
      · next hk hp =>
        rw [List.find?_cons, List.find?_cons]
        simp only [reduceCtorEq, if_false]
        cases hu : (m.classify s == FrameKind.user) with
        | true => rfl
        | false =>
          refine ih _ _ ?_
          intro hsome t ht hu2
          have := classify_of_position ht (by rw [ht]; exact hsome)
          rw [this] at hu2
          rw [hu2] at hu
          exact absurd hu (by decide)

theorem keepFrames_sublist (m : SourceMap) (site : Option Nat) (raw : List (Nat × FrameKind)) :
    ∀ prev i, ((m.keepFrames site prev i raw).map (·.1)).Sublist (raw.map (·.1)) := by
  induction raw with
  | nil => intros; exact List.Sublist.refl _
  | cons p raw ih =>
    intro prev i
    obtain ⟨s, k⟩ := p
    simp only [SourceMap.keepFrames]
    split
    · exact (ih _ _).cons _
    · split
      · exact (ih _ _).cons _
      · split <;> exact (ih _ _).cons_cons _

theorem keepFrames_kind (m : SourceMap) (site : Option Nat) (raw : List (Nat × FrameKind)) :
    ∀ prev i, ∀ p ∈ m.keepFrames site prev i raw, p.2 ≠ .transparent ∧ (p.2 = .force ∨ p ∈ raw) := by
  induction raw with
  | nil => intro prev i p hp; cases hp
  | cons q raw ih =>
    intro prev i p hp
    obtain ⟨s, k⟩ := q
    simp only [SourceMap.keepFrames] at hp
    split at hp
    · have := ih _ _ p hp
      exact ⟨this.1, this.2.imp id (List.mem_cons_of_mem _)⟩
    · split at hp
      · have := ih _ _ p hp
        exact ⟨this.1, this.2.imp id (List.mem_cons_of_mem _)⟩
      · next hk _ =>
        cases hp with
        | head =>
          split
          · exact ⟨by simp, .inl rfl⟩
          · exact ⟨hk, .inr (List.mem_cons_self ..)⟩
        | tail _ hp =>
          have := ih _ _ p hp
          exact ⟨this.1, this.2.imp id (List.mem_cons_of_mem _)⟩

/-- Every frame that is not library plumbing is kept, or one in its position is. -/
theorem keepFrames_cover (m : SourceMap) (site : Option Nat) (raw : List (Nat × FrameKind)) :
    ∀ prev i, ∀ s k, (s, k) ∈ raw → k ≠ .transparent →
      (m.position s = prev ∧ prev.isSome) ∨ ∃ t k', (t, k') ∈ m.keepFrames site prev i raw ∧
        (t = s ∨ m.position t = m.position s) := by
  induction raw with
  | nil => intro prev i s k h; cases h
  | cons q raw ih =>
    intro prev i s k hs hk
    obtain ⟨s', k'⟩ := q
    simp only [SourceMap.keepFrames]
    rcases List.mem_cons.mp hs with h | h
    · injection h with e1 e2; subst e1 e2
      rw [if_neg hk]
      split
      · next hp => exact .inl ⟨hp.2, hp.2 ▸ hp.1⟩
      · right
        split
        · exact ⟨_, _, List.mem_cons_self .., .inl rfl⟩
        · exact ⟨_, _, List.mem_cons_self .., .inl rfl⟩
    · split
      · exact ih _ _ s k h hk
      · split
        · exact ih _ _ s k h hk
        · next hp =>
          right
          rcases ih (m.position s') (i + 1) s k h hk with h2 | ⟨t, k2, h2, h3⟩
          · split
            · exact ⟨_, _, List.mem_cons_self .., .inr h2.1.symm⟩
            · exact ⟨_, _, List.mem_cons_self .., .inr h2.1.symm⟩
          · exact ⟨t, k2, List.mem_cons_of_mem _ h2, h3⟩

end Verif.Smid
