import Verif.ShuntUnique

namespace Verif.Shunt

theorem completeFrom_cons (b : Bool) (x : Tok) (ts : List Tok) :
    completeFrom b (x :: ts) =
      (decide (sideB b ≠ leftSide (some x)) && completeFrom (decide (rightSide (some x) = .valueLike)) ts) := by
  cases x with
  | val v => cases b <;> simp [completeFrom, sideB, leftSide, rightSide]
  | op o => cases b <;> cases h : o.fixity <;> simp [completeFrom, sideB, leftSide, rightSide, h]

theorem sideB_dec (s : Side) : sideB (decide (s = .valueLike)) = s := by cases s <;> rfl

theorem filler_kind {l r f} (h : filler l r = .ok (some f)) :
    f = .op catOp ∨ (∃ s, f = .val ⟨s, .sectionLeft⟩) ∨ (∃ s, f = .val ⟨s, .sectionRight⟩) := by
  unfold filler at h
  cases hl : rightSide l <;> cases hr : leftSide r <;> simp_all
  split at h
  · split at h
    · simp at h
    · simp at h; subst h; simp
  · simp at h; subst h; simp

theorem side_eq_of_ne {a b c : Side} (h1 : a ≠ b) (h2 : c ≠ b) : a = c := by
  cases a <;> cases b <;> cases c <;> simp_all

/-- Filling from `l` on, where `f` goes between `l` and the rest. -/
theorem fill_step {l : Option Tok} {xs ys : List Tok} {f : Option Tok}
    (hf : filler l xs.head? = .ok f)
    (hys : xs ≠ [] → ∀ b, sideB b ≠ leftSide xs.head? → completeFrom b ys = true)
    (hnil : xs = [] → ys = [])
    : completeFrom (decide (rightSide l = .valueLike)) (f.toList ++ ys) = true := by
  have hnilc : ∀ b, sideB b ≠ leftSide none → completeFrom b [] = true := by
    intro b; cases b <;> simp [sideB, leftSide, completeFrom]
  have hall : ∀ b, sideB b ≠ leftSide xs.head? → completeFrom b ys = true := by
    by_cases hx : xs = []
    · subst hx; rw [hnil rfl]; exact hnilc
    · exact hys hx
  cases f with
  | none =>
    simp
    exact hall _ (by rw [sideB_dec]; exact filler_none hf)
  | some f =>
    obtain ⟨h1, h2, h3⟩ := filler_some hf
    simp only [Option.toList, List.singleton_append, completeFrom_cons, sideB_dec]
    simp only [Bool.and_eq_true, decide_eq_true_eq]
    refine ⟨h2, hall _ (by rw [sideB_dec]; exact h3)⟩

theorem fillFrom_complete : ∀ (xs ys : List Tok), fillFrom xs = .ok ys →
    (xs = [] → ys = []) ∧ (xs ≠ [] → ∀ b, sideB b ≠ leftSide xs.head? → completeFrom b ys = true) := by
  intro xs
  induction xs with
  | nil => intro ys h; simp [fillFrom] at h; simp [h]
  | cons x xs ih =>
    intro ys h
    refine ⟨by simp, fun _ b hb => ?_⟩
    unfold fillFrom at h
    split at h
    · simp at h
    · rename_i f hf
      split at h
      · simp at h
      · rename_i ys' hys
        simp at h; subst h
        obtain ⟨h1, h2⟩ := ih ys' hys
        rw [completeFrom_cons]
        simp only [Bool.and_eq_true, decide_eq_true_eq]
        exact ⟨hb, fill_step hf h2 h1⟩

theorem fillFrom_filled : ∀ (xs ys : List Tok), fillFrom xs = .ok ys → Filled xs ys := by
  intro xs
  induction xs with
  | nil => intro ys h; simp [fillFrom] at h; subst h; exact .nil
  | cons x xs ih =>
    intro ys h
    unfold fillFrom at h
    split at h
    · simp at h
    · rename_i f hf
      split at h
      · simp at h
      · rename_i ys' hys
        simp at h; subst h
        refine .keep ?_
        cases f with
        | none => exact ih _ hys
        | some f =>
          rcases filler_kind hf with rfl | ⟨s, rfl⟩ | ⟨s, rfl⟩
          · exact .cat (ih _ hys)
          · exact .left (ih _ hys)
          · exact .right (ih _ hys)

theorem gaps_swap (l m xs) : gaps l xs ≤ gaps m xs + 1 := by
  cases xs with
  | nil => simp [gaps]; split <;> split <;> omega
  | cons x xs => simp [gaps]; split <;> split <;> omega

theorem fillFrom_length : ∀ (x : Tok) (xs ys : List Tok), fillFrom (x :: xs) = .ok ys →
    ys.length = xs.length + 1 + gaps (some x) xs := by
  intro x xs
  induction xs generalizing x with
  | nil =>
    intro ys h
    simp only [fillFrom, List.head?] at h
    split at h
    · simp at h
    · rename_i f hf
      simp at h; subst h
      cases f with
      | none => have := filler_none hf; simp [gaps, this]
      | some f => have := (filler_some hf).1; simp [gaps, this]
  | cons x' xs ih =>
    intro ys h
    unfold fillFrom at h
    simp only [List.head?] at h
    split at h
    · simp at h
    · rename_i f hf
      split at h
      · simp at h
      · rename_i ys' hys
        simp at h; subst h
        have := ih x' ys' hys
        cases f with
        | none => have h0 := filler_none hf; simp [gaps, h0]; omega
        | some f => have h0 := (filler_some hf).1; simp [gaps, h0]; omega

theorem fillGaps_length {xs ys : List Tok} (hne : xs ≠ []) (h : fillGaps xs = .ok ys) :
    ys.length = xs.length + gaps none xs := by
  unfold fillGaps at h
  split at h
  · exact absurd rfl hne
  · rename_i x rest
    split at h
    · simp at h
    · rename_i f hf
      split at h
      · simp at h
      · rename_i ys' hys
        simp at h; subst h
        have := fillFrom_length _ _ _ hys
        cases f with
        | none => have h0 := filler_none hf; simp [gaps, h0]; omega
        | some f => have h0 := (filler_some hf).1; simp [gaps, h0]; omega

theorem filled_lower {xs zs : List Tok} (h : Filled xs zs) : ∀ l : Option Tok,
    completeFrom (decide (rightSide l = .valueLike)) zs = true →
    xs.length + gaps l xs ≤ zs.length := by
  induction h with
  | nil =>
    intro l hc
    simp only [completeFrom, decide_eq_true_eq] at hc
    simp [gaps, hc, leftSide]
  | @keep t xs ys _ ih =>
    intro l hc
    rw [completeFrom_cons, sideB_dec] at hc
    simp only [Bool.and_eq_true, decide_eq_true_eq] at hc
    have := ih (some t) hc.2
    simp [gaps, hc.1]; omega
  | @cat xs ys _ ih =>
    intro l hc
    rw [completeFrom_cons] at hc
    simp only [Bool.and_eq_true] at hc
    have h1 := ih (some (.op catOp)) hc.2
    have h2 := gaps_swap l (some (.op catOp)) xs
    simp; omega
  | @left s xs ys _ ih =>
    intro l hc
    rw [completeFrom_cons] at hc
    simp only [Bool.and_eq_true] at hc
    have h1 := ih (some (.val ⟨s, .sectionLeft⟩)) hc.2
    have h2 := gaps_swap l (some (.val ⟨s, .sectionLeft⟩)) xs
    simp; omega
  | @right s xs ys _ ih =>
    intro l hc
    rw [completeFrom_cons] at hc
    simp only [Bool.and_eq_true] at hc
    have h1 := ih (some (.val ⟨s, .sectionRight⟩)) hc.2
    have h2 := gaps_swap l (some (.val ⟨s, .sectionRight⟩)) xs
    simp; omega

theorem complete_fillFrom : ∀ (xs : List Tok) (l : Option Tok),
    completeFrom (decide (rightSide l = .valueLike)) xs = true →
    fillFrom xs = .ok xs := by
  intro xs
  induction xs with
  | nil => intro l _; rfl
  | cons x xs ih =>
    intro l h
    rw [completeFrom_cons] at h
    simp only [Bool.and_eq_true] at h
    have h1 := complete_nofill h.2 (some x) (by rw [sideB_dec])
    unfold fillFrom
    rw [h1, ih (some x) h.2]; simp

/-! ## Bracket contents -/

theorem completeFrom_cat (b : Bool) (xs ts : List Tok) :
    completeFrom b (xs ++ .op catOp :: ts) = (completeFrom b xs && completeFrom false ts) := by
  induction xs generalizing b with
  | nil => cases b <;> simp [completeFrom, catOp]
  | cons x xs ih =>
    simp only [List.cons_append, completeFrom_cons, ih, Bool.and_assoc]

theorem splitAtCat_ok : ∀ (ts cur : List Tok), completeFrom false (cur ++ ts) = true →
    (∀ t ∈ ts, isCat t → t = .op catOp) → (∀ t ∈ cur, isCat t = false) →
    ∃ g gs, splitAtCat cur ts = g :: gs ∧ (∀ x ∈ g :: gs, completeFrom false x = true ∧ ∀ t ∈ x, isCat t = false) ∧
      ((g :: gs).intersperse [.op catOp]).flatten = cur ++ ts := by
  intro ts
  induction ts with
  | nil =>
    intro cur h _ hn
    cases cur with
    | nil => simp [completeFrom] at h
    | cons c cs =>
      refine ⟨c :: cs, [], by simp [splitAtCat], ?_, by simp [List.intersperse]⟩
      intro x hx; simp at hx; subst hx; exact ⟨by simpa using h, hn⟩
  | cons t ts ih =>
    intro cur h hc hn
    have hc' : ∀ t ∈ ts, isCat t → t = .op catOp := fun a ha => hc a (by simp [ha])
    by_cases ht : isCat t
    · have := hc t (by simp) ht
      subst this
      rw [completeFrom_cat] at h
      simp only [Bool.and_eq_true] at h
      obtain ⟨g, gs, h1, h2, h3⟩ := ih [] (by simpa using h.2) hc' (by simp)
      cases cur with
      | nil => simp [completeFrom] at h
      | cons c cs =>
        refine ⟨c :: cs, g :: gs, ?_, ?_, ?_⟩
        · unfold splitAtCat; simp [ht, h1]
        · intro x hx
          simp only [List.mem_cons] at hx
          rcases hx with rfl | hx
          · exact ⟨h.1, hn⟩
          · exact h2 x (by simpa using hx)
        · rw [List.intersperse_cons_cons]
          simp only [List.flatten_cons, h3]; simp
    · obtain ⟨g, gs, h1, h2, h3⟩ := ih (cur ++ [t]) (by simpa using h) hc' (by
        intro a ha; simp at ha; rcases ha with ha | rfl
        · exact hn a ha
        · simpa using ht)
      refine ⟨g, gs, ?_, h2, by simpa using h3⟩
      unfold splitAtCat
      cases cur <;> simp_all

end Verif.Shunt
