import Verif.OptSound

/-!
# What the optimiser writes is in scope

Proofs only.
-/

namespace Verif.Opt
open Verif.Bc Verif.Sem
variable {K : Type} {M : Mode}

/-- `τ` takes names in a scope of `d` to names in a scope of `d'`. -/
def Into (d d' : Nat) (τ : Nat → Nat) : Prop := ∀ i < d, τ i < d'

theorem Into.up {d d' τ} (h : Into d d' τ) (n : Nat) : Into (d + n) (d' + n) (Opt.up n τ) := by
  intro i hi
  unfold Opt.up
  split
  · omega
  · have := h (i - n) (by omega); omega

theorem Into.bumped {d d' τ} (h : Into d d' τ) : Into d (d' + 1) (Opt.bumped τ) := by
  intro i hi
  have := h i hi
  unfold Opt.bumped
  omega

theorem Into.bound {d d' τ} {ks : List Nat} (h : Into d d' τ) (hk : ∀ k ∈ ks, k < d') :
    Into (d + ks.length) d' (Opt.bound ks τ) := by
  intro i hi
  unfold Opt.bound
  split
  · rename_i k hki; exact hk k (List.mem_of_getElem? hki)
  · rename_i hki
    have : ks.length ≤ i := by simpa using hki
    exact h _ (by omega)

theorem Into.ref {d d' τ} (h : Into d d' τ) {r : Ref K} (hr : ok M d r) : okRef M.globals d' (mapR τ r) = true := by
  cases r with
  | l i =>
    have : i < d := by simpa [ok, okRef] using hr
    simpa [mapR, okRef] using h i this
  | g i => exact hr
  | v k => rfl

theorem Into.refs {d d' τ} (h : Into d d' τ) {rs : List (Ref K)} (hr : oks M d rs) :
    (rs.map (mapR τ)).all (okRef M.globals d') = true := by
  rw [List.all_eq_true]
  intro r hm
  rw [List.mem_map] at hm
  obtain ⟨r', h1, rfl⟩ := hm
  exact h.ref (hr r' h1)

theorem wf_bindArgs {g d : Nat} {rs : List (Ref K)} (h : rs.all (okRef g d) = true) : wfForms g d (bindArgs rs) = true := by
  induction rs with
  | nil => rfl
  | cons r rs ih =>
    simp only [List.all_cons, Bool.and_eq_true] at h
    simp only [bindArgs, wfForms, arity, wf, Nat.add_zero, h.1, ih h.2, Bool.and_true]

theorem count_bindArgs (rs : List (Ref K)) : count (bindArgs rs) = rs.length := by
  induction rs with
  | nil => rfl
  | cons r rs ih => simp [bindArgs, count, ih]

theorem branch_wf {g d t : Nat} {bs : Brs K} {b} (hw : wfBrs g d bs = true) (hn : noLookupBrs bs = true)
    (hb : branch bs t = some b) : noLookup b = true ∧ ∃ n, fieldsOf t = some n ∧ wf g (d + n) b = true := by
  match bs with
  | .nil => simp [branch] at hb
  | .cons t' b' rest =>
    simp only [wfBrs, Bool.and_eq_true] at hw
    simp only [noLookupBrs, Bool.and_eq_true] at hn
    simp only [branch] at hb
    cases hr : branch rest t with
    | some b2 =>
      rw [hr] at hb
      cases hb
      exact branch_wf hw.2 hn.2 hr
    | none =>
      rw [hr] at hb
      simp only at hb
      split at hb
      · rename_i ht
        cases hb
        subst ht
        cases hta : fieldsOf t' with
        | none => simp [hta] at hw
        | some n => exact ⟨hn.1, n, rfl, by simp only [hta] at hw; exact hw.1.1⟩
      · cases hb

theorem BR.noTag {d τ t} {bs bs' : Brs K} (h : BR M d τ bs bs') (hn : Opt.noTag t bs = true) : Opt.noTag t bs' = true := by
  match h with
  | .nil => rfl
  | .cons _ _ hs =>
    simp only [Opt.noTag, Bool.and_eq_true] at hn ⊢
    exact ⟨hn.1, hs.noTag hn.2⟩
termination_by structural h

mutual
theorem CR.scoped {d d' τ} {c c' : Syn K} (h : CR M d τ c c') (hi : Into d d' τ) (hw : wf M.globals d c = true)
    (hn : noLookup c = true) : wf M.globals d' c' = true := by
  match h with
  | .head h => exact h.scoped hi hw hn
  | .stripLet (ms := ms) hf hm h =>
    simp only [wf, Bool.and_eq_true] at hw
    simp only [noLookup, Bool.and_eq_true] at hn
    have := hi.bound (ks := ms.map τ) (by intro k hk; rw [List.mem_map] at hk; obtain ⟨m, h1, rfl⟩ := hk; exact hi m (hm m h1))
    rw [List.length_map] at this
    exact h.scoped this (by rw [(fromLet_forms hf).1]; exact hw.2) hn.2
  | .stripRec (ms := ms) hf hm h =>
    simp only [wf, Bool.and_eq_true] at hw
    simp only [noLookup, Bool.and_eq_true] at hn
    have := hi.bound (ks := ms.map τ) (by intro k hk; rw [List.mem_map] at hk; obtain ⟨m, h1, rfl⟩ := hk; exact hi m (hm m h1))
    rw [List.length_map] at this
    exact h.scoped this (by rw [(fromLetrec_forms hf).1]; exact hw.2) hn.2
  | .known (ks := ks) hs hb h =>
    simp only [wf, Bool.and_eq_true] at hw
    simp only [noLookup, Bool.and_eq_true] at hn
    have h1 := hs.scoped hi hw.1.1 hn.1.1
    simp only [wf, List.all_map, Bool.and_eq_true, List.all_eq_true, Function.comp_def, okRef, decide_eq_true_eq,
      List.length_map, beq_iff_eq] at h1
    obtain ⟨h2, n, h3, h4⟩ := branch_wf hw.1.2 hn.1.2 hb
    rw [h1.2] at h3
    cases h3
    exact h.scoped (hi.bound h1.1) h4 h2
termination_by structural h
theorem HC.scoped {d d' τ} {c c' : Syn K} (h : HC M d τ c c') (hi : Into d d' τ) (hw : wf M.globals d c = true)
    (hn : noLookup c = true) : wf M.globals d' c' = true := by
  match h with
  | .atom h => exact hi.ref h
  | .cons h ha => simp only [wf, hi.refs h, List.length_map, ha, Bool.true_and, beq_self_eq_true]
  | .app h1 h2 => simp only [wf, hi.ref h1, hi.refs h2, Bool.and_self]
  | .dapp h1 h2 => simp only [wf, hi.ref h1, hi.refs h2, Bool.and_self]
  | .bif h => simp only [wf, hi.refs h]
  | .metaOf h1 h2 => simp only [wf, hi.ref h1, hi.ref h2, Bool.and_self]
  | .fused h1 h2 => simp only [wf, hi.ref h1, hi.ref h2, Bool.and_self]
  | .lookup => simp [noLookup] at hn
  | .hole => rfl
  | .ann h => exact h.scoped hi hw hn
  | .seq h1 h2 =>
    simp only [wf, Bool.and_eq_true] at hw ⊢
    simp only [noLookup, Bool.and_eq_true] at hn
    exact ⟨h1.scoped hi hw.1 hn.1, h2.scoped hi hw.2 hn.2⟩
  | .demeta h1 h2 h3 =>
    simp only [wf, Bool.and_eq_true] at hw ⊢
    simp only [noLookup, Bool.and_eq_true] at hn
    exact ⟨⟨h1.scoped hi hw.1.1 hn.1.1, h2.scoped (hi.up 2) hw.1.2 hn.1.2⟩, h3.scoped (hi.up 1) hw.2 hn.2⟩
  | .let_ h1 h2 =>
    simp only [wf, Bool.and_eq_true] at hw ⊢
    simp only [noLookup, Bool.and_eq_true] at hn
    rw [← h1.count]
    exact ⟨h1.scoped hi hw.1 hn.1, h2.scoped (hi.up _) hw.2 hn.2⟩
  | .letrec h1 h2 =>
    simp only [wf, Bool.and_eq_true] at hw ⊢
    simp only [noLookup, Bool.and_eq_true] at hn
    rw [← h1.count]
    exact ⟨h1.scoped (hi.up _) hw.1 hn.1, h2.scoped (hi.up _) hw.2 hn.2⟩
  | .case h1 h2 h3 =>
    simp only [wf, Bool.and_eq_true] at hw ⊢
    simp only [noLookup, Bool.and_eq_true] at hn
    exact ⟨⟨h1.scoped hi hw.1.1 hn.1.1, h2.scoped hi hw.1.2 hn.1.2⟩, h3.scoped (hi.up 1) hw.2 hn.2⟩
  | .force _ ht h1 h2 =>
    simp only [wf, wfBrs, wfFb, ht, Nat.add_zero, Bool.and_eq_true] at hw ⊢
    simp only [noLookup, noLookupBrs, Bool.and_eq_true] at hn
    exact ⟨⟨h1.scoped hi hw.1.1 hn.1.1, trivial⟩, h2.scoped hi.bumped hw.1.2.1.1 hn.1.2.1⟩
  | .knownLet hs hb h =>
    simp only [wf, Bool.and_eq_true] at hw ⊢
    simp only [noLookup, Bool.and_eq_true] at hn
    have h1 := hs.scoped hi hw.1.1 hn.1.1
    simp only [wf, Bool.and_eq_true, beq_iff_eq] at h1
    obtain ⟨h2, n, h3, h4⟩ := branch_wf hw.1.2 hn.1.2 hb
    rw [h1.2] at h3
    cases h3
    rw [count_bindArgs]
    exact ⟨wf_bindArgs h1.1, h.scoped (hi.up _) h4 h2⟩
  | .knownFb hs hb h =>
    simp only [wf, Bool.and_eq_true] at hw
    simp only [noLookup, Bool.and_eq_true] at hn
    have h1 := hs.scoped hi hw.1.1 hn.1.1
    have h2 := h.scoped (hi.up 1) hw.2 hn.2
    rw [wf]
    simp only [wfForms, arity, count, Nat.add_zero, h1, Bool.and_true, Bool.true_and]
    exact h2
termination_by structural h
theorem BR.scoped {d d' τ} {bs bs' : Brs K} (h : BR M d τ bs bs') (hi : Into d d' τ) (hw : wfBrs M.globals d bs = true)
    (hn : noLookupBrs bs = true) : wfBrs M.globals d' bs' = true := by
  match h with
  | .nil => rfl
  | .cons ht hc hs =>
    simp only [wfBrs, ht, Bool.and_eq_true] at hw ⊢
    simp only [noLookupBrs, Bool.and_eq_true] at hn
    exact ⟨⟨hc.scoped (hi.up _) hw.1.1 hn.1, hs.noTag hw.1.2⟩, hs.scoped hi hw.2 hn.2⟩
termination_by structural h
theorem FR.scoped {d d' τ} {fb fb' : Fb K} (h : FR M d τ fb fb') (hi : Into d d' τ) (hw : wfFb M.globals d fb = true)
    (hn : noLookupFb fb = true) : wfFb M.globals d' fb' = true := by
  match h with
  | .none => rfl
  | .some h => exact h.scoped hi hw hn
termination_by structural h
theorem FsR.scoped {d d' τ} {fs fs' : Forms K} (h : FsR M d τ fs fs') (hi : Into d d' τ)
    (hw : wfForms M.globals d fs = true) (hn : noLookupForms fs = true) : wfForms M.globals d' fs' = true := by
  match h with
  | .nil => rfl
  | .cons hc hs =>
    simp only [wfForms, Bool.and_eq_true] at hw ⊢
    simp only [noLookupForms, Bool.and_eq_true] at hn
    exact ⟨hc.scoped (hi.up _) hw.1 hn.1, hs.scoped hi hw.2 hn.2⟩
termination_by structural h
end

end Verif.Opt
