import Verif.OptSim

/-!
# What the optimiser writes stands for what it read

Proofs only.
-/

namespace Verif.Opt
open Verif.Bc Verif.Sem
variable {K : Type}

theorem trans_shift (s : Nat) (st : List Tr) : trans (.shift s :: st) = up s (trans st) := rfl
theorem trans_bump (st : List Tr) : trans (.bump 1 :: st) = bumped (trans st) := rfl
theorem trans_lets (ms : List Nat) (st : List Tr) : trans (.lets ms :: st) = bound (ms.map (trans st)) (trans st) := by
  funext i
  unfold trans bound
  simp only [List.getElem?_map, List.length_map]
  cases ms[i]? <;> rfl

theorem transRef_map (st : List Tr) : (transRef st : Ref K → Ref K) = mapR (trans st) := by
  funext r
  cases r <;> rfl

theorem tagArity_eq : tagArity = fieldsOf := by
  funext t
  by_cases h : t < 18
  · revert t; decide +kernel
  · have : fieldsOf t = none := by simp [fieldsOf]; omega
    rw [this]
    unfold tagArity
    split <;> first | rfl | omega

theorem bound_nil (τ : Nat → Nat) : bound [] τ = τ := by funext i; simp [bound]

theorem locals_map {as : List (Ref K)} {ks} (h : locals as = some ks) : as = ks.map .l := by
  induction as generalizing ks with
  | nil => simp [locals] at h; subst h; rfl
  | cons r as ih =>
    cases r with
    | l i =>
      simp only [locals, Option.map_eq_some_iff] at h
      obtain ⟨ks', h, rfl⟩ := h
      rw [ih h]; rfl
    | g i => simp [locals] at h
    | v k => simp [locals] at h

theorem still_map {st : List Tr} {as : List (Ref K)} (h : as.all (still st) = true) : as.map (transRef st) = as := by
  induction as with
  | nil => rfl
  | cons r as ih =>
    simp only [List.all_cons, Bool.and_eq_true] at h
    rw [List.map_cons, ih h.2]
    cases r with
    | l i => simp only [still, beq_iff_eq] at h; simp [transRef, h.1]
    | _ => rfl

theorem still_locals {st : List Tr} {ks : List Nat} (h : (ks.map (Ref.l : Nat → Ref K)).all (still st) = true) :
    ks.map (trans st) = ks := by
  induction ks with
  | nil => rfl
  | cons k ks ih =>
    simp only [List.map_cons, List.all_cons, Bool.and_eq_true, still, beq_iff_eq] at h
    rw [List.map_cons, ih h.2, h.1]

theorem oks_all {M : Mode} {d} {as : List (Ref K)} (h : as.all (okRef M.globals d) = true) : oks M d as := by
  intro r hr
  exact List.all_eq_true.1 h r hr

theorem CR.arity {M : Mode} {d τ} {c c' : Syn K} {t as'} (h : CR M d τ c c') (hc : c' = .cons t as') :
    fieldsOf t = some as'.length := by
  match h with
  | .head h =>
    obtain ⟨as, _, rfl, _, ha⟩ := h.of_cons hc
    simpa using ha
  | .stripLet _ _ h => exact h.arity hc
  | .stripRec _ _ h => exact h.arity hc
  | .known _ _ h => exact h.arity hc
termination_by structural h

theorem branch_noTag {t : Nat} {bs : Brs K} (h : noTag t bs = true) : branch bs t = none := by
  match bs with
  | .nil => rfl
  | .cons t' b rest =>
    simp only [noTag, Bool.and_eq_true, bne_iff_ne, ne_eq] at h
    simp only [branch, branch_noTag h.2, if_neg h.1]

theorem branch_hasTag {t : Nat} {bs : Brs K} (h : hasTag t bs = false) : branch bs t = none := by
  match bs with
  | .nil => rfl
  | .cons t' b rest =>
    simp only [hasTag, Bool.or_eq_false_iff, beq_eq_false_iff_ne, ne_eq] at h
    simp only [branch, branch_hasTag h.2, if_neg h.1]

theorem fromLet_lt {g d : Nat} {fs : Forms K} {ms} (h : fromLet fs = some ms) (hw : wfForms g d fs = true) :
    ∀ m ∈ ms, m < d := by
  match fs with
  | .nil => simp [fromLet] at h; subst h; simp
  | .cons (.lambda _ _) b rest => simp [fromLet] at h
  | .cons .thunk b rest | .cons .value b rest =>
    simp only [wfForms, arity, Nat.add_zero, Bool.and_eq_true] at hw
    simp only [fromLet] at h
    split at h
    · rw [Option.map_eq_some_iff] at h
      obtain ⟨ms', h', rfl⟩ := h
      have := fromLet_lt h' hw.2
      simp only [wf, okRef, decide_eq_true_eq] at hw
      intro m hm
      simp only [List.mem_cons] at hm
      rcases hm with rfl | hm
      · exact hw.1
      · exact this m hm
    · cases h

theorem fromLetrec_lt {g d n : Nat} {fs : Forms K} {ms} (h : fromLetrec n fs = some ms) (hw : wfForms g (d + n) fs = true) :
    ∀ m ∈ ms, m < d := by
  match fs with
  | .nil => simp [fromLetrec] at h; subst h; simp
  | .cons (.lambda _ _) b rest => simp [fromLetrec] at h
  | .cons .thunk b rest | .cons .value b rest =>
    simp only [wfForms, arity, Nat.add_zero, Bool.and_eq_true] at hw
    simp only [fromLetrec] at h
    split at h
    · split at h
      · cases h
      · rw [Option.map_eq_some_iff] at h
        obtain ⟨ms', h', rfl⟩ := h
        have := fromLetrec_lt h' hw.2
        simp only [wf, okRef, decide_eq_true_eq] at hw
        intro m hm
        simp only [List.mem_cons] at hm
        rcases hm with rfl | hm
        · omega
        · exact this m hm
    · cases h

/-- What the proof for the rest of a tree is given about a part of it. -/
abbrev Lax (M : Mode) (b : Bool) : Prop := M.lax = true ∨ b = true

theorem Lax.left {M : Mode} {a b : Bool} (h : Lax M (a && b)) : Lax M a := by
  rcases h with h | h
  · exact .inl h
  · rw [Bool.and_eq_true] at h; exact .inr h.1

theorem Lax.right {M : Mode} {a b : Bool} (h : Lax M (a && b)) : Lax M b := by
  rcases h with h | h
  · exact .inl h
  · rw [Bool.and_eq_true] at h; exact .inr h.2

section
variable {M : Mode}

mutual
theorem opt_rel {st : List Tr} {d : Nat} {c c' : Syn K} (hw : wf M.globals d c = true) (hq : quiet st c = true)
    (hl : Lax M (unforced c)) (ho : opt st c = some c') : CR M d (trans st) c c' := by
  match c with
  | .atom r =>
    simp only [opt, Option.some.injEq] at ho
    subst ho
    rw [transRef_map]
    exact .head (.atom (by simpa [wf, ok] using hw))
  | .cons t args =>
    simp only [opt, Option.some.injEq] at ho
    subst ho
    simp only [wf, Bool.and_eq_true, beq_iff_eq] at hw
    rw [transRef_map]
    exact .head (.cons (oks_all hw.1) hw.2)
  | .app f args eager =>
    simp only [opt, Option.some.injEq] at ho
    subst ho
    simp only [wf, Bool.and_eq_true] at hw
    rw [transRef_map]
    exact .head (.app hw.1 (oks_all hw.2))
  | .dapp smid f args eager =>
    simp only [opt, Option.some.injEq] at ho
    subst ho
    simp only [wf, Bool.and_eq_true] at hw
    rw [transRef_map]
    exact .head (.dapp hw.1 (oks_all hw.2))
  | .bif i args =>
    simp only [opt, Option.some.injEq] at ho
    subst ho
    simp only [wf] at hw
    rw [transRef_map]
    exact .head (.bif (oks_all hw))
  | .metaOf m b =>
    simp only [opt, Option.some.injEq] at ho
    subst ho
    simp only [wf, Bool.and_eq_true] at hw
    rw [transRef_map]
    exact .head (.metaOf hw.1 hw.2)
  | .fused id l r =>
    simp only [opt, Option.some.injEq] at ho
    subst ho
    simp only [wf, Bool.and_eq_true] at hw
    rw [transRef_map]
    exact .head (.fused hw.1 hw.2)
  | .lookup s k o f =>
    simp only [opt, Option.some.injEq] at ho
    subst ho
    exact .head .lookup
  | .hole =>
    simp only [opt, Option.some.injEq] at ho
    subst ho
    exact .head .hole
  | .ann smid b =>
    simp only [opt] at ho
    simp only [wf] at hw
    simp only [quiet] at hq
    simp only [unforced] at hl
    cases h1 : opt st b with
    | none => simp [h1] at ho
    | some b' => simp [h1] at ho; subst ho; exact .head (.ann (opt_rel hw hq hl h1))
  | .seq s b =>
    simp only [opt] at ho
    simp only [wf, Bool.and_eq_true] at hw
    simp only [quiet, Bool.and_eq_true] at hq
    simp only [unforced] at hl
    cases h1 : opt st s with
    | none => simp [h1] at ho
    | some s' => cases h2 : opt st b with
      | none => simp [h1, h2] at ho
      | some b' =>
        simp [h1, h2] at ho; subst ho
        exact .head (.seq (opt_rel hw.1 hq.1 hl.left h1) (opt_rel hw.2 hq.2 hl.right h2))
  | .demeta s h o =>
    simp only [opt] at ho
    simp only [wf, Bool.and_eq_true] at hw
    simp only [quiet, Bool.and_eq_true] at hq
    simp only [unforced] at hl
    cases h1 : opt st s with
    | none => simp [h1] at ho
    | some s' => cases h2 : opt (.shift 2 :: st) h with
      | none => simp [h1, h2] at ho
      | some h' => cases h3 : opt (.shift 1 :: st) o with
        | none => simp [h1, h2, h3] at ho
        | some o' =>
          simp [h1, h2, h3] at ho; subst ho
          exact .head (.demeta (opt_rel hw.1.1 hq.1.1 hl.left.left h1) (opt_rel hw.1.2 hq.1.2 hl.left.right h2)
            (opt_rel hw.2 hq.2 hl.right h3))
  | .let_ fs body =>
    simp only [opt] at ho
    simp only [wf, Bool.and_eq_true] at hw
    simp only [quiet] at hq
    simp only [unforced] at hl
    cases hm : fromLet fs with
    | some ms =>
      rw [hm] at ho hq
      have hlen := (fromLet_forms hm).1
      have := opt_rel (d := d + ms.length) (by rw [hlen]; exact hw.2) hq hl.right ho
      rw [trans_lets] at this
      exact .stripLet hm (fromLet_lt hm hw.1) this
    | none =>
      rw [hm] at ho hq
      simp only [Bool.and_eq_true] at hq
      simp only at ho
      cases h1 : optForms st fs with
      | none => simp [h1] at ho
      | some fs' => cases h2 : opt (.shift (count fs) :: st) body with
        | none => simp [h1, h2] at ho
        | some b' =>
          simp [h1, h2] at ho; subst ho
          exact .head (.let_ (optForms_rel hw.1 hq.1 hl.left h1) (opt_rel hw.2 hq.2 hl.right h2))
  | .letrec fs body =>
    simp only [opt] at ho
    simp only [wf, Bool.and_eq_true] at hw
    simp only [quiet] at hq
    simp only [unforced] at hl
    cases hm : fromLetrec (count fs) fs with
    | some ms =>
      rw [hm] at ho hq
      have hlen := (fromLetrec_forms hm).1
      have := opt_rel (d := d + ms.length) (by rw [hlen]; exact hw.2) hq hl.right ho
      rw [trans_lets] at this
      exact .stripRec hm (fromLetrec_lt hm hw.1) this
    | none =>
      rw [hm] at ho hq
      simp only [Bool.and_eq_true] at hq
      simp only at ho
      cases h1 : optForms (.shift (count fs) :: st) fs with
      | none => simp [h1] at ho
      | some fs' => cases h2 : opt (.shift (count fs) :: st) body with
        | none => simp [h1, h2] at ho
        | some b' =>
          simp [h1, h2] at ho; subst ho
          exact .head (.letrec (optForms_rel hw.1 hq.1 hl.left h1) (opt_rel hw.2 hq.2 hl.right h2))
  | .case scr bs fb =>
    simp only [opt] at ho
    simp only [wf, Bool.and_eq_true] at hw
    simp only [quiet, Bool.and_eq_true] at hq
    simp only [unforced] at hl
    cases h1 : opt st scr with
    | none => simp [h1, optCase] at ho
    | some scr' =>
      simp only [h1] at ho hq
      have hs := opt_rel hw.1.1 hq.1 hl.left.left.right h1
      replace hq := hq.2
      have hlb := hl.left.right
      have hlf := hl.right
      by_cases hfo : forces bs fb = true
      · simp only [optCase, hfo, if_true, Option.map_eq_some_iff] at ho
        simp only [quietCase, hfo, if_true] at hq
        have hlx : M.lax = true := by
          rcases hl.left.left.left with h | h
          · exact h
          · rw [hfo] at h; cases h
        obtain ⟨b', h2, rfl⟩ := ho
        obtain ⟨t, b, rfl, rfl, ht, hb⟩ := optForce_rel hfo hw.1.2 hq hlx h2
        exact .head (.force hlx ht hs hb)
      · have hfo : forces bs fb = false := by simpa using hfo
        simp only [optCase, hfo] at ho
        simp only [quietCase, hfo] at hq
        simp only [Bool.false_eq_true, if_false] at ho hq
        have rebuild : ∀ c', (match optBrs st bs, optFb (.shift 1 :: st) fb with
            | some bs, some fb => some (.case scr' bs fb)
            | _, _ => none) = some c' → quietBrs st bs = true → quietFb (.shift 1 :: st) fb = true →
            CR M d (trans st) (.case scr bs fb) c' := by
          intro c' ho hqb hqf
          cases h2 : optBrs st bs with
          | none => simp [h2] at ho
          | some bs' => cases h3 : optFb (.shift 1 :: st) fb with
            | none => simp [h2, h3] at ho
            | some fb' =>
              simp [h2, h3] at ho
              subst ho
              exact .head (.case hs (optBrs_rel hw.1.2 hqb hlb h2) (optFb_rel hw.2 hqf hlf h3))
        cases scr' with
        | cons t args =>
          simp only at ho hq
          have har := hs.arity rfl
          by_cases ht : hasTag t bs = true
          · rw [if_pos ht] at ho hq
            by_cases hemp : args.isEmpty = true
            · rw [if_pos hemp] at ho hq
              have : args = [] := by simpa using hemp
              subst this
              obtain ⟨n, b, h2, h3, h4⟩ := optFind_rel hw.1.2 hq hlb ho
              rw [har] at h2
              cases h2
              refine .known (ks := []) hs h3 ?_
              rw [bound_nil]
              exact h4
            · rw [if_neg hemp] at ho hq
              rw [Bool.and_eq_true] at hq
              cases hlo : locals args with
              | some ms =>
                rw [hlo] at ho hq
                simp only at ho
                obtain ⟨n, b, h2, h3, h4⟩ := optFind_rel hw.1.2 hq.2 hlb ho
                have hm := locals_map hlo
                subst hm
                rw [har] at h2
                cases h2
                rw [trans_lets, still_locals hq.1] at h4
                refine .known hs h3 ?_
                simpa using h4
              | none =>
                rw [hlo] at ho hq
                simp only [Option.map_eq_some_iff] at ho
                obtain ⟨b', h2, rfl⟩ := ho
                obtain ⟨n, b, h2, h3, h4⟩ := optFind_rel hw.1.2 hq.2 hlb h2
                rw [har] at h2
                cases h2
                rw [still_map hq.1]
                exact .head (.knownLet hs h3 h4)
          · have ht' : hasTag t bs = false := by simpa using ht
            rw [if_neg ht] at ho hq
            simp only [Bool.and_eq_true] at hq
            have h6 : args.map (transRef st) = args := still_map hq.1.1
            cases h3 : optFb (.shift 1 :: st) fb with
            | none => simp [h3] at ho
            | some fb' =>
              simp only [h3] at ho
              have hr := optFb_rel hw.2 hq.2 hlf h3
              cases hr with
              | none =>
                simp only [Option.map_eq_some_iff] at ho
                obtain ⟨bs', h2, rfl⟩ := ho
                exact .head (.case hs (optBrs_rel hw.1.2 hq.1.2 hlb h2) .none)
              | some hb =>
                simp only [Option.some.injEq] at ho
                subst ho
                rw [h6]
                exact .head (.knownFb hs (branch_hasTag ht') hb)
        | _ =>
          simp only [Bool.and_eq_true] at hq
          exact rebuild c' ho hq.1 hq.2
termination_by structural c
theorem optForce_rel {st : List Tr} {d : Nat} {bs : Brs K} {fb : Fb K} {c'} (hf : forces bs fb = true)
    (hw : wfBrs M.globals d bs = true) (hq : quietForce (.bump 1 :: st) bs = true) (hl : M.lax = true)
    (ho : optForce (.bump 1 :: st) bs = some c') :
    ∃ t b, bs = .cons t b .nil ∧ fb = .none ∧ fieldsOf t = some 0 ∧ CR M d (bumped (trans st)) b c' := by
  match bs with
  | .nil => simp [forces] at hf
  | .cons t b rest =>
    have h : rest = .nil ∧ fb = .none ∧ fieldsOf t = some 0 := by
      cases rest <;> cases fb <;> simp [forces, tagArity_eq] at hf ⊢
      exact hf
    simp only [optForce] at ho
    simp only [quietForce] at hq
    simp only [wfBrs, h.2.2, Nat.add_zero, Bool.and_eq_true] at hw
    exact ⟨t, b, by rw [h.1], h.2.1, h.2.2, opt_rel hw.1.1 hq (.inl hl) ho⟩
termination_by structural bs
theorem optBrs_rel {st : List Tr} {d : Nat} {bs bs' : Brs K} (hw : wfBrs M.globals d bs = true)
    (hq : quietBrs st bs = true) (hl : Lax M (unforcedBrs bs)) (ho : optBrs st bs = some bs') :
    BR M d (trans st) bs bs' := by
  match bs with
  | .nil => simp only [optBrs, Option.some.injEq] at ho; subst ho; exact .nil
  | .cons t b rest =>
    simp only [optBrs, tagArity_eq] at ho
    simp only [wfBrs, Bool.and_eq_true] at hw
    simp only [quietBrs, Bool.and_eq_true] at hq
    simp only [unforcedBrs] at hl
    cases ht : fieldsOf t with
    | none => simp [ht] at ho
    | some n =>
      simp only [ht] at ho hw hq
      cases h1 : opt (.shift n :: st) b with
      | none => simp [h1] at ho
      | some b' => cases h2 : optBrs st rest with
        | none => simp [h1, h2] at ho
        | some rest' =>
          simp [h1, h2] at ho; subst ho
          exact .cons ht (opt_rel hw.1.1 hq.1 hl.left h1) (optBrs_rel hw.2 hq.2 hl.right h2)
termination_by structural bs
theorem optFind_rel {st : List Tr} {d t : Nat} {bs : Brs K} {c'} (hw : wfBrs M.globals d bs = true)
    (hq : quietFind st t bs = true) (hl : Lax M (unforcedBrs bs)) (ho : optFind st t bs = some c') :
    ∃ n b, fieldsOf t = some n ∧ branch bs t = some b ∧ CR M (d + n) (trans st) b c' := by
  match bs with
  | .nil => simp [optFind] at ho
  | .cons t' b rest =>
    simp only [optFind] at ho
    simp only [wfBrs, Bool.and_eq_true] at hw
    simp only [quietFind] at hq
    simp only [unforcedBrs] at hl
    cases ht : fieldsOf t' with
    | none => simp [ht] at hw
    | some n =>
      simp only [ht] at hw
      by_cases h : t' = t
      · subst h
        rw [if_pos rfl] at ho hq
        refine ⟨n, b, ht, ?_, opt_rel hw.1.1 hq hl.left ho⟩
        simp [branch, branch_noTag hw.1.2]
      · rw [if_neg h] at ho hq
        obtain ⟨n, b, h1, h2, h3⟩ := optFind_rel hw.2 hq hl.right ho
        exact ⟨n, b, h1, by simp [branch, h2], h3⟩
termination_by structural bs
theorem optFb_rel {st : List Tr} {d : Nat} {fb fb' : Fb K} (hw : wfFb M.globals d fb = true)
    (hq : quietFb st fb = true) (hl : Lax M (unforcedFb fb)) (ho : optFb st fb = some fb') :
    FR M d (trans st) fb fb' := by
  match fb with
  | .none => simp only [optFb, Option.some.injEq] at ho; subst ho; exact .none
  | .some b =>
    simp only [optFb] at ho
    cases h1 : opt st b with
    | none => simp [h1] at ho
    | some b' => simp [h1] at ho; subst ho; exact .some (opt_rel hw hq hl h1)
termination_by structural fb
theorem optForms_rel {st : List Tr} {d : Nat} {fs fs' : Forms K} (hw : wfForms M.globals d fs = true)
    (hq : quietForms st fs = true) (hl : Lax M (unforcedForms fs)) (ho : optForms st fs = some fs') :
    FsR M d (trans st) fs fs' := by
  match fs with
  | .nil => simp only [optForms, Option.some.injEq] at ho; subst ho; exact .nil
  | .cons (.lambda n s) b rest =>
    simp only [optForms] at ho
    simp only [wfForms, Bool.and_eq_true] at hw
    simp only [quietForms, Bool.and_eq_true] at hq
    simp only [unforcedForms] at hl
    cases h1 : opt (.shift n :: st) b with
    | none => simp [h1] at ho
    | some b' => cases h2 : optForms st rest with
      | none => simp [h1, h2] at ho
      | some rest' =>
        simp [h1, h2] at ho; subst ho
        exact .cons (opt_rel hw.1 hq.1 hl.left h1) (optForms_rel hw.2 hq.2 hl.right h2)
  | .cons .thunk b rest | .cons .value b rest =>
    simp only [optForms] at ho
    simp only [wfForms, Bool.and_eq_true] at hw
    simp only [quietForms, Bool.and_eq_true] at hq
    simp only [unforcedForms] at hl
    cases h1 : opt st b with
    | none => simp [h1] at ho
    | some b' => cases h2 : optForms st rest with
      | none => simp [h1, h2] at ho
      | some rest' =>
        simp [h1, h2] at ho; subst ho
        refine .cons ?_ (optForms_rel hw.2 hq.2 hl.right h2)
        simp only [arity, up_zero]
        exact opt_rel hw.1 hq.1 hl.left h1
termination_by structural fs
end

/-! ## Code stands for itself -/

theorem up_id (n : Nat) : up n (fun i => i) = fun i => i := by
  funext i
  unfold up
  split
  · rfl
  · show i - n + n = i
    omega

theorem mapR_id : (mapR (fun i => i) : Ref K → Ref K) = id := by funext r; cases r <;> rfl

mutual
theorem CR.self {d : Nat} {c : Syn K} (hw : wf M.globals d c = true) : CR M d (fun i => i) c c := by
  match c with
  | .atom r =>
    have := HC.atom (M := M) (d := d) (τ := fun i => i) (r := r) (by simpa [wf, ok] using hw)
    rw [mapR_id] at this
    exact .head this
  | .cons t args =>
    simp only [wf, Bool.and_eq_true, beq_iff_eq] at hw
    have := HC.cons (M := M) (d := d) (τ := fun i => i) (oks_all hw.1) hw.2
    simp only [mapR_id, List.map_id] at this
    exact .head this
  | .app f args eager =>
    simp only [wf, Bool.and_eq_true] at hw
    have := HC.app (M := M) (d := d) (τ := fun i => i) (eager := eager) hw.1 (oks_all hw.2)
    simp only [mapR_id, List.map_id, id] at this
    exact .head this
  | .dapp smid f args eager =>
    simp only [wf, Bool.and_eq_true] at hw
    have := HC.dapp (M := M) (d := d) (τ := fun i => i) (smid := smid) (eager := eager) hw.1 (oks_all hw.2)
    simp only [mapR_id, List.map_id, id] at this
    exact .head this
  | .bif i args =>
    simp only [wf] at hw
    have := HC.bif (M := M) (d := d) (τ := fun i => i) (i := i) (oks_all hw)
    simp only [mapR_id, List.map_id] at this
    exact .head this
  | .metaOf m b =>
    simp only [wf, Bool.and_eq_true] at hw
    have := HC.metaOf (M := M) (d := d) (τ := fun i => i) hw.1 hw.2
    simp only [mapR_id, id] at this
    exact .head this
  | .fused i l r =>
    simp only [wf, Bool.and_eq_true] at hw
    have := HC.fused (M := M) (d := d) (τ := fun i => i) (id := i) hw.1 hw.2
    simp only [mapR_id, id] at this
    exact .head this
  | .lookup .. => exact .head .lookup
  | .hole => exact .head .hole
  | .ann smid b => exact .head (.ann (.self (by simpa [wf] using hw)))
  | .seq s b =>
    simp only [wf, Bool.and_eq_true] at hw
    exact .head (.seq (.self hw.1) (.self hw.2))
  | .demeta s h o =>
    simp only [wf, Bool.and_eq_true] at hw
    exact .head (.demeta (.self hw.1.1) (by rw [up_id]; exact .self hw.1.2) (by rw [up_id]; exact .self hw.2))
  | .let_ fs body =>
    simp only [wf, Bool.and_eq_true] at hw
    exact .head (.let_ (.self hw.1) (by rw [up_id]; exact .self hw.2))
  | .letrec fs body =>
    simp only [wf, Bool.and_eq_true] at hw
    exact .head (.letrec (by rw [up_id]; exact .self hw.1) (by rw [up_id]; exact .self hw.2))
  | .case scr bs fb =>
    simp only [wf, Bool.and_eq_true] at hw
    exact .head (.case (.self hw.1.1) (.self hw.1.2) (by rw [up_id]; exact .self hw.2))
termination_by structural c
theorem BR.self {d : Nat} {bs : Brs K} (hw : wfBrs M.globals d bs = true) : BR M d (fun i => i) bs bs := by
  match bs with
  | .nil => exact .nil
  | .cons t b rest =>
    simp only [wfBrs, Bool.and_eq_true] at hw
    cases ht : fieldsOf t with
    | none => simp [ht] at hw
    | some n =>
      simp only [ht] at hw
      exact .cons ht (by rw [up_id]; exact .self hw.1.1) (.self hw.2)
termination_by structural bs
theorem FR.self {d : Nat} {fb : Fb K} (hw : wfFb M.globals d fb = true) : FR M d (fun i => i) fb fb := by
  match fb with
  | .none => exact .none
  | .some b => exact .some (.self hw)
termination_by structural fb
theorem FsR.self {d : Nat} {fs : Forms K} (hw : wfForms M.globals d fs = true) : FsR M d (fun i => i) fs fs := by
  match fs with
  | .nil => exact .nil
  | .cons h b rest =>
    simp only [wfForms, Bool.and_eq_true] at hw
    exact .cons (by rw [up_id]; exact .self hw.1) (.self hw.2)
termination_by structural fs
end

theorem Worlds.self {P : World K} (h : WfWorld P) (lax : Bool) : Worlds ⟨P.globals.length, lax⟩ P P where
  size := Nat.le_refl _
  merge := rfl
  globals i := by
    cases hx : P.globals[i]? with
    | none => exact .inr ⟨rfl, rfl⟩
    | some f =>
      refine .inl ⟨f, f.body, rfl, rfl, ?_⟩
      rw [up_id]
      exact CR.self (M := ⟨P.globals.length, lax⟩) (h.1 f (List.mem_of_getElem? hx))
  prim id ks := by
    cases hx : P.prim id ks with
    | error x => exact .inr ⟨x, rfl, rfl⟩
    | ok c => exact .inl ⟨c, c, rfl, rfl, CR.self (M := ⟨P.globals.length, lax⟩) (h.2 id ks c hx)⟩
end

/-! ## No panic -/

mutual
theorem opt_some {st : List Tr} {g d : Nat} {c : Syn K} (hw : wf g d c = true) : ∃ c', opt st c = some c' := by
  match c with
  | .atom _ | .cons _ _ | .app _ _ _ | .dapp _ _ _ _ | .bif _ _ | .metaOf _ _ | .fused _ _ _ | .lookup _ _ _ _ | .hole =>
    exact ⟨_, by rw [opt]⟩
  | .ann smid b =>
    obtain ⟨b', h⟩ := opt_some (st := st) (c := b) (by simpa [wf] using hw)
    exact ⟨_, by rw [opt, h]⟩
  | .seq s b =>
    simp only [wf, Bool.and_eq_true] at hw
    obtain ⟨s', h1⟩ := opt_some (st := st) hw.1
    obtain ⟨b', h2⟩ := opt_some (st := st) hw.2
    exact ⟨_, by rw [opt, h1, h2]⟩
  | .demeta s h o =>
    simp only [wf, Bool.and_eq_true] at hw
    obtain ⟨s', h1⟩ := opt_some (st := st) hw.1.1
    obtain ⟨h', h2⟩ := opt_some (st := .shift 2 :: st) hw.1.2
    obtain ⟨o', h3⟩ := opt_some (st := .shift 1 :: st) hw.2
    exact ⟨_, by rw [opt, h1, h2, h3]⟩
  | .let_ fs body =>
    simp only [wf, Bool.and_eq_true] at hw
    rw [opt]
    split
    · exact opt_some hw.2
    · obtain ⟨fs', h1⟩ := optForms_some (st := st) hw.1
      obtain ⟨b', h2⟩ := opt_some (st := .shift (count fs) :: st) hw.2
      exact ⟨_, by rw [h1, h2]⟩
  | .letrec fs body =>
    simp only [wf, Bool.and_eq_true] at hw
    rw [opt]
    split
    · exact opt_some hw.2
    · obtain ⟨fs', h1⟩ := optForms_some (st := .shift (count fs) :: st) hw.1
      obtain ⟨b', h2⟩ := opt_some (st := .shift (count fs) :: st) hw.2
      exact ⟨_, by rw [h1, h2]⟩
  | .case scr bs fb =>
    simp only [wf, Bool.and_eq_true] at hw
    obtain ⟨s', h1⟩ := opt_some (st := st) hw.1.1
    obtain ⟨bs', h2⟩ := optBrs_some (st := st) hw.1.2
    obtain ⟨fb', h3⟩ := optFb_some (st := .shift 1 :: st) hw.2
    rw [opt, h1, h2, h3]
    unfold optCase
    dsimp only
    split
    · rename_i hfo
      have := optForce_some (st := .bump 1 :: st) hfo hw.1.2
      obtain ⟨b', h⟩ := this
      exact ⟨_, by rw [h]; rfl⟩
    · split
      · rename_i t args
        split
        · rename_i ht
          split
          · exact optFind_some hw.1.2 ht
          · split
            · exact optFind_some hw.1.2 ht
            · obtain ⟨b', h⟩ := optFind_some (st := .shift args.length :: st) hw.1.2 ht
              exact ⟨_, by rw [h]; rfl⟩
        · cases fb' with
          | none => exact ⟨_, rfl⟩
          | some b => exact ⟨_, rfl⟩
      · exact ⟨_, rfl⟩
termination_by structural c
theorem optForce_some {st : List Tr} {g d : Nat} {bs : Brs K} {fb : Fb K} (hf : forces bs fb = true)
    (hw : wfBrs g d bs = true) : ∃ b', optForce st bs = some b' := by
  match bs with
  | .nil => simp [forces] at hf
  | .cons t b rest =>
    simp only [wfBrs, Bool.and_eq_true] at hw
    cases ht : fieldsOf t with
    | none => simp [ht] at hw
    | some n =>
      simp only [ht] at hw
      exact opt_some hw.1.1
termination_by structural bs
theorem optBrs_some {st : List Tr} {g d : Nat} {bs : Brs K} (hw : wfBrs g d bs = true) : ∃ bs', optBrs st bs = some bs' := by
  match bs with
  | .nil => exact ⟨_, rfl⟩
  | .cons t b rest =>
    simp only [wfBrs, Bool.and_eq_true] at hw
    cases ht : fieldsOf t with
    | none => simp [ht] at hw
    | some n =>
      simp only [ht] at hw
      obtain ⟨b', h1⟩ := opt_some (st := .shift n :: st) hw.1.1
      obtain ⟨r', h2⟩ := optBrs_some (st := st) hw.2
      exact ⟨_, by simp only [optBrs, tagArity_eq, ht, h1, h2]; rfl⟩
termination_by structural bs
theorem optFind_some {st : List Tr} {g d t : Nat} {bs : Brs K} (hw : wfBrs g d bs = true) (ht : hasTag t bs = true) :
    ∃ c', optFind st t bs = some c' := by
  match bs with
  | .nil => simp [hasTag] at ht
  | .cons t' b rest =>
    simp only [wfBrs, Bool.and_eq_true] at hw
    simp only [optFind]
    cases hn : fieldsOf t' with
    | none => simp [hn] at hw
    | some n =>
      simp only [hn] at hw
      split
      · exact opt_some hw.1.1
      · rename_i hne
        simp only [hasTag, Bool.or_eq_true, beq_iff_eq] at ht
        rcases ht with h | h
        · exact absurd h hne
        · exact optFind_some hw.2 h
termination_by structural bs
theorem optFb_some {st : List Tr} {g d : Nat} {fb : Fb K} (hw : wfFb g d fb = true) : ∃ fb', optFb st fb = some fb' := by
  match fb with
  | .none => exact ⟨_, rfl⟩
  | .some b =>
    obtain ⟨b', h⟩ := opt_some (st := st) (c := b) hw
    exact ⟨_, by rw [optFb, h]⟩
termination_by structural fb
theorem optForms_some {st : List Tr} {g d : Nat} {fs : Forms K} (hw : wfForms g d fs = true) :
    ∃ fs', optForms st fs = some fs' := by
  match fs with
  | .nil => exact ⟨_, rfl⟩
  | .cons h b rest =>
    simp only [wfForms, Bool.and_eq_true] at hw
    obtain ⟨r', h2⟩ := optForms_some (st := st) hw.2
    cases h with
    | lambda n s =>
      obtain ⟨b', h1⟩ := opt_some (st := .shift n :: st) hw.1
      exact ⟨_, by simp only [optForms, h1, h2]; rfl⟩
    | thunk =>
      obtain ⟨b', h1⟩ := opt_some (st := st) hw.1
      exact ⟨_, by simp only [optForms, h1, h2]; rfl⟩
    | value =>
      obtain ⟨b', h1⟩ := opt_some (st := st) hw.1
      exact ⟨_, by simp only [optForms, h1, h2]; rfl⟩
termination_by structural fs
end

end Verif.Opt
