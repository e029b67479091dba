import Verif.OptRel
import Verif.SemAdequacy

/-!
# The optimised program step by step

Proofs only.
-/

namespace Verif.Opt
open Verif.Bc Verif.Sem
variable {K : Type}

/-- Surroundings before and after. -/
structure Worlds (M : Mode) (P P' : World K) : Prop where
  size : M.globals ≤ P.globals.length
  merge : P.merge = P'.merge
  globals : ∀ i : Nat, (∃ f b', P.globals[i]? = some f ∧ P'.globals[i]? = some ⟨f.head, b'⟩ ∧
      CR M (arity f.head) (up (arity f.head) fun i => i) f.body b') ∨ (P.globals[i]? = none ∧ P'.globals[i]? = none)
  prim : ∀ id ks, (∃ c c', P.prim id ks = .ok c ∧ P'.prim id ks = .ok c' ∧ CR M 0 (fun i => i) c c') ∨
      (∃ x, P.prim id ks = .error x ∧ P'.prim id ks = .error x)

variable {P P' : World K} {M : Mode}

theorem up_zero (τ : Nat → Nat) : up 0 τ = τ := by funext i; simp [up]

theorem OV.code {d τ c c'} {e e' : Env K} (he : ER P' M d τ e e') (hc : CR M d τ c c') :
    OV P' M (.clo 0 c e) (.clo 0 c' e') := .clo (a := 0) he (by rw [up_zero]; exact hc)

/-- Alike at the head. -/
inductive HOV (P' : World K) (M : Mode) : Val K → Val K → Prop where
  | nat (k) : HOV P' M (.nat k) (.nat k)
  | fn {a c c' e e' d τ} : ER P' M d τ e e' → CR M (d + (a + 1)) (up (a + 1) τ) c c' →
      HOV P' M (.clo (a + 1) c e) (.clo (a + 1) c' e')
  | code {c c' e e' d τ} : ER P' M d τ e e' → HC M d τ c c' → HOV P' M (.clo 0 c e) (.clo 0 c' e')

theorem HOV.ov {v w : Val K} (h : HOV P' M v w) : OV P' M v w := by
  cases h with
  | nat k => exact .nat k
  | fn he hc => exact .clo he hc
  | code he hc => exact .code he (.head hc)

section
variable (W : Worlds M P P')
include W

theorem global_rel (i : Nat) : XRel (OV P' M) (global P i) (global P' i) := by
  unfold global
  rcases W.globals i with ⟨f, b', h1, h2, h3⟩ | ⟨h1, h2⟩
  · rw [h1, h2]
    exact .ok (.clo (d := 0) (τ := fun i => i) .nil (by simpa using h3))
  · rw [h1, h2]; exact .error _

theorem resolve_rel {d τ} {e e' : Env K} (he : ER P' M d τ e e') {r : Ref K} (hr : ok M d r) :
    XRel (OV P' M) (resolve P e r) (resolve P' e' (mapR τ r)) := by
  cases r with
  | l i =>
    obtain ⟨v, w, h1, h2, h3⟩ := he.lookup (by simpa [ok, okRef] using hr)
    simp only [resolve, mapR, h1, h2]
    exact .ok h3
  | g i => exact global_rel W i
  | v k => exact .ok (.nat k)

theorem resolve_ok {d τ} {e e' : Env K} (he : ER P' M d τ e e') {r : Ref K} (hr : ok M d r) :
    ∃ v, resolve P e r = .ok v := by
  cases r with
  | l i =>
    obtain ⟨v, w, h1, h2, h3⟩ := he.lookup (by simpa [ok, okRef] using hr)
    exact ⟨v, by simp only [resolve, h1]⟩
  | g i =>
    have hi : i < M.globals := by simpa [ok, okRef] using hr
    have := W.size
    have hx : P.globals[i]? = some (P.globals[i]'(by omega)) := List.getElem?_eq_getElem (by omega)
    exact ⟨_, by simp only [resolve, global, hx]; rfl⟩
  | v k => exact ⟨_, rfl⟩

theorem resolveAll_ok {d τ} {e e' : Env K} (he : ER P' M d τ e e') {rs : List (Ref K)} (hr : oks M d rs) :
    ∃ vs, resolveAll P e rs = .ok vs := by
  induction rs with
  | nil => exact ⟨[], rfl⟩
  | cons r rs ih =>
    obtain ⟨v, hv⟩ := resolve_ok W he (hr r (by simp))
    obtain ⟨vs, hvs⟩ := ih fun r h => hr r (by simp [h])
    exact ⟨v :: vs, by simp only [resolveAll, hv, hvs]⟩

theorem resolveAll_rel {d τ} {e e' : Env K} (he : ER P' M d τ e e') {rs : List (Ref K)} (hr : oks M d rs) :
    XRel (All2 (OV P' M)) (resolveAll P e rs) (resolveAll P' e' (rs.map (mapR τ))) := by
  induction rs with
  | nil => exact .ok .nil
  | cons r rs ih =>
    simp only [resolveAll, List.map_cons]
    have h1 := resolve_rel W he (hr r (by simp))
    have h2 := ih fun r h => hr r (by simp [h])
    revert h1 h2
    generalize resolve P e r = a
    generalize resolve P' e' (mapR τ r) = b
    generalize resolveAll P e rs = a2
    generalize resolveAll P' e' _ = b2
    intro h1 h2
    cases h1 with
    | error x => exact .error x
    | ok h1 => cases h2 with
      | error x => exact .error x
      | ok h2 => exact .ok (.cons h1 h2)

omit W in
theorem resolveAll_locals {e : Env K} {ks : List Nat} {ws} (h : resolveAll P e (ks.map .l) = .ok ws) :
    ∀ (i : Nat) k w, ks[i]? = some k → ws[i]? = some w → lookup e k = some w := by
  induction ks generalizing ws with
  | nil => intro i k w h; simp at h
  | cons k ks ih =>
    simp only [List.map_cons, resolveAll, resolve] at h
    cases hk : lookup e k with
    | none => rw [hk] at h; cases h
    | some v =>
      rw [hk] at h
      simp only at h
      split at h
      · cases h
      · rename_i vs hvs
        cases h
        intro i k' w h1 h2
        cases i with
        | zero => simp at h1 h2; subst h1; subst h2; exact hk
        | succ i => exact ih hvs i k' w (by simpa using h1) (by simpa using h2)

/-- What a constructor after was before. -/
structure Data (P P' : World K) (M : Mode) (c : Syn K) (e : Env K) (t : Nat) (as' : List (Ref K)) (e' : Env K) : Prop where
  ex : ∃ k as de d τ, Steps P k (.clo 0 c e, []) (.clo 0 (.cons t as) de, []) ∧ ER P' M d τ de e' ∧
    as' = as.map (mapR τ) ∧ oks M d as ∧ fieldsOf t = some as.length

/-- A folded case, before: on to the branch. -/
theorem known_steps {d τ scr bs fb t} {ks : List Nat} {b : Syn K} {e e' : Env K} (he : ER P' M d τ e e')
    (hd : Data P P' M scr e t (ks.map .l) e') (hb : branch bs t = some b) :
    ∃ k vs, Steps P (k + 1) (.clo 0 (.case scr bs fb) e, []) (.clo 0 b (consAll vs e), []) ∧
      ER P' M (d + ks.length) (bound ks τ) (consAll vs e) e' := by
  obtain ⟨k, as, de, d1, τ1, hs, he1, has, hok, har⟩ := hd.ex
  have hra := resolveAll_rel W he1 hok
  rw [← has] at hra
  generalize hx : resolveAll P de as = a at hra
  generalize hy : resolveAll P' e' (ks.map .l) = b2 at hra
  cases hra with
  | error x =>
    obtain ⟨vs, h⟩ := resolveAll_ok W he1 hok
    rw [hx] at h; cases h
  | @ok vs ws hvs =>
    refine ⟨k + 1, vs, ?_, ?_⟩
    · have s1 : sstep P (.clo 0 (.case scr bs fb) e, []) = .next (.clo 0 scr e, [.case bs fb e]) := rfl
      have s2 : Steps P k (.clo 0 scr e, [.case bs fb e]) (.clo 0 (.cons t as) de, [.case bs fb e]) := hs.under [.case bs fb e]
      have s3 : sstep P (.clo 0 (.cons t as) de, [.case bs fb e]) = .next (.clo 0 b (consAll vs e), []) := by
        simp only [sstep, give, onCase, shape, hb, hx, SRes.of]
      have := (Steps.one s1).trans (s2.trans (.one s3))
      rwa [show 1 + (k + 1) = k + 1 + 1 by omega] at this
    · refine ER.bound he (by rw [all2_length hvs, resolveAll_length hy]; simp) ?_
      intro i v k' hv hk'
      obtain ⟨w, hw, ho⟩ := all2_get hvs hv
      exact ⟨w, resolveAll_locals hy i k' w hk' hw, ho⟩

omit W in
theorem HC.of_cons {d τ} {c c' : Syn K} {t as'} (h : HC M d τ c c') (hc : c' = .cons t as') :
    ∃ as, c = .cons t as ∧ as' = as.map (mapR τ) ∧ oks M d as ∧ fieldsOf t = some as.length := by
  cases h <;> cases hc
  exact ⟨_, rfl, rfl, by assumption, by assumption⟩

theorem known_data' {d τ c c' t as'} {e e' : Env K} (h : CR M d τ c c') (hc' : c' = .cons t as') (he : ER P' M d τ e e') :
    Data P P' M c e t as' e' := by
  match h with
  | .head hh =>
    obtain ⟨as, rfl, h1, ho, ha⟩ := hh.of_cons hc'
    exact ⟨0, as, e, d, τ, .refl _, he, h1, ho, ha⟩
  | .stripLet (body := body) hf hm hb =>
    obtain ⟨k, as, de, d1, τ1, hs, hr⟩ := (known_data' hb hc' (he.stripLet hf hm)).ex
    exact ⟨k + 1, as, de, d1, τ1, .next rfl hs, hr⟩
  | .stripRec hf hm hb =>
    obtain ⟨k, as, de, d1, τ1, hs, hr⟩ := (known_data' hb hc' (he.stripRec hf hm)).ex
    exact ⟨k + 1, as, de, d1, τ1, .next rfl hs, hr⟩
  | .known (fb := fb) hs hb hc =>
    obtain ⟨k, vs, s1, he1⟩ := known_steps (fb := fb) W he (known_data' hs rfl he) hb
    obtain ⟨k2, as, de, d1, τ1, s2, hr⟩ := (known_data' hc hc' he1).ex
    exact ⟨_, as, de, d1, τ1, s1.trans s2, hr⟩
termination_by structural h

theorem known_data {d τ c t as'} {e e' : Env K} (h : CR M d τ c (.cons t as')) (he : ER P' M d τ e e') :
    Data P P' M c e t as' e' := known_data' W h rfl he

theorem settle_code {d τ c c'} {e e' : Env K} (h : CR M d τ c c') (he : ER P' M d τ e e') :
    ∃ k v1, Steps P k (.clo 0 c e, []) (v1, []) ∧ HOV P' M v1 (.clo 0 c' e') := by
  match h with
  | .head hc => exact ⟨0, _, .refl _, .code he hc⟩
  | .stripLet hf hm hb =>
    obtain ⟨k, v1, hs, hr⟩ := settle_code hb (he.stripLet hf hm)
    exact ⟨k + 1, v1, .next rfl hs, hr⟩
  | .stripRec hf hm hb =>
    obtain ⟨k, v1, hs, hr⟩ := settle_code hb (he.stripRec hf hm)
    exact ⟨k + 1, v1, .next rfl hs, hr⟩
  | .known (fb := fb) hs hb hc =>
    obtain ⟨k, vs, s1, he1⟩ := known_steps (fb := fb) W he (known_data W hs he) hb
    obtain ⟨k2, v1, s2, hr⟩ := settle_code hc he1
    exact ⟨_, v1, s1.trans s2, hr⟩
termination_by structural h

theorem settle {v w : Val K} (h : OV P' M v w) :
    ∃ k v1 j w1, Steps P k (v, []) (v1, []) ∧ Steps P' j (w, []) (w1, []) ∧ HOV P' M v1 w1 := by
  match h with
  | .nat k => exact ⟨0, _, 0, _, .refl _, .refl _, .nat k⟩
  | .clo (a := a + 1) he hc => exact ⟨0, _, 0, _, .refl _, .refl _, .fn he hc⟩
  | .clo (a := 0) (d := d) (τ := τ) he hc =>
    rw [up_zero] at hc
    obtain ⟨k, v1, hs, hr⟩ := settle_code W hc he
    exact ⟨k, v1, 0, _, hs, .refl _, hr⟩
  | .src (e := e) (i := i) (v := v) hl ho =>
    obtain ⟨k, v1, j, w1, h1, h2, h3⟩ := settle ho
    refine ⟨k + 1, v1, j, w1, .next ?_ h1, h2, h3⟩
    simp only [sstep, exec, resolve, hl, SRes.of]
  | .tgt (e := e) (r := r) hl ho =>
    obtain ⟨k, v1, j, w1, h1, h2, h3⟩ := settle ho
    refine ⟨k, v1, j + 1, w1, h1, .next ?_ h2, h3⟩
    simp only [sstep, exec, hl, SRes.of]
termination_by structural h
end

/-! ## Frames -/

inductive FrR (P' : World K) (M : Mode) : Fr K → Fr K → Prop where
  | case {d τ bs bs' fb fb' e e'} : ER P' M d τ e e' → BR M d τ bs bs' → FR M (d + 1) (up 1 τ) fb fb' →
      FrR P' M (.case bs fb e) (.case bs' fb' e')
  | force {d τ t b b' e e'} : M.lax = true → fieldsOf t = some 0 → ER P' M d τ e e' → CR M d (bumped τ) b b' →
      FrR P' M (.case (.cons t b .nil) .none e) (.case .nil (.some b') e')
  | apply {vs vs'} : All2 (OV P' M) vs vs' → FrR P' M (.apply vs) (.apply vs')
  | demeta {d τ h h' o o' e e'} : ER P' M d τ e e' → CR M (d + 2) (up 2 τ) h h' → CR M (d + 1) (up 1 τ) o o' →
      FrR P' M (.demeta h o e) (.demeta h' o' e')
  | seq {d τ b b' e e'} : ER P' M d τ e e' → CR M d τ b b' → FrR P' M (.seq b e) (.seq b' e')
  | fusedL {d τ id r e e'} : ER P' M d τ e e' → ok M d r → FrR P' M (.fusedL id r e) (.fusedL id (mapR τ r) e')
  | fusedR {id l l'} : HOV P' M l l' → FrR P' M (.fusedR id l) (.fusedR id l')
  | prim {id ds ds' vs vs'} : All2 (HOV P' M) ds ds' → All2 (OV P' M) vs vs' →
      FrR P' M (.prim id ds vs) (.prim id ds' vs')
  | top : FrR P' M .top .top

abbrev FrsR (P' : World K) (M : Mode) : List (Fr K) → List (Fr K) → Prop := All2 (FrR P' M)

/-- Results alike, or only the one before in error. -/
inductive XB (M : Mode) {A : Type} (R : A → A → Prop) : Except Err A → Except Err A → Prop where
  | ok {v v'} : R v v' → XB M R (.ok v) (.ok v')
  | error (x) : XB M R (.error x) (.error x)
  | bad {x r} : M.lax = true → XB M R (.error x) r

theorem _root_.Verif.Sem.XRel.xb {A : Type} {R : A → A → Prop} {a b} (h : XRel R a b) : XB M R a b := by
  cases h with
  | ok h => exact .ok h
  | error x => exact .error x

inductive SR (P' : World K) (M : Mode) : SRes K → SRes K → Prop where
  | next {v S v' S'} : OV P' M v v' → FrsR P' M S S' → SR P' M (.next (v, S)) (.next (v', S'))
  | done {v v'} : HOV P' M v v' → SR P' M (.done v) (.done v')
  | err (x) : SR P' M (.err x) (.err x)
  | bad {x r} : M.lax = true → SR P' M (.err x) r

theorem SR.of {r r' : R K} {S S'} (h : XB M (OV P' M) r r') (hS : FrsR P' M S S') :
    SR P' M (.of r S) (.of r' S') := by
  cases h with
  | ok h => exact .next h hS
  | error x => exact .err x
  | bad h => exact .bad h

/-- Shapes alike. -/
inductive ShR (P' : World K) (M : Mode) : Shape K → Shape K → Prop where
  | nat (k) : ShR P' M (.nat k) (.nat k)
  | fn {a c c' e e' d τ} : ER P' M d τ e e' → CR M (d + (a + 1)) (up (a + 1) τ) c c' →
      ShR P' M (.fn (a + 1) c e) (.fn (a + 1) c' e')
  | data {t as e e' d τ} : ER P' M d τ e e' → oks M d as → fieldsOf t = some as.length →
      ShR P' M (.data t as e) (.data t (as.map (mapR τ)) e')
  | annotated {m b e e' d τ} : ER P' M d τ e e' → ok M d m → ok M d b →
      ShR P' M (.annotated m b e) (.annotated (mapR τ m) (mapR τ b) e')
  | busy : ShR P' M .busy .busy

theorem HOV.shape {v w : Val K} (h : HOV P' M v w) : ShR P' M (Sem.shape v) (Sem.shape w) := by
  cases h with
  | nat k => exact .nat k
  | fn he hc => exact .fn he hc
  | code he hc =>
    cases hc with
    | cons ho ha => exact .data he ho ha
    | metaOf hm hb => exact .annotated he hm hb
    | _ => exact .busy

theorem HOV.whnf {v w : Val K} (h : HOV P' M v w) : Whnf v = Whnf w := by
  unfold Whnf
  have := h.shape
  revert this
  generalize Sem.shape v = a
  generalize Sem.shape w = b
  intro this
  cases this <;> rfl

theorem BR.get {d τ} {bs bs' : Brs K} (h : BR M d τ bs bs') (t : Nat) :
    (∃ n b b', fieldsOf t = some n ∧ branch bs t = some b ∧ branch bs' t = some b' ∧ CR M (d + n) (up n τ) b b') ∨
    (branch bs t = none ∧ branch bs' t = none) := by
  match h with
  | .nil => exact .inr ⟨rfl, rfl⟩
  | .cons (t := t') (n := n) (b := b) (b' := b') ht hc hs =>
    simp only [branch]
    rcases hs.get t with ⟨n, b, b', h1, h2, h3, h4⟩ | ⟨h2, h3⟩
    · rw [h2, h3]; exact .inl ⟨n, b, b', h1, rfl, rfl, h4⟩
    · rw [h2, h3]
      dsimp only
      by_cases hh : t' = t
      · subst hh; rw [if_pos rfl, if_pos rfl]; exact .inl ⟨n, b, b', ht, rfl, rfl, hc⟩
      · rw [if_neg hh, if_neg hh]; exact .inr ⟨rfl, rfl⟩
termination_by structural h

theorem fallback_rel {d τ fb fb'} {v w : Val K} {e e' : Env K} (hv : OV P' M v w) (he : ER P' M d τ e e')
    (hf : FR M (d + 1) (up 1 τ) fb fb') (x : Err) : XB M (OV P' M) (fallback v fb e x) (fallback w fb' e' x) := by
  cases hf with
  | none => exact .error x
  | some h => exact .ok (.code (he.cons hv) h)

section
variable (W : Worlds M P P')
include W

theorem onCase_rel {d τ bs bs' fb fb'} {v w : Val K} {e e' : Env K} (hv : HOV P' M v w) (he : ER P' M d τ e e')
    (hb : BR M d τ bs bs') (hf : FR M (d + 1) (up 1 τ) fb fb') :
    XB M (OV P' M) (onCase P v bs fb e) (onCase P' w bs' fb' e') := by
  unfold onCase
  have hs := hv.shape
  revert hs
  generalize shape v = a
  generalize shape w = b
  intro hs
  cases hs with
  | nat k => exact fallback_rel hv.ov he hf _
  | fn _ _ => exact fallback_rel hv.ov he hf _
  | annotated => exact .error _
  | busy => exact .error _
  | @data t as de de' d1 τ1 hde ho ha =>
    dsimp only
    rcases hb.get t with ⟨n, b, b', h1, h2, h3, h4⟩ | ⟨h2, h3⟩
    · rw [h2, h3]
      dsimp only
      have hr := resolveAll_rel W hde ho
      generalize hx : resolveAll P de as = a at hr
      generalize hy : resolveAll P' de' _ = b at hr
      cases hr with
      | error x => exact .error x
      | @ok vs ws hvs =>
        have hl := resolveAll_length hx
        rw [ha] at h1
        cases h1
        rw [← hl] at h4
        exact .ok (.code (he.consAll hvs) h4)
    · rw [h2, h3]; exact fallback_rel hv.ov he hf _

omit W in
theorem onForce_rel {d τ t b b'} {v w : Val K} {e e' : Env K} (hl : M.lax = true) (ht : fieldsOf t = some 0)
    (hv : HOV P' M v w) (he : ER P' M d τ e e') (hb : CR M d (bumped τ) b b') :
    XB M (OV P' M) (onCase P v (.cons t b .nil) .none e) (onCase P' w .nil (.some b') e') := by
  unfold onCase
  have hs := hv.shape
  generalize hx : shape v = a at hs
  generalize hy : shape w = b2 at hs
  cases hs with
  | nat k => exact .bad hl
  | fn _ _ => exact .bad hl
  | annotated => exact .bad hl
  | busy => exact .bad hl
  | @data t' as de de' d1 τ1 hde ho ha =>
    simp only [branch, fallback]
    by_cases h : t = t'
    · subst h
      rw [ht] at ha
      have : as = [] := by simpa using ha.symm
      subst this
      simp only [if_true, resolveAll]
      exact .ok (.code he.bump hb)
    · rw [if_neg h]; exact .bad hl
end

theorem mapR_fix {τ : Nat → Nat} {r : Ref K} (h : ∀ i, r = .l i → τ i = i) : mapR τ r = r := by
  cases r with
  | l i => simp [mapR, h i rfl]
  | _ => rfl

theorem pap_rel {d τ} {s p : Nat} : CR (K := K) M (d + (s + 1) + p) (up p (up (s + 1) τ)) (papCode s p) (papCode s p) := by
  have fix : ∀ i, i < p + (s + 1) → up p (up (s + 1) τ) i = i := by
    intro i hi
    unfold up
    split
    · rfl
    · rw [if_pos (by omega)]; omega
  have hr : ∀ r ∈ (List.range s).map (fun i => (Ref.l (p + i + 1) : Ref K)) ++ (List.range p).map Ref.l,
      ∃ i, r = .l i ∧ i < p + (s + 1) := by
    intro r hr
    simp only [List.mem_append, List.mem_map, List.mem_range] at hr
    rcases hr with ⟨i, hi, rfl⟩ | ⟨i, hi, rfl⟩
    · exact ⟨_, rfl, by omega⟩
    · exact ⟨_, rfl, by omega⟩
  have h := HC.app (M := M) (d := d + (s + 1) + p) (τ := up p (up (s + 1) τ)) (f := (.l p : Ref K))
    (as := (List.range s).map (fun i => .l (p + i + 1)) ++ (List.range p).map .l) (eager := false)
    (by simp [ok, okRef]; omega)
    (by
      intro r h
      obtain ⟨i, rfl, hi⟩ := hr r h
      simp only [ok, okRef, decide_eq_true_eq]; omega)
  have e1 : mapR (up p (up (s + 1) τ)) (.l p : Ref K) = .l p := mapR_fix fun i h => by cases h; exact fix p (by omega)
  have e2 : ((List.range s).map (fun i => (Ref.l (p + i + 1) : Ref K)) ++ (List.range p).map Ref.l).map (mapR (up p (up (s + 1) τ)))
      = (List.range s).map (fun i => .l (p + i + 1)) ++ (List.range p).map .l := by
    conv => rhs; rw [← List.map_id ((List.range s).map (fun i => (Ref.l (p + i + 1) : Ref K)) ++ (List.range p).map Ref.l)]
    refine List.map_congr_left fun r h => ?_
    obtain ⟨i, rfl, hi⟩ := hr r h
    exact mapR_fix fun j hj => by cases hj; exact fix i hi
  rw [e1, e2] at h
  exact .head h

/-- What `onApply` gives, alike. -/
def AR (P' : World K) (M : Mode) (p q : Val K × Option (List (Val K))) : Prop :=
  OV P' M p.1 q.1 ∧ match p.2, q.2 with
    | none, none => True
    | some vs, some vs' => All2 (OV P' M) vs vs'
    | _, _ => False

section
variable (W : Worlds M P P')
include W

theorem onApply_rel {v w : Val K} {vs ws} (hv : HOV P' M v w) (hs : All2 (OV P' M) vs ws) :
    XRel (AR P' M) (onApply P v vs) (onApply P' w ws) := by
  unfold onApply
  have hl := all2_length hs
  have hsh := hv.shape
  revert hsh
  generalize shape v = a
  generalize shape w = b
  intro hsh
  cases hsh with
  | nat k => exact .error _
  | annotated => exact .error _
  | busy => exact .error _
  | @fn a c c' e e' d τ he hc =>
    dsimp only
    rw [← hl]
    split
    · rename_i hla
      have h := he.consAll hs
      rw [hla] at h
      exact .ok ⟨.code h hc, trivial⟩
    · split
      · have h := ER.consAll he (.cons hv.ov hs)
        exact .ok ⟨.clo h (by simpa using pap_rel), trivial⟩
      · have h := he.consAll (all2_take hs (a + 1))
        have hlen : (vs.take (a + 1)).length = a + 1 := by simp; omega
        rw [hlen] at h
        exact .ok ⟨.code h hc, all2_drop hs _⟩
  | data he =>
    dsimp only
    split
    · have h := global_rel W P.merge
      rw [← W.merge]
      revert h
      generalize global P P.merge = a
      generalize global P' P.merge = b
      intro h
      cases h with
      | ok h => exact .ok ⟨h, all2_append hs (.cons hv.ov .nil)⟩
      | error x => exact .error _
    · exact .error _

omit W in
theorem eagerBad_ok {d τ} {e e' : Env K} (he : ER P' M d τ e e') {rs : List (Ref K)} (hr : oks M d rs) :
    eagerBad e rs = none ∧ eagerBad e' (rs.map (mapR τ)) = none := by
  induction rs with
  | nil => exact ⟨rfl, rfl⟩
  | cons r rs ih =>
    have h := ih fun r h => hr r (by simp [h])
    cases r with
    | l i =>
      obtain ⟨v, w, h1, h2, h3⟩ := he.lookup (by simpa [ok, okRef] using hr (.l i) (by simp))
      simp only [eagerBad, List.map_cons, mapR, h1, h2]
      exact h
    | g i => exact h
    | v k => exact h

omit W in
theorem lazily_rel {d τ} {e e' : Env K} (he : ER P' M d τ e e') {rs : List (Ref K)} (hr : oks M d rs) :
    All2 (OV P' M) (lazily e rs) (lazily e' (rs.map (mapR τ))) := by
  induction rs with
  | nil => exact .nil
  | cons r rs ih =>
    exact .cons (.code he (.head (.atom (hr r (by simp))))) (ih fun r h => hr r (by simp [h]))

theorem app_rel {d τ} {e e' : Env K} (he : ER P' M d τ e e') {f : Ref K} {as} (hf : ok M d f) (ha : oks M d as) (eager : Bool) :
    XRel (fun p q => OV P' M p.1 q.1 ∧ All2 (OV P' M) p.2 q.2) (app P e f as eager)
      (app P' e' (mapR τ f) (as.map (mapR τ)) eager) := by
  unfold app
  rw [(eagerBad_ok he ha).1, (eagerBad_ok he ha).2]
  simp only [ite_self]
  have : XRel (OV P' M) (callee P e f) (callee P' e' (mapR τ f)) := by
    cases f with
    | v k => exact .error _
    | l i => exact resolve_rel W he hf
    | g i => exact resolve_rel W he hf
  revert this
  generalize callee P e f = a
  generalize callee P' e' _ = b
  intro this
  cases this with
  | error x => exact .error x
  | ok hv => exact .ok ⟨hv, lazily_rel he ha⟩

theorem unbox_rel {v w : Val K} (hv : HOV P' M v w) : XRel (ORel (OV P' M)) (unbox P v) (unbox P' w) := by
  unfold unbox
  have hs := hv.shape
  revert hs
  generalize shape v = a
  generalize shape w = b
  intro hs
  cases hs with
  | @data t as e e' d τ he ho _ =>
    dsimp only
    split
    · cases as with
      | nil => exact .error _
      | cons r rs =>
        have := resolve_rel W he (ho r (by simp))
        simp only [List.map_cons]
        revert this
        generalize resolve P e r = a
        generalize resolve P' e' _ = b
        intro this
        cases this with
        | error x => exact .error x
        | ok h => exact .ok (.some h)
    · exact .ok .none
  | _ => exact .ok .none

omit W in
theorem natives_rel {vs ws : List (Val K)} (h : All2 (HOV P' M) vs ws) : natives vs = natives ws := by
  induction h with
  | nil => rfl
  | cons h _ ih =>
    cases h with
    | nat k => simp only [natives, ih]
    | fn => rfl
    | code => rfl

theorem intrinsic_rel {id} {vs ws : List (Val K)} (h : All2 (HOV P' M) vs ws) :
    XRel (OV P' M) (intrinsic P id vs) (intrinsic P' id ws) := by
  unfold intrinsic
  rw [natives_rel h]
  cases natives ws with
  | none => exact .error _
  | some ks =>
    dsimp only
    rcases W.prim id ks with ⟨c, c', h1, h2, h3⟩ | ⟨x, h1, h2⟩
    · rw [h1, h2]; exact .ok (.code .nil h3)
    · rw [h1, h2]; exact .error _

omit W in
theorem close_rel {d τ} {fs fs' : Forms K} {e e' : Env K} (he : ER P' M d τ e e') (h : FsR M d τ fs fs') :
    All2 (OV P' M) ((forms fs).map (close · e)) ((forms fs').map (close · e')) := by
  match h with
  | .nil => exact .nil
  | .cons hc hs => exact .cons (.clo he hc) (close_rel he hs)
termination_by structural h

/-- The rules that keep step, one step at a time. -/
def stepwise : Syn K → Syn K → Prop
  | .case .., .case .. => True
  | .case .., _ => False
  | _, _ => True

theorem exec_rel {d τ c c'} {e e' : Env K} {S S'} (he : ER P' M d τ e e') (hc : HC M d τ c c')
    (hk : stepwise c c') (hS : FrsR P' M S S') : SR P' M (exec P c e S) (exec P' c' e' S') := by
  cases hc with
  | atom h => exact .of (resolve_rel W he h).xb hS
  | cons => exact .err _
  | metaOf => exact .err _
  | lookup => exact .err _
  | hole => exact .err _
  | app hf ha =>
    simp only [exec]
    have := app_rel W he hf ha (by assumption)
    revert this
    generalize app P e _ _ _ = a
    generalize app P' e' _ _ _ = b
    intro this
    cases this with
    | error x => exact .err x
    | ok h => exact .next h.1 (.cons (.apply h.2) hS)
  | dapp hf ha =>
    simp only [exec]
    have := app_rel W he hf ha (by assumption)
    revert this
    generalize app P e _ _ _ = a
    generalize app P' e' _ _ _ = b
    intro this
    cases this with
    | error x => exact .err x
    | ok h => exact .next h.1 (.cons (.apply h.2) hS)
  | «bif» ha =>
    simp only [exec]
    have := resolveAll_rel W he ha
    revert this
    generalize resolveAll P e _ = a
    generalize resolveAll P' e' _ = b
    intro this
    cases this with
    | error x => exact .err x
    | ok h =>
      cases h with
      | nil => exact .of (intrinsic_rel W .nil).xb hS
      | cons h hs => exact .next h (.cons (.prim .nil hs) hS)
  | fused hl hr => exact .next (.code he (.head (.atom hl))) (.cons (.fusedL he hr) hS)
  | ann h => exact .next (.code he h) hS
  | seq h1 h2 => exact .next (.code he h1) (.cons (.seq he h2) hS)
  | demeta h1 h2 h3 => exact .next (.code he h1) (.cons (.demeta he h2 h3) hS)
  | @let_ _ _ fs fs' b b' h1 h2 =>
    have := he.consAll (close_rel he h1)
    rw [List.length_map, ← count_forms] at this
    exact .next (.code this h2) hS
  | letrec h1 h2 => exact .next (.code (.recs h1 he) h2) hS
  | case h1 h2 h3 => exact .next (.code he h1) (.cons (.case he h2 h3) hS)
  | force hl ht h1 h2 => exact .next (.code he h1) (.cons (.force hl ht he h2) hS)
  | knownLet => exact absurd hk (by simp [stepwise])
  | knownFb => exact absurd hk (by simp [stepwise])

theorem give_rel {v w : Val K} {S S' fr fr'} (hv : HOV P' M v w) (hS : FrsR P' M S S')
    (hf : FrR P' M fr fr') : SR P' M (give P v S fr) (give P' w S' fr') := by
  cases hf with
  | case he hb hfb => exact .of (onCase_rel W hv he hb hfb) hS
  | force hl ht he hb => exact .of (onForce_rel hl ht hv he hb) hS
  | apply hs =>
    simp only [give]
    have := onApply_rel W hv hs
    revert this
    generalize onApply P v _ = a
    generalize onApply P' w _ = b
    intro this
    cases this with
    | error x => exact .err x
    | @ok p q h =>
      obtain ⟨u, more⟩ := p
      obtain ⟨u', more'⟩ := q
      obtain ⟨h1, h2⟩ := h
      cases more <;> cases more' <;> simp only at h2
      · exact .next h1 hS
      · exact .next h1 (.cons (.apply h2) hS)
  | demeta he hh ho => exact .next (.code (he.cons hv.ov) ho) hS
  | seq he hb => exact .next (.code he hb) hS
  | fusedL he hr =>
    simp only [give]
    have := unbox_rel W hv
    revert this
    generalize unbox P v = a
    generalize unbox P' w = b
    intro this
    cases this with
    | error x => exact .err x
    | ok h => cases h with
      | none => exact .next (.code he (.head (.atom hr))) (.cons (.fusedR hv) hS)
      | some h => exact .next h (.cons (.fusedL he hr) hS)
  | fusedR hl =>
    simp only [give]
    have := unbox_rel W hv
    revert this
    generalize unbox P v = a
    generalize unbox P' w = b
    intro this
    cases this with
    | error x => exact .err x
    | ok h => cases h with
      | none => exact .of (intrinsic_rel W (.cons hl (.cons hv .nil))).xb hS
      | some h => exact .next h (.cons (.fusedR hl) hS)
  | prim hd hs =>
    cases hs with
    | nil => exact .of (intrinsic_rel W (all2_append hd (.cons hv .nil))).xb hS
    | cons h hs => exact .next h (.cons (.prim (all2_append hd (.cons hv .nil)) hs) hS)
  | top => exact .next hv.ov hS

theorem giveMeta_rel {d τ m b} {e e' : Env K} {S S' fr fr'} (he : ER P' M d τ e e') (hm : ok M d m) (hb : ok M d b)
    (hS : FrsR P' M S S') (hf : FrR P' M fr fr') :
    SR P' M (giveMeta P m b e S fr) (giveMeta P' (mapR τ m) (mapR τ b) e' S' fr') := by
  have h1 := (resolve_rel W he hb).xb (M := M)
  have h2 := resolveAll_rel W he (rs := [m, b]) (by intro r hr; simp at hr; rcases hr with rfl | rfl <;> assumption)
  simp only [List.map_cons, List.map_nil] at h2
  cases hf with
  | demeta hd hh ho =>
    simp only [giveMeta]
    generalize hx : resolveAll P e [m, b] = a at h2
    generalize resolveAll P' e' _ = b at h2
    cases h2 with
    | error x => exact .err x
    | ok h =>
      have hl := resolveAll_length hx
      have := hd.consAll h
      rw [hl] at this
      exact .next (.code this hh) hS
  | top =>
    simp only [giveMeta]
    generalize resolveAll P e [m, b] = a at h2
    generalize resolveAll P' e' _ = b at h2
    cases h2 with
    | error x => exact .err x
    | ok h =>
      cases h with
      | nil => exact .err _
      | cons h1 h => cases h with
        | nil => exact .err _
        | cons h2 h => cases h with
          | nil => exact .next h2 (.cons .top hS)
          | cons _ _ => exact .err _
  | case he hb hf => exact .of h1 (.cons (.case he hb hf) hS)
  | force hl ht he hb => exact .of h1 (.cons (.force hl ht he hb) hS)
  | apply hs => exact .of h1 (.cons (.apply hs) hS)
  | seq he hb => exact .of h1 (.cons (.seq he hb) hS)
  | fusedL he hr => exact .of h1 (.cons (.fusedL he hr) hS)
  | fusedR hl => exact .of h1 (.cons (.fusedR hl) hS)
  | prim hd hs => exact .of h1 (.cons (.prim hd hs) hS)
end

/-! ## Keeping step -/

/-- Both go on to something alike, or both end alike, or the one before is in error. -/
inductive Sync (P P' : World K) (M : Mode) (c c' : Cfg K) : Prop where
  | next {i j v S v' S'} : Steps P (i + 1) c (v, S) → Steps P' (j + 1) c' (v', S') → OV P' M v v' → FrsR P' M S S' →
      Sync P P' M c c'
  | done {v v'} : sstep P c = .done v → sstep P' c' = .done v' → HOV P' M v v' → Sync P P' M c c'
  | err {x} : sstep P c = .err x → sstep P' c' = .err x → Sync P P' M c c'
  | bad {x} : M.lax = true → sstep P c = .err x → Sync P P' M c c'

theorem SR.sync {c c' : Cfg K} (h : SR P' M (sstep P c) (sstep P' c')) : Sync P P' M c c' := by
  generalize hx : sstep P c = a at h
  generalize hy : sstep P' c' = b at h
  cases h with
  | next h hS => exact .next (.one hx) (.one hy) h hS
  | done h => exact .done hx hy h
  | err x => exact .err hx hy
  | bad h => exact .bad h hx

theorem forms_bindArgs (as : List (Ref K)) (e : Env K) :
    (forms (bindArgs as)).map (close · e) = as.map fun r => .clo 0 (.atom r) e := by
  induction as with
  | nil => rfl
  | cons r as ih => rw [bindArgs, forms, List.map_cons, List.map_cons, ih]; rfl

theorem resolveAll_tgt {e' : Env K} {vs ws as'} (h : All2 (OV P' M) vs ws) (hr : resolveAll P' e' as' = .ok ws) :
    All2 (OV P' M) vs (as'.map fun r => .clo 0 (.atom r) e') := by
  induction as' generalizing vs ws with
  | nil => simp only [resolveAll, Except.ok.injEq] at hr; subst hr; cases h; exact .nil
  | cons r rs ih =>
    simp only [resolveAll] at hr
    split at hr
    · cases hr
    · rename_i w hw
      split at hr
      · cases hr
      · rename_i ws' hws
        cases hr
        cases h with
        | cons h hs => exact .cons (.tgt hw h) (ih hs hws)

section
variable (W : Worlds M P P')
include W

/-- A case on a known constructor, before: as far as what the constructor's arguments are. -/
theorem scr_steps {d τ scr bs fb t as'} {e e' : Env K} {S : List (Fr K)} (he : ER P' M d τ e e')
    (hc : CR M d τ scr (.cons t as')) :
    ∃ k as de d1 τ1, Steps P (k + 1) (.clo 0 (.case scr bs fb) e, S) (.clo 0 (.cons t as) de, .case bs fb e :: S) ∧
      ER P' M d1 τ1 de e' ∧ as' = as.map (mapR τ1) ∧ oks M d1 as ∧ fieldsOf t = some as.length := by
  obtain ⟨k, as, de, d1, τ1, hs, hr⟩ := (known_data W hc he).ex
  refine ⟨k, as, de, d1, τ1, .next rfl ?_, hr⟩
  exact hs.under (.case bs fb e :: S)

theorem sync {v w : Val K} {S S'} (hv : HOV P' M v w) (hS : FrsR P' M S S') : Sync P P' M (v, S) (w, S') := by
  cases hv with
  | nat k =>
    refine SR.sync ?_
    cases hS with
    | nil => exact .done (.nat k)
    | cons hf hS => exact give_rel W (.nat k) hS hf
  | @fn a c c' e e' d τ he hc =>
    have hv : HOV P' M (.clo (a + 1) c e) (.clo (a + 1) c' e') := .fn he hc
    refine SR.sync ?_
    cases hS with
    | nil => exact .done hv
    | cons hf hS => exact give_rel W hv hS hf
  | @code c c' e e' d τ he hc =>
    have hv : HOV P' M (.clo 0 c e) (.clo 0 c' e') := .code he hc
    have hc0 := hc
    cases hc with
    | cons ho ha =>
      refine SR.sync ?_
      cases hS with
      | nil => exact .done hv
      | cons hf hS => exact give_rel W hv hS hf
    | metaOf hm hb =>
      refine SR.sync ?_
      cases hS with
      | nil => exact .done hv
      | cons hf hS => exact giveMeta_rel W he hm hb hS hf
    | @knownLet _ _ scr bs fb t as' b b' hs hb hc =>
      obtain ⟨k, as, de, d1, τ1, hst, he1, has, ho, ha⟩ := scr_steps (bs := bs) (fb := fb) (S := S) W he hs
      have hr := resolveAll_rel W he1 ho
      rw [← has] at hr
      generalize hx : resolveAll P de as = a at hr
      generalize hy : resolveAll P' e' as' = b2 at hr
      have hlen : as'.length = as.length := by rw [has]; simp
      have t1 : sstep P' (.clo 0 (.let_ (bindArgs as') b') e', S') =
          .next (.clo 0 b' (consAll (as'.map fun r => .clo 0 (.atom r) e') e'), S') := by
        simp only [sstep, exec, forms_bindArgs]
      cases hr with
      | error x => obtain ⟨vs, h⟩ := resolveAll_ok W he1 ho; rw [hx] at h; cases h
      | @ok vs ws hvs =>
        have s3 : sstep P (.clo 0 (.cons t as) de, .case bs fb e :: S) = .next (.clo 0 b (consAll vs e), S) := by
          simp only [sstep, give, onCase, shape, hb, hx, SRes.of]
        refine .next (i := k + 1) (j := 0) (hst.trans (.one s3)) (.one t1) (.code (he.consAll (resolveAll_tgt hvs hy)) ?_) hS
        rw [resolveAll_length hx, ← hlen]
        exact hc
    | @knownFb _ _ scr bs t as' b b' hs hb hc =>
      obtain ⟨k, as, de, d1, τ1, hst, he1, has, ho, ha⟩ := scr_steps (bs := bs) (fb := .some b) (S := S) W he hs
      have s3 : sstep P (.clo 0 (.cons t as) de, .case bs (.some b) e :: S) =
          .next (.clo 0 b (.cons (.clo 0 (.cons t as) de) e), S) := by
        simp only [sstep, give, onCase, shape, hb, fallback, SRes.of]
      have t1 : sstep P' (.clo 0 (.let_ (.cons .value (.cons t as') .nil) b') e', S') =
          .next (.clo 0 b' (.cons (.clo 0 (.cons t as') e') e'), S') := rfl
      have ho : OV P' M (.clo 0 (.cons t as) de) (.clo 0 (.cons t as') e') := by
        rw [has]; exact .code he1 (.head (.cons ho ha))
      exact .next (i := k + 1) (j := 0) (hst.trans (.one s3)) (.one t1) (.code (he.cons ho) hc) hS
    | case h1 h2 h3 => exact SR.sync (exec_rel W he hc0 trivial hS)
    | force h0 h1 h2 h3 => exact SR.sync (exec_rel W he hc0 trivial hS)
    | atom h0 => exact SR.sync (exec_rel W he hc0 (by simp [stepwise]) hS)
    | app h0 h1 => exact SR.sync (exec_rel W he hc0 (by simp [stepwise]) hS)
    | dapp h0 h1 => exact SR.sync (exec_rel W he hc0 (by simp [stepwise]) hS)
    | «bif» h0 => exact SR.sync (exec_rel W he hc0 (by simp [stepwise]) hS)
    | fused h0 h1 => exact SR.sync (exec_rel W he hc0 (by simp [stepwise]) hS)
    | lookup  => exact SR.sync (exec_rel W he hc0 (by simp [stepwise]) hS)
    | hole  => exact SR.sync (exec_rel W he hc0 (by simp [stepwise]) hS)
    | ann h0 => exact SR.sync (exec_rel W he hc0 (by simp [stepwise]) hS)
    | seq h0 h1 => exact SR.sync (exec_rel W he hc0 (by simp [stepwise]) hS)
    | demeta h0 h1 h2 => exact SR.sync (exec_rel W he hc0 (by simp [stepwise]) hS)
    | let_ h0 h1 => exact SR.sync (exec_rel W he hc0 (by simp [stepwise]) hS)
    | letrec h0 h1 => exact SR.sync (exec_rel W he hc0 (by simp [stepwise]) hS)

/-! ## Runs -/

theorem fwd {n} {v w : Val K} {S S' r} (hv : OV P' M v w) (hS : FrsR P' M S S') (h : Term P n (v, S) r) :
    (∃ n' r', Term P' n' (w, S') r' ∧ XRel (HOV P' M) r r') ∨ (M.lax = true ∧ ∃ x, r = .error x) := by
  induction n using Nat.strongRecOn generalizing v w S S' with
  | ind n ih =>
    obtain ⟨k, v1, j, w1, h1, h2, hh⟩ := settle W hv
    obtain ⟨hk, ht⟩ := (show Steps P k (v, S) (v1, S) by simpa using h1.under S).unterm h
    have h2 : Steps P' j (w, S') (w1, S') := by simpa using h2.under S'
    clear h
    cases sync W hh hS with
    | next s1 s2 hv' hS' =>
      obtain ⟨hk', ht'⟩ := s1.unterm ht
      rcases ih _ (by omega) hv' hS' ht' with ⟨n', r', a, b⟩ | h
      · exact .inl ⟨_, r', h2.term (s2.term a), b⟩
      · exact .inr h
    | done d1 d2 hd =>
      cases (ht.det (.done d1)).2
      exact .inl ⟨_, _, h2.term (.done d2), .ok hd⟩
    | err e1 e2 =>
      cases (ht.det (.err e1)).2
      exact .inl ⟨_, _, h2.term (.err e2), .error _⟩
    | bad hl e1 => exact .inr ⟨hl, _, (ht.det (.err e1)).2⟩

theorem bwd {n} {v w : Val K} {S S' r'} (hv : OV P' M v w) (hS : FrsR P' M S S') (h : Term P' n (w, S') r') :
    ∃ n' r, Term P n' (v, S) r ∧ XB M (HOV P' M) r r' := by
  induction n using Nat.strongRecOn generalizing v w S S' with
  | ind n ih =>
    obtain ⟨k, v1, j, w1, h1, h2, hh⟩ := settle W hv
    obtain ⟨hk, ht⟩ := (show Steps P' j (w, S') (w1, S') by simpa using h2.under S').unterm h
    have h1 : Steps P k (v, S) (v1, S) := by simpa using h1.under S
    clear h
    cases sync W hh hS with
    | next s1 s2 hv' hS' =>
      obtain ⟨hk', ht'⟩ := s2.unterm ht
      obtain ⟨n', r, a, b⟩ := ih _ (by omega) hv' hS' ht'
      exact ⟨_, r, h1.term (s1.term a), b⟩
    | done d1 d2 hd =>
      cases (ht.det (.done d2)).2
      exact ⟨_, _, h1.term (.done d1), .ok hd⟩
    | err e1 e2 =>
      cases (ht.det (.err e2)).2
      exact ⟨_, _, h1.term (.err e1), .error _⟩
    | bad hl e1 => exact ⟨_, _, h1.term (.err e1), .bad hl⟩

omit W in
theorem seen_rel {r r' : R K} (h : XRel (HOV P' M) r r') : seen r = seen r' := by
  cases h with
  | error x => rfl
  | ok h =>
    simp only [seen]
    have hs := h.shape
    revert hs
    generalize shape _ = a
    generalize shape _ = b
    intro hs
    cases hs <;> simp

theorem fields_rel {v w : Val K} {t as e} (h : HOV P' M v w) (hs : shape v = .data t as e) :
    ∃ as' e', shape w = .data t as' e' ∧ ∀ (i : Nat) r u, as[i]? = some r → resolve P e r = .ok u →
      ∃ r' u', as'[i]? = some r' ∧ resolve P' e' r' = .ok u' ∧ OV P' M u u' := by
  have hsh := h.shape
  rw [hs] at hsh
  generalize hb : shape w = b at hsh
  cases hsh with
  | data he ho ha =>
    refine ⟨_, _, rfl, fun i r u hr hu => ?_⟩
    have := resolve_rel W he (ho r (List.mem_of_getElem? hr))
    rw [hu] at this
    generalize hx : resolve P' _ _ = x at this
    cases this with
    | ok h => exact ⟨_, _, by simp [hr], hx, h⟩

theorem fields_rel' {v w : Val K} {t as' e'} (h : HOV P' M v w) (hs : shape w = .data t as' e') :
    ∃ as e, shape v = .data t as e ∧ ∀ (i : Nat) r' u', as'[i]? = some r' → resolve P' e' r' = .ok u' →
      ∃ r u, as[i]? = some r ∧ resolve P e r = .ok u ∧ OV P' M u u' := by
  have hsh := h.shape
  rw [hs] at hsh
  generalize hb : shape v = b at hsh
  cases hsh with
  | @data _ as _ _ _ _ he ho ha =>
    refine ⟨_, _, rfl, fun i r' u' hr hu => ?_⟩
    rw [List.getElem?_map, Option.map_eq_some_iff] at hr
    obtain ⟨r, hr, rfl⟩ := hr
    have := resolve_rel W he (ho r (List.mem_of_getElem? hr))
    rw [hu] at this
    generalize hx : resolve P _ _ = x at this
    cases this with
    | ok h => exact ⟨_, _, hr, hx, h⟩

theorem finds_fwd {p} {v w : Val K} {s} (hv : OV P' M v w) (h : Finds P p v s)
    (hl : M.lax = false ∨ ∀ x, s ≠ .error x) : Finds P' p w s := by
  induction p generalizing v w with
  | nil =>
    obtain ⟨n, r, h1, h2⟩ := h
    obtain ⟨k, ht⟩ := program_sound P h1
    rcases fwd W hv (.cons .top .nil) ht with ⟨n', r', a, b⟩ | ⟨h3, x, rfl⟩
    · obtain ⟨m, hm⟩ := program_complete P' a
      exact ⟨m, r', hm, by rw [← seen_rel b]; exact h2⟩
    · rcases hl with hl | hl
      · rw [hl] at h3; cases h3
      · simp only [seen, Option.some.injEq] at h2
        exact absurd h2.symm (hl x)
  | cons i p ih =>
    obtain ⟨n, w1, t, as, e, r, u, h1, h2, h3, h4, h5⟩ := h
    obtain ⟨k, ht⟩ := program_sound P h1
    rcases fwd W hv (.cons .top .nil) ht with ⟨n', r', a, b⟩ | ⟨_, x, h⟩
    · cases b with
      | ok b =>
        obtain ⟨m, hm⟩ := program_complete P' a
        obtain ⟨as', e', h6, h7⟩ := fields_rel W b h2
        obtain ⟨r', u', h8, h9, h10⟩ := h7 i r u h3 h4
        exact ⟨m, _, t, as', e', r', u', hm, h6, h8, h9, ih h10 h5⟩
    · cases h

theorem finds_bwd {p} {v w : Val K} {s} (hv : OV P' M v w) (h : Finds P' p w s) :
    Finds P p v s ∨ (M.lax = true ∧ ∃ q x, q <+: p ∧ Finds P q v (.error x)) := by
  induction p generalizing v w with
  | nil =>
    obtain ⟨n, r, h1, h2⟩ := h
    obtain ⟨k, ht⟩ := program_sound P' h1
    obtain ⟨n', r', a, b⟩ := bwd W hv (.cons .top .nil) ht
    obtain ⟨m, hm⟩ := program_complete P a
    cases b with
    | ok b => exact .inl ⟨m, _, hm, by rw [seen_rel (.ok b)]; exact h2⟩
    | error x => exact .inl ⟨m, _, hm, h2⟩
    | bad hl => exact .inr ⟨hl, [], _, List.nil_prefix, m, _, hm, rfl⟩
  | cons i p ih =>
    obtain ⟨n, w1, t, as, e, r, u, h1, h2, h3, h4, h5⟩ := h
    obtain ⟨k, ht⟩ := program_sound P' h1
    obtain ⟨n', r', a, b⟩ := bwd W hv (.cons .top .nil) ht
    obtain ⟨m, hm⟩ := program_complete P a
    cases b with
    | bad hl => exact .inr ⟨hl, [], _, List.nil_prefix, m, _, hm, rfl⟩
    | ok b =>
      obtain ⟨as', e', h6, h7⟩ := fields_rel' W b h2
      obtain ⟨r', u', h8, h9, h10⟩ := h7 i r u h3 h4
      rcases ih h10 h5 with h | ⟨hl, q, x, hq, h⟩
      · exact .inl ⟨m, _, t, as', e', r', u', hm, h6, h8, h9, h⟩
      · refine .inr ⟨hl, i :: q, x, ?_, m, _, t, as', e', r', u', hm, h6, h8, h9, h⟩
        simpa using hq
end

end Verif.Opt
