import Verif.CompSound

/-!
# Expression and code, step by step

Proofs only.
-/

namespace Verif.Comp
open Verif.Bc
open Verif.Opt (wf wfForms wfBrs wfFb okRef count fieldsOf)
variable {K : Type} {M : Mode K}

section
variable (F : Fits M.cfg M.P)
include F

theorem resolve_ok {d} {e : Env K} {e' : Sem.Env K} (he : DR M d e e') {r : Ref K} (hr : okRef M.globals d r = true) :
    ∃ v w, resolve M.P e r = .ok v ∧ Sem.resolve M.P.sem e' r = .ok w ∧ VR M v w := by
  cases r with
  | l i =>
    obtain ⟨v, w, h1, h2, h3⟩ := he.lookup (by simpa [okRef] using hr)
    exact ⟨v, w, by simp only [resolve, h1], by simp only [Sem.resolve, h2], h3⟩
  | g i =>
    obtain ⟨f, h1, h2⟩ := global_sound F (by simpa [okRef] using hr)
    exact ⟨_, _, by simp only [resolve, global, h1], by simp only [Sem.resolve, Sem.global, h1], h2⟩
  | v k => exact ⟨_, _, rfl, rfl, .nat k⟩

theorem resolveAll_ok {d} {e : Env K} {e' : Sem.Env K} (he : DR M d e e') {rs : List (Ref K)}
    (hr : rs.all (okRef M.globals d) = true) :
    ∃ vs ws, resolveAll M.P e rs = .ok vs ∧ Sem.resolveAll M.P.sem e' rs = .ok ws ∧ All2 (VR M) vs ws ∧ vs.length = rs.length := by
  induction rs with
  | nil => exact ⟨[], [], rfl, rfl, .nil, rfl⟩
  | cons r rs ih =>
    simp only [List.all_cons, Bool.and_eq_true] at hr
    obtain ⟨v, w, a, b, c⟩ := resolve_ok F he hr.1
    obtain ⟨vs, ws, a2, b2, c2, d2⟩ := ih hr.2
    exact ⟨v :: vs, w :: ws, by simp only [resolveAll, a, a2], by simp only [Sem.resolveAll, b, b2], .cons c c2, by simp [d2]⟩
end

/-- Alike at the head. -/
inductive HVR (M : Mode K) : Val K → Sem.Val K → Prop where
  | nat (k) : HVR M (.nat k) (.nat k)
  | fn {a c e e' d} : DR M d e e' → wf M.globals (d + (a + 1)) c = true → HVR M (.clo (a + 1) c e) (.clo (a + 1) c e')
  | cons {t as e e' d} : DR M d e e' → wf M.globals d (.cons t as) = true → HVR M (.clo 0 (.cons t as) e) (.clo 0 (.cons t as) e')
  | metaOf {m b e e' d} : DR M d e e' → wf M.globals d (.metaOf m b) = true → HVR M (.clo 0 (.metaOf m b) e) (.clo 0 (.metaOf m b) e')
  | con {t vs as e'} : as.length = vs.length → fieldsOf t = some vs.length →
      (∀ r ∈ as, ∃ w, Sem.resolve M.P.sem e' r = .ok w) →
      (∀ (i : Nat) v r w, vs[i]? = some v → as[i]? = some r → Sem.resolve M.P.sem e' r = .ok w → VR M v w) →
      HVR M (.con t vs) (.clo 0 (.cons t as) e')
  | note {m b rm rb e' wm wb} : Sem.resolve M.P.sem e' rm = .ok wm → Sem.resolve M.P.sem e' rb = .ok wb →
      VR M m wm → VR M b wb → HVR M (.note m b) (.clo 0 (.metaOf rm rb) e')
  | lam {ctx ρ e' s n body self ann code} : ER M ctx ρ e' →
      lamForm M.cfg ann (n + 1) (bodyE M.cfg body self) ctx = .ok ⟨.lambda (n + 1) ann, code⟩ → HM M (.lam s (n + 1) body) ρ →
      HVR M (.exp (.lam s (n + 1) body) ρ) (.clo (n + 1) code e')

theorem HVR.vr {v : Val K} {w} (h : HVR M v w) : VR M v w := by
  cases h with
  | nat k => exact .nat k
  | fn he hc => exact .clo he hc
  | cons he hc => exact .clo he hc
  | metaOf he hc => exact .clo he hc
  | con a b c d => exact .con a b c d
  | note a b c d => exact .note a b c d
  | lam a b c => exact .fn a b c

/-- Shapes alike. -/
inductive ShR (M : Mode K) : Shape K → Sem.Shape K → Prop where
  | nat (k) : ShR M (.nat k) (.nat k)
  | fn {a enter c e'} : (∀ vs ws, All2 (VR M) vs ws → vs.length = a + 1 → VR M (enter vs) (.clo 0 c (Sem.consAll ws e'))) →
      ShR M (.fn (a + 1) enter) (.fn (a + 1) c e')
  | data {t vs as ws e'} : Sem.resolveAll M.P.sem e' as = .ok ws → All2 (VR M) vs ws → fieldsOf t = some vs.length →
      ShR M (.data t (.ok vs)) (.data t as e')
  | annotated {m b rm rb wm wb e'} : Sem.resolve M.P.sem e' rm = .ok wm → Sem.resolve M.P.sem e' rb = .ok wb →
      VR M m wm → VR M b wb → ShR M (.annotated (.ok (m, b)) (.ok b)) (.annotated rm rb e')

theorem con_fields {vs : List (Val K)} {as : List (Ref K)} {e' : Sem.Env K} (hl : as.length = vs.length)
    (h1 : ∀ r ∈ as, ∃ w, Sem.resolve M.P.sem e' r = .ok w)
    (h2 : ∀ (i : Nat) v r w, vs[i]? = some v → as[i]? = some r → Sem.resolve M.P.sem e' r = .ok w → VR M v w) :
    ∃ ws, Sem.resolveAll M.P.sem e' as = .ok ws ∧ All2 (VR M) vs ws := by
  induction as generalizing vs with
  | nil => cases vs with
    | nil => exact ⟨[], rfl, .nil⟩
    | cons => simp at hl
  | cons r as ih => cases vs with
    | nil => simp at hl
    | cons v vs =>
      obtain ⟨w, hw⟩ := h1 r (by simp)
      obtain ⟨ws, a, b⟩ := ih (by simpa using hl) (fun r hr => h1 r (by simp [hr]))
        fun i v r w hv hr => h2 (i + 1) v r w (by simpa using hv) (by simpa using hr)
      exact ⟨w :: ws, by simp only [Sem.resolveAll, hw, a], .cons (h2 0 v r w rfl rfl hw) b⟩

section
variable (F : Fits M.cfg M.P)
include F

theorem HVR.shape {v : Val K} {w} (h : HVR M v w) : ShR M (Comp.shape M.P v) (Sem.shape w) := by
  cases h with
  | nat k => exact .nat k
  | fn he hc =>
    refine .fn fun vs ws hv hn => .code (he.consAll hv) ?_
    rw [hn]; exact hc
  | @cons t as e e' d he hc =>
    simp only [wf, Bool.and_eq_true, beq_iff_eq] at hc
    obtain ⟨vs, ws, a, b, c, hl⟩ := resolveAll_ok F he hc.1
    simp only [Comp.shape, Sem.shape, a]
    exact .data b c (by rw [hl]; exact hc.2)
  | @metaOf m b e e' d he hc =>
    simp only [wf, Bool.and_eq_true] at hc
    obtain ⟨v1, w1, a1, b1, c1⟩ := resolve_ok F he hc.1
    obtain ⟨v2, w2, a2, b2, c2⟩ := resolve_ok F he hc.2
    simp only [Comp.shape, Sem.shape, resolveAll, a1, a2, pairOf]
    exact .annotated b1 b2 c1 c2
  | con a b c d =>
    obtain ⟨ws, h1, h2⟩ := con_fields a c d
    exact .data h1 h2 b
  | note a b c d => exact .annotated a b c d
  | lam he h hq => exact .fn fun vs ws hv hn => enter_sound (bodyE_sound F _) h (hq.lam vs) he hv hn
end

/-! ## Frames -/

inductive FrR (M : Mode K) : Fr K → Sem.Fr K → Prop where
  | case {d bs fb e e'} : DR M d e e' → wfBrs M.globals d bs = true → wfFb M.globals (d + 1) fb = true →
      FrR M (.case bs fb e) (.case bs fb e')
  | apply {vs ws} : All2 (VR M) vs ws → FrR M (.apply vs) (.apply ws)
  | demeta {d h o e e'} : DR M d e e' → wf M.globals (d + 2) h = true → wf M.globals (d + 1) o = true →
      FrR M (.demeta h o e) (.demeta h o e')
  | seq {d b e e'} : DR M d e e' → wf M.globals d b = true → FrR M (.seq b e) (.seq b e')
  | fusedL {d id r e e'} : DR M d e e' → okRef M.globals d r = true → FrR M (.fusedL id r e) (.fusedL id r e')
  | fusedR {id l l'} : HVR M l l' → FrR M (.fusedR id l) (.fusedR id l')
  | prim {id ds ds' vs vs'} : All2 (HVR M) ds ds' → All2 (VR M) vs vs' → FrR M (.prim id ds vs) (.prim id ds' vs')
  | top : FrR M .top .top

abbrev FrsR (M : Mode K) : List (Fr K) → List (Sem.Fr K) → Prop := All2 (FrR M)

inductive SR (M : Mode K) : SRes K → Sem.SRes K → Prop where
  | next {v S w S'} : VR M v w → FrsR M S S' → SR M (.next (v, S)) (.next (w, S'))
  | done {v w} : HVR M v w → SR M (.done v) (.done w)
  | err (x) : SR M (.err x) (.err x)

theorem SR.of {r r' S S'} (h : XRel (VR M) r r') (hS : FrsR M S S') : SR M (.of r S) (.of r' S') := by
  cases h with
  | ok h => exact .next h hS
  | error x => exact .err x

theorem branch_get {g d t : Nat} {bs : Brs K} {b} (hw : wfBrs g d bs = true) (hb : Sem.branch bs t = some b) :
    ∃ n, fieldsOf t = some n ∧ wf g (d + n) b = true := by
  match bs with
  | .nil => simp [Sem.branch] at hb
  | .cons t' b' rest =>
    simp only [wfBrs, Bool.and_eq_true] at hw
    simp only [Sem.branch] at hb
    split at hb
    · rename_i x hx
      cases hb
      exact branch_get hw.2 hx
    · split at hb
      · rename_i ht
        cases hb
        subst ht
        have := hw.1.1
        split at this
        · rename_i n hn; exact ⟨n, hn, this⟩
        · cases this
      · cases hb

theorem fallback_rel {d fb} {v : Val K} {w} {e : Env K} {e'} (hv : VR M v w) (he : DR M d e e')
    (hf : wfFb M.globals (d + 1) fb = true) (x : Sem.Err) : XRel (VR M) (fallback v fb e x) (Sem.fallback w fb e' x) := by
  cases fb with
  | none => exact .error x
  | some b => exact .ok (.code (he.cons hv) hf)

theorem pap_wf {g : Nat} {s p : Nat} : wf (K := K) g (s + 1 + p) (Sem.papCode s p) = true := by
  simp only [Sem.papCode, wf, okRef, Bool.and_eq_true, decide_eq_true_eq, List.all_append, List.all_map, List.all_eq_true,
    Function.comp_apply, List.mem_range]
  exact ⟨by omega, fun i hi => by omega, fun i hi => by omega⟩

/-- What applying gives, alike. -/
def AR (M : Mode K) (p : Val K × Option (List (Val K))) (q : Sem.Val K × Option (List (Sem.Val K))) : Prop :=
  VR M p.1 q.1 ∧ match p.2, q.2 with
    | none, none => True
    | some vs, some vs' => All2 (VR M) vs vs'
    | _, _ => False

theorem natives_rel {vs : List (Val K)} {ws} (h : All2 (HVR M) vs ws) : natives vs = Sem.natives ws := by
  induction h with
  | nil => rfl
  | cons h _ ih =>
    cases h with
    | nat k => simp only [natives, Sem.natives, ih]
    | _ => rfl

theorem close_rel {d} {fs : Forms K} {e : Env K} {e'} (he : DR M d e e') (h : wfForms M.globals d fs = true) :
    All2 (VR M) ((Sem.forms fs).map (close · e)) ((Sem.forms fs).map (Sem.close · e')) := by
  match fs with
  | .nil => exact .nil
  | .cons hd b rest =>
    simp only [wfForms, Bool.and_eq_true] at h
    exact .cons (.clo he h.1) (close_rel he h.2)

theorem lazily_rel {d} {e : Env K} {e'} (he : DR M d e e') {rs : List (Ref K)} (hr : rs.all (okRef M.globals d) = true) :
    All2 (VR M) (rs.map fun r => .clo 0 (.atom r) e) (Sem.lazily e' rs) := by
  induction rs with
  | nil => exact .nil
  | cons r rs ih =>
    simp only [List.all_cons, Bool.and_eq_true] at hr
    exact .cons (.code he hr.1) (ih hr.2)

theorem eagerBad_ok {d} {e : Env K} {e'} (he : DR M d e e') {rs : List (Ref K)} (hr : rs.all (okRef M.globals d) = true) :
    eagerBad e rs = none ∧ Sem.eagerBad e' rs = none := by
  induction rs with
  | nil => exact ⟨rfl, rfl⟩
  | cons r rs ih =>
    simp only [List.all_cons, Bool.and_eq_true] at hr
    have h := ih hr.2
    cases r with
    | l i =>
      obtain ⟨v, w, h1, h2, h3⟩ := he.lookup (i := i) (by simpa [okRef] using hr.1)
      simp only [eagerBad, Sem.eagerBad, h1, h2]
      exact h
    | g i => exact h
    | v k => exact h

section
variable (F : Fits M.cfg M.P)
include F

theorem onCase_rel {d bs fb} {v : Val K} {w} {e : Env K} {e'} (hv : HVR M v w) (he : DR M d e e')
    (hb : wfBrs M.globals d bs = true) (hf : wfFb M.globals (d + 1) fb = true) :
    XRel (VR M) (onCase M.P v bs fb e) (Sem.onCase M.P.sem w bs fb e') := by
  unfold onCase Sem.onCase
  have hs := hv.shape F
  revert hs
  generalize shape M.P v = a
  generalize Sem.shape w = b
  intro hs
  cases hs with
  | nat k => exact fallback_rel hv.vr he hf _
  | fn _ => exact fallback_rel hv.vr he hf _
  | annotated => exact .error _
  | @data t vs as ws e2 h1 h2 h3 =>
    dsimp only
    cases hbr : Sem.branch bs t with
    | none => exact fallback_rel hv.vr he hf _
    | some body =>
      rw [h1]
      obtain ⟨n, hn, hwf⟩ := branch_get hb hbr
      rw [h3] at hn
      cases hn
      exact .ok (.code (he.consAll h2) hwf)

theorem onApply_rel {v : Val K} {w} {vs ws} (hv : HVR M v w) (hs : All2 (VR M) vs ws) :
    XRel (AR M) (onApply M.P v vs) (Sem.onApply M.P.sem w ws) := by
  unfold onApply Sem.onApply
  have hl := hs.length
  have hsh := hv.shape F
  revert hsh
  generalize shape M.P v = a
  generalize Sem.shape w = b
  intro hsh
  cases hsh with
  | nat k => exact .error _
  | annotated => exact .error _
  | @fn a enter c e' henter =>
    dsimp only
    rw [← hl]
    split
    · rename_i hla
      exact .ok ⟨henter vs ws hs hla, trivial⟩
    · split
      · rename_i hlt
        have h : DR M (0 + (v :: vs).length) (consAll (v :: vs) .nil) (Sem.consAll (w :: ws) e') := DR.consAll .nil (.cons hv.vr hs)
        rw [Nat.zero_add, List.length_cons] at h
        exact .ok ⟨.clo h pap_wf, trivial⟩
      · exact .ok ⟨henter _ _ (hs.take _) (by simp; omega), hs.drop _⟩
  | data h1 h2 h3 =>
    dsimp only
    split
    · unfold global Sem.global
      by_cases hm : M.P.sem.merge < M.globals
      · obtain ⟨f, h1, h2⟩ := global_sound F hm
        rw [h1]
        exact .ok ⟨h2, hs.append (.cons hv.vr .nil)⟩
      · have : M.P.sem.globals[M.P.sem.merge]? = none := by simpa [Mode.globals] using hm
        rw [this]
        exact .error _
    · exact .error _

theorem app_rel {d} {e : Env K} {e'} (he : DR M d e e') {f : Ref K} {as} (hf : okRef M.globals d f = true)
    (ha : as.all (okRef M.globals d) = true) (eager : Bool) :
    XRel (fun p q => VR M p.1 q.1 ∧ All2 (VR M) p.2 q.2) (app M.P e f as eager) (Sem.app M.P.sem e' f as eager) := by
  unfold app Sem.app
  rw [(eagerBad_ok he ha).1, (eagerBad_ok he ha).2]
  simp only [ite_self]
  obtain ⟨v, w, h1, h2, h3⟩ := resolve_ok F he hf
  cases f with
  | v k => exact .error _
  | l i => simp only [callee, Sem.callee, h1, h2]; exact .ok ⟨h3, lazily_rel he ha⟩
  | g i => simp only [callee, Sem.callee, h1, h2]; exact .ok ⟨h3, lazily_rel he ha⟩

/-- Nothing here, nothing there; or something alike in both. -/
theorem unbox_rel {v : Val K} {w} (hv : HVR M v w) :
    (∃ x, unbox M.P v = .error x ∧ Sem.unbox M.P.sem w = .error x) ∨
    (unbox M.P v = .ok none ∧ Sem.unbox M.P.sem w = .ok none) ∨
    ∃ u u', unbox M.P v = .ok (some u) ∧ Sem.unbox M.P.sem w = .ok (some u') ∧ VR M u u' := by
  unfold unbox Sem.unbox
  have hs := hv.shape F
  revert hs
  generalize shape M.P v = a
  generalize Sem.shape w = b
  intro hs
  cases hs with
  | nat k => exact .inr (.inl ⟨rfl, rfl⟩)
  | fn => exact .inr (.inl ⟨rfl, rfl⟩)
  | annotated => exact .inr (.inl ⟨rfl, rfl⟩)
  | @data t vs as ws e2 h1 h2 h3 =>
    dsimp only
    split
    · cases as with
      | nil => cases h1; cases h2; exact .inl ⟨_, rfl, rfl⟩
      | cons r as =>
        simp only [Sem.resolveAll] at h1
        split at h1
        · cases h1
        · rename_i u' hu'
          split at h1
          · cases h1
          · cases h1
            cases h2 with
            | cons h _ => exact .inr (.inr ⟨_, u', rfl, by simp only [hu'], h⟩)
    · exact .inr (.inl ⟨rfl, rfl⟩)

theorem intrinsic_rel {id} {vs : List (Val K)} {ws} (h : All2 (HVR M) vs ws) :
    XRel (VR M) (intrinsic M.P id vs) (Sem.intrinsic M.P.sem id ws) := by
  unfold intrinsic Sem.intrinsic
  rw [natives_rel h]
  cases Sem.natives ws with
  | none => exact .error _
  | some ks =>
    dsimp only
    cases hp : M.P.sem.prim id ks with
    | error x => exact .error _
    | ok c => exact .ok (.code (d := 0) .nil (F.wf.2 _ _ _ hp))

theorem exec_rel {d} {c : Syn K} {e : Env K} {e'} {S S'} (he : DR M d e e') (hc : wf M.globals d c = true) (hS : FrsR M S S') :
    SR M (exec M.P c e S) (Sem.exec M.P.sem c e' S') := by
  match c with
  | .atom r =>
    obtain ⟨v, w, h1, h2, h3⟩ := resolve_ok F he hc
    simp only [exec, Sem.exec, h1, h2]
    exact .next h3 hS
  | .cons _ _ => exact .err _
  | .metaOf _ _ => exact .err _
  | .lookup _ _ _ _ => exact .err _
  | .hole => exact .err _
  | .app f as eager =>
    simp only [wf, Bool.and_eq_true] at hc
    simp only [exec, Sem.exec]
    have := app_rel F he hc.1 hc.2 eager
    revert this
    generalize app M.P e _ _ _ = a
    generalize Sem.app M.P.sem e' _ _ _ = b
    intro this
    cases this with
    | error x => exact .err x
    | ok h => exact .next h.1 (.cons (.apply h.2) hS)
  | .dapp _ f as eager =>
    simp only [wf, Bool.and_eq_true] at hc
    simp only [exec, Sem.exec]
    have := app_rel F he hc.1 hc.2 eager
    revert this
    generalize app M.P e _ _ _ = a
    generalize Sem.app M.P.sem e' _ _ _ = b
    intro this
    cases this with
    | error x => exact .err x
    | ok h => exact .next h.1 (.cons (.apply h.2) hS)
  | .bif id as =>
    simp only [wf] at hc
    obtain ⟨vs, ws, a, b, c, hl⟩ := resolveAll_ok F he hc
    simp only [exec, Sem.exec, a, b]
    cases c with
    | nil => exact .of (intrinsic_rel F .nil) hS
    | cons h hs => exact .next h (.cons (.prim .nil hs) hS)
  | .fused id l r =>
    simp only [wf, Bool.and_eq_true] at hc
    exact .next (.code he hc.1) (.cons (.fusedL he hc.2) hS)
  | .ann _ b => exact .next (.code he hc) hS
  | .seq s b =>
    simp only [wf, Bool.and_eq_true] at hc
    exact .next (.code he hc.1) (.cons (.seq he hc.2) hS)
  | .demeta s h o =>
    simp only [wf, Bool.and_eq_true] at hc
    exact .next (.code he hc.1.1) (.cons (.demeta he hc.1.2 hc.2) hS)
  | .let_ fs b =>
    simp only [wf, Bool.and_eq_true] at hc
    have := he.consAll (close_rel he hc.1)
    rw [List.length_map, ← Opt.count_forms] at this
    exact .next (.code this hc.2) hS
  | .letrec fs b =>
    simp only [wf, Bool.and_eq_true] at hc
    exact .next (.code (.recs hc.1 he) hc.2) hS
  | .case s bs fb =>
    simp only [wf, Bool.and_eq_true] at hc
    exact .next (.code he hc.1.1) (.cons (.case he hc.1.2 hc.2) hS)

theorem give_rel {v : Val K} {w} {S S' fr fr'} (hv : HVR M v w) (hS : FrsR M S S') (hf : FrR M fr fr') :
    SR M (give M.P v S fr) (Sem.give M.P.sem w S' fr') := by
  cases hf with
  | case he hb hfb => exact .of (onCase_rel F hv he hb hfb) hS
  | apply hs =>
    simp only [give, Sem.give]
    have := onApply_rel F hv hs
    revert this
    generalize onApply M.P v _ = a
    generalize Sem.onApply M.P.sem w _ = b
    intro this
    cases this with
    | error x => exact .err x
    | @ok p q h =>
      obtain ⟨u, more⟩ := p
      obtain ⟨u', more'⟩ := q
      obtain ⟨h1, h2⟩ := h
      cases more <;> cases more' <;> simp only at h2
      · exact .next h1 hS
      · exact .next h1 (.cons (.apply h2) hS)
  | demeta he hh ho => exact .next (.code (he.cons hv.vr) ho) hS
  | seq he hb => exact .next (.code he hb) hS
  | fusedL he hr =>
    simp only [give, Sem.give]
    rcases unbox_rel F hv with ⟨x, h1, h2⟩ | ⟨h1, h2⟩ | ⟨u, u', h1, h2, h3⟩
    · rw [h1, h2]; exact .err x
    · rw [h1, h2]; exact .next (.code he hr) (.cons (.fusedR hv) hS)
    · rw [h1, h2]; exact .next h3 (.cons (.fusedL he hr) hS)
  | fusedR hl =>
    simp only [give, Sem.give]
    rcases unbox_rel F hv with ⟨x, h1, h2⟩ | ⟨h1, h2⟩ | ⟨u, u', h1, h2, h3⟩
    · rw [h1, h2]; exact .err x
    · rw [h1, h2]; exact .of (intrinsic_rel F (.cons hl (.cons hv .nil))) hS
    · rw [h1, h2]; exact .next h3 (.cons (.fusedR hl) hS)
  | prim hd hs =>
    cases hs with
    | nil => exact .of (intrinsic_rel F (hd.append (.cons hv .nil))) hS
    | cons h hs => exact .next h (.cons (.prim (hd.append (.cons hv .nil)) hs) hS)
  | top => exact .next hv.vr hS

omit F in
theorem giveMeta_rel {m b : Val K} {rm rb wm wb e'} {S S' fr fr'} (h1 : Sem.resolve M.P.sem e' rm = .ok wm)
    (h2 : Sem.resolve M.P.sem e' rb = .ok wb) (hm : VR M m wm) (hb : VR M b wb) (hS : FrsR M S S') (hf : FrR M fr fr') :
    SR M (giveMeta (.ok (m, b)) (.ok b) S fr) (Sem.giveMeta M.P.sem rm rb e' S' fr') := by
  have h3 : Sem.resolveAll M.P.sem e' [rm, rb] = .ok [wm, wb] := by simp only [Sem.resolveAll, h1, h2]
  cases hf with
  | demeta hd hh ho =>
    simp only [giveMeta, Sem.giveMeta, h3]
    exact .next (.code (DR.consAll hd (.cons hm (.cons hb .nil))) hh) hS
  | top => simp only [giveMeta, Sem.giveMeta, h3]; exact .next hb (.cons .top hS)
  | case he hb' hf => simp only [giveMeta, Sem.giveMeta, h2]; exact .next hb (.cons (.case he hb' hf) hS)
  | apply hs => simp only [giveMeta, Sem.giveMeta, h2]; exact .next hb (.cons (.apply hs) hS)
  | seq he hb' => simp only [giveMeta, Sem.giveMeta, h2]; exact .next hb (.cons (.seq he hb') hS)
  | fusedL he hr => simp only [giveMeta, Sem.giveMeta, h2]; exact .next hb (.cons (.fusedL he hr) hS)
  | fusedR hl => simp only [giveMeta, Sem.giveMeta, h2]; exact .next hb (.cons (.fusedR hl) hS)
  | prim hd hs => simp only [giveMeta, Sem.giveMeta, h2]; exact .next hb (.cons (.prim hd hs) hS)

/-- From values alike at the head, a step alike. -/
theorem head_rel {v : Val K} {w} {S S'} (hv : HVR M v w) (hS : FrsR M S S') : SR M (step M.P (v, S)) (Sem.sstep M.P.sem (w, S')) := by
  have plain : ∀ {S S'}, FrsR M S S' → (match shape M.P v with | .annotated _ _ => False | .busy => False | _ => True) →
      SR M (step M.P (v, S)) (match S' with | [] => .done w | fr :: S' => Sem.give M.P.sem w S' fr) := by
    intro S S' hS hp
    unfold step
    dsimp only
    cases hS with
    | nil => split <;> first | exact .done hv | simp_all
    | cons hf hS => split <;> first | exact give_rel F hv hS hf | simp_all
  have noted : ∀ {S S' rm rb e'}, FrsR M S S' → w = .clo 0 (.metaOf rm rb) e' →
      SR M (step M.P (v, S)) (match S' with | [] => .done w | fr :: S' => Sem.giveMeta M.P.sem rm rb e' S' fr) := by
    intro S S' rm rb e' hS hw
    have hsh := hv.shape F
    rw [hw] at hsh
    generalize ha : shape M.P v = a at hsh
    simp only [Sem.shape] at hsh
    unfold step
    dsimp only
    rw [ha]
    cases hsh with
    | annotated h1 h2 hm hb =>
      cases hS with
      | nil => exact .done hv
      | cons hf hS => exact giveMeta_rel h1 h2 hm hb hS hf
  cases hv with
  | nat k => exact plain hS trivial
  | fn he hc => exact plain hS trivial
  | cons he hc => exact plain hS trivial
  | con a b c d => exact plain hS trivial
  | lam a b c => exact plain hS trivial
  | metaOf he hc => exact noted hS rfl
  | note a b c d => exact noted hS rfl

/-- The same for code that is the same on both sides. -/
theorem code_rel {a c d} {e : Env K} {e' : Sem.Env K} {S S'} (he : DR M d e e') (hc : wf M.globals (d + a) c = true)
    (hS : FrsR M S S') : SR M (step M.P (.clo a c e, S)) (Sem.sstep M.P.sem (.clo a c e', S')) := by
  cases a with
  | succ a => exact head_rel F (.fn he hc) hS
  | zero =>
    rw [Nat.add_zero] at hc
    cases c with
    | cons t as => exact head_rel F (.cons he hc) hS
    | metaOf m b => exact head_rel F (.metaOf he hc) hS
    | _ => exact exec_rel F he hc hS

theorem var_rel {ctx : Ctx K} {ρ e' s i name r S S'} (he : ER M ctx ρ e') (hr : ctxLookup ctx s i = .ok r) (hS : FrsR M S S') :
    SR M (step M.P (.exp (.var s i name) ρ, S)) (Sem.sstep M.P.sem (.clo 0 (.atom r) e', S')) := by
  obtain ⟨v, w, h1, h2, h3⟩ := he.lookup F hr
  have a : step M.P (.exp (.var s i name) ρ, S) = .next (v, S) := by simp only [step, shape, execE, h1]
  have b : Sem.sstep M.P.sem (.clo 0 (.atom r) e', S') = .next (w, S') := by simp only [Sem.sstep, Sem.exec, h2, Sem.SRes.of]
  rw [a, b]
  exact .next h3 hS
end

/-! ## Runs -/

/-- A result of which all is said: a value, or any if nothing is forced early. -/
def Calm {A : Type} (M : Mode K) (r : Except Sem.Err A) : Prop := (∃ u, r = .ok u) ∨ M.exact

theorem term_congr {P : Sem.World K} {c c' : Sem.Cfg K} {n r} (h : Sem.sstep P c = Sem.sstep P c') (ht : Sem.Term P n c r) :
    Sem.Term P n c' r := by
  cases ht with
  | done a => exact .done (h ▸ a)
  | err a => exact .err (h ▸ a)
  | next a b => exact .next (h ▸ a) b

/-- What ends well after forcing, ends well from where it goes on, and no later. -/
theorem seq_end {P : Sem.World K} {n : Nat} {u c e S r} (h : Sem.Term P n (u, .seq c e :: S) (.ok r)) :
    ∃ m, m < n ∧ Sem.Term P m (.clo 0 c e, S) (.ok r) := by
  induction n using Nat.strongRecOn generalizing u with
  | ind n ih =>
    obtain ⟨k, t, hk, h1, h2⟩ := h.split (S' := []) rfl
    cases t with
    | error x => cases h2
    | ok w =>
      dsimp only at h2
      obtain ⟨_, hw⟩ := h1.done_steps rfl
      have plain : Sem.sstep P (w, .seq c e :: S) = .next (.clo 0 c e, S) → ∃ m, m < n ∧ Sem.Term P m (.clo 0 c e, S) (.ok r) :=
        fun hs => by
          obtain ⟨a, b⟩ := (Sem.Steps.one hs).unterm h2
          exact ⟨_, by omega, b⟩
      rcases Sem.whnf_cases hw with ⟨k', rfl⟩ | ⟨a, c', e', rfl⟩ | ⟨t, as, e', rfl⟩ | ⟨m, b, e', rfl⟩
      · exact plain rfl
      · exact plain rfl
      · exact plain rfl
      · cases hb : Sem.resolve P e' b with
        | error x =>
          have hs : Sem.sstep P (.clo 0 (.metaOf m b) e', .seq c e :: S) = .err x := by
            simp only [Sem.sstep, Sem.giveMeta, hb, Sem.SRes.of]
          have := (h2.det (.err hs)).2
          cases this
        | ok wb =>
          have hs : Sem.sstep P (.clo 0 (.metaOf m b) e', .seq c e :: S) = .next (wb, .seq c e :: S) := by
            simp only [Sem.sstep, Sem.giveMeta, hb, Sem.SRes.of]
          obtain ⟨h3, h4⟩ := (Sem.Steps.one hs).unterm h2
          obtain ⟨m', h5, h6⟩ := ih _ (by omega) h4
          exact ⟨m', by omega, h6⟩

/-- What comes to a value at the top is got past when forced. -/
theorem top_seq {P : Sem.World K} {n : Nat} {u r} (h : Sem.Term P n (u, [.top]) (.ok r)) (c : Syn K) (e : Sem.Env K) (S : List (Sem.Fr K)) :
    ∃ m, Sem.Steps P m (u, .seq c e :: S) (.clo 0 c e, S) := by
  induction n using Nat.strongRecOn generalizing u with
  | ind n ih =>
    obtain ⟨k, t, hk, h1, h2⟩ := h.split (S' := []) rfl
    cases t with
    | error x => cases h2
    | ok w =>
      dsimp only at h2
      obtain ⟨h3, hw⟩ := h1.done_steps rfl
      have h3 : Sem.Steps P k (u, .seq c e :: S) (w, .seq c e :: S) := by simpa using h3.under (.seq c e :: S)
      have plain : Sem.sstep P (w, .seq c e :: S) = .next (.clo 0 c e, S) →
          ∃ m, Sem.Steps P m (u, .seq c e :: S) (.clo 0 c e, S) := fun hs => ⟨_, h3.trans (.one hs)⟩
      rcases Sem.whnf_cases hw with ⟨k', rfl⟩ | ⟨a, c', e', rfl⟩ | ⟨t, as, e', rfl⟩ | ⟨m, b, e', rfl⟩
      · exact plain rfl
      · exact plain rfl
      · exact plain rfl
      · cases hb : Sem.resolveAll P e' [m, b] with
        | error x =>
          have hs : Sem.sstep P (.clo 0 (.metaOf m b) e', [.top]) = .err x := by
            simp only [Sem.sstep, Sem.giveMeta, hb]
          have := (h2.det (.err hs)).2
          cases this
        | ok vs =>
          simp only [Sem.resolveAll] at hb
          split at hb
          · cases hb
          · rename_i wm hm
            split at hb
            · cases hb
            · rename_i hb2
              split at hb2
              · cases hb2
              · rename_i wb hwb
                cases hb2
                cases hb
                have hs : Sem.sstep P (.clo 0 (.metaOf m b) e', [.top]) = .next (wb, [.top]) := by
                  simp only [Sem.sstep, Sem.giveMeta, Sem.resolveAll, hm, hwb]
                have hs2 : Sem.sstep P (.clo 0 (.metaOf m b) e', .seq c e :: S) = .next (wb, .seq c e :: S) := by
                  simp only [Sem.sstep, Sem.giveMeta, hwb, Sem.SRes.of]
                obtain ⟨h4, h5⟩ := (Sem.Steps.one hs).unterm h2
                obtain ⟨m', h6⟩ := ih _ (by omega) h5
                exact ⟨_, h3.trans ((Sem.Steps.one hs2).trans h6)⟩

section
variable (F : Fits M.cfg M.P)

def FwdAt (M : Mode K) (n : Nat) : Prop := ∀ v w S S' r, VR M v w → FrsR M S S' → Ends M.P n (v, S) r → Calm M r →
  ∃ n' r', Sem.Term M.P.sem n' (w, S') r' ∧ XRel (HVR M) r r'

def BwdAt (M : Mode K) (n : Nat) : Prop := ∀ v w S S' r', VR M v w → FrsR M S S' → Sem.Term M.P.sem n (w, S') r' → Calm M r' →
  ∃ n' r, Ends M.P n' (v, S) r ∧ XRel (HVR M) r r'

theorem keep_fwd {n v w S S' r} (ih : ∀ m < n, FwdAt M m) (hs : SR M (step M.P (v, S)) (Sem.sstep M.P.sem (w, S')))
    (h : Ends M.P n (v, S) r) (hr : Calm M r) : ∃ n' r', Sem.Term M.P.sem n' (w, S') r' ∧ XRel (HVR M) r r' := by
  generalize ha : step M.P (v, S) = a at hs
  generalize hb : Sem.sstep M.P.sem (w, S') = b at hs
  cases hs with
  | err x => cases (h.det (.err ha)).2; exact ⟨_, _, .err hb, .error x⟩
  | done hd => cases (h.det (.done ha)).2; exact ⟨_, _, .done hb, .ok hd⟩
  | next hv hS =>
    obtain ⟨h1, h2⟩ := (Steps.one ha).unends h
    obtain ⟨n', r', h3, h4⟩ := ih _ (by omega) _ _ _ _ _ hv hS h2 hr
    exact ⟨_, r', .next hb h3, h4⟩

theorem keep_bwd {n v w S S' r'} (ih : ∀ m < n, BwdAt M m) (hs : SR M (step M.P (v, S)) (Sem.sstep M.P.sem (w, S')))
    (h : Sem.Term M.P.sem n (w, S') r') (hr : Calm M r') : ∃ n' r, Ends M.P n' (v, S) r ∧ XRel (HVR M) r r' := by
  generalize ha : step M.P (v, S) = a at hs
  generalize hb : Sem.sstep M.P.sem (w, S') = b at hs
  cases hs with
  | err x => cases (h.det (.err hb)).2; exact ⟨_, _, .err ha, .error x⟩
  | done hd => cases (h.det (.done hb)).2; exact ⟨_, _, .done ha, .ok hd⟩
  | next hv hS =>
    obtain ⟨h1, h2⟩ := (Sem.Steps.one hb).unterm h
    obtain ⟨n', r', h3, h4⟩ := ih _ (by omega) _ _ _ _ _ hv hS h2 hr
    exact ⟨_, r', .next ha h3, h4⟩

include F in
theorem fwd_step {n v w S S' r} (ih : ∀ m < n, FwdAt M m) (hv : VR M v w) (hS : FrsR M S S')
    (h : Ends M.P n (v, S) r) (hr : Calm M r) : ∃ n' r', Sem.Term M.P.sem n' (w, S') r' ∧ XRel (HVR M) r r' :=
  match hv with
  | .nat k => keep_fwd ih (head_rel F (.nat k) hS) h hr
  | .clo he hc => keep_fwd ih (code_rel F he hc hS) h hr
  | .con h1 h2 h3 h4 => keep_fwd ih (head_rel F (.con h1 h2 h3 h4) hS) h hr
  | .note h1 h2 h3 h4 => keep_fwd ih (head_rel F (.note h1 h2 h3 h4) hS) h hr
  | .fn h1 h2 h3 => keep_fwd ih (head_rel F (.lam h1 h2 h3) hS) h hr
  | .var h1 h2 => keep_fwd ih (var_rel F h1 h2 hS) h hr
  | .err h1 h2 => by
    cases (h.det (.err (h1 S))).2
    exact ⟨_, _, .err (h2 S'), .error _⟩
  | .src h1 h2 => by
    obtain ⟨h3, h4⟩ := (h1 S).unends h
    exact fwd_step (fun m hm => ih m (by omega)) h2 hS h4 hr
  | .tgt h1 h2 => by
    obtain ⟨n', r', h3, h4⟩ := fwd_step ih h2 hS h hr
    exact ⟨_, r', .next (h1 S') h3, h4⟩
  | .call h1 h2 h3 h4 h5 => by
    obtain ⟨h6, h7⟩ := (Steps.one (h1 S)).unends h
    obtain ⟨n', r', h8, h9⟩ := fwd_step (fun m hm => ih m (by omega)) h3 (.cons (.apply (All2.of h4 h5)) hS) h7 hr
    exact ⟨n', r', term_congr (h2 S').symm h8, h9⟩
  | .seq (i := i) (c := c) (e' := e') hq hu h2 => by
    obtain ⟨n', r', h3, h4⟩ := fwd_step ih h2 hS h hr
    rcases hr with ⟨u, rfl⟩ | hr
    · obtain ⟨m, b, hm, hb⟩ := hq.2 _ _ _ h
      obtain ⟨m', b', h5, h6⟩ := ih m hm _ _ _ _ _ hu (.cons .top .nil) hb (.inl ⟨_, rfl⟩)
      cases h6 with
      | ok _ =>
        obtain ⟨m2, h7⟩ := top_seq h5 c e' S'
        exact ⟨_, _, .next rfl (h7.term h3), h4⟩
    · exact absurd hr hq.1
termination_by structural hv

include F in
theorem fwd_all (n : Nat) : FwdAt M n := by
  induction n using Nat.strongRecOn with
  | ind n ih => exact fun v w S S' r hv hS h hr => fwd_step F ih hv hS h hr

include F in
theorem bwd_step {n v w S S' r'} (ih : ∀ m < n, BwdAt M m) (hv : VR M v w) (hS : FrsR M S S')
    (h : Sem.Term M.P.sem n (w, S') r') (hr : Calm M r') : ∃ n' r, Ends M.P n' (v, S) r ∧ XRel (HVR M) r r' :=
  match hv with
  | .nat k => keep_bwd ih (head_rel F (.nat k) hS) h hr
  | .clo he hc => keep_bwd ih (code_rel F he hc hS) h hr
  | .con h1 h2 h3 h4 => keep_bwd ih (head_rel F (.con h1 h2 h3 h4) hS) h hr
  | .note h1 h2 h3 h4 => keep_bwd ih (head_rel F (.note h1 h2 h3 h4) hS) h hr
  | .fn h1 h2 h3 => keep_bwd ih (head_rel F (.lam h1 h2 h3) hS) h hr
  | .var h1 h2 => keep_bwd ih (var_rel F h1 h2 hS) h hr
  | .err h1 h2 => by
    cases (h.det (.err (h2 S'))).2
    exact ⟨_, _, .err (h1 S), .error _⟩
  | .src h1 h2 => by
    obtain ⟨n', r, h3, h4⟩ := bwd_step ih h2 hS h hr
    exact ⟨_, r, (h1 S).ends h3, h4⟩
  | .tgt h1 h2 => by
    obtain ⟨h3, h4⟩ := (Sem.Steps.one (h1 S')).unterm h
    exact bwd_step (fun m hm => ih m (by omega)) h2 hS h4 hr
  | .call h1 h2 h3 h4 h5 => by
    obtain ⟨n', r, h8, h9⟩ := bwd_step ih h3 (.cons (.apply (All2.of h4 h5)) hS) (term_congr (h2 S') h) hr
    exact ⟨_, r, .next (h1 S) h8, h9⟩
  | .seq (i := i) (c := c) (e' := e') hq _ h2 => by
    have hr0 := hr
    rcases hr with ⟨u, rfl⟩ | hr
    · obtain ⟨h3, h4⟩ := (Sem.Steps.one rfl).unterm h
      obtain ⟨m, h5, h6⟩ := seq_end h4
      exact bwd_step (fun m' hm => ih m' (by omega)) h2 hS h6 hr0
    · exact absurd hr hq.1
termination_by structural hv

include F in
theorem bwd_all (n : Nat) : BwdAt M n := by
  induction n using Nat.strongRecOn with
  | ind n ih => exact fun v w S S' r hv hS h hr => bwd_step F ih hv hS h hr

/-! ## What is seen -/

include F in
theorem seen_rel {r r'} (h : XRel (HVR M) r r') : seen M.P r = Sem.seen r' := by
  cases h with
  | error x => rfl
  | ok h =>
    simp only [seen, Sem.seen]
    have hs := h.shape F
    revert hs
    generalize shape _ _ = a
    generalize Sem.shape _ = b
    intro hs
    cases hs with
    | nat k => rfl
    | fn h => rfl
    | annotated => rfl
    | data h1 h2 h3 =>
      have : ∀ {e : Sem.Env K} {as ws}, Sem.resolveAll M.P.sem e as = .ok ws → as.length = ws.length := by
        intro e as
        induction as with
        | nil => intro ws h; cases h; rfl
        | cons r as ih =>
          intro ws h
          simp only [Sem.resolveAll] at h
          split at h
          · cases h
          · split at h
            · cases h
            · cases h
              rename_i h
              simp [ih h]
      simp only [h2.length, this h1]

theorem resolveAll_get {e : Sem.Env K} {as ws} (h : Sem.resolveAll M.P.sem e as = .ok ws) {i : Nat} :
    (∀ r, as[i]? = some r → ∃ w, ws[i]? = some w ∧ Sem.resolve M.P.sem e r = .ok w) ∧
    (∀ w, ws[i]? = some w → ∃ r, as[i]? = some r ∧ Sem.resolve M.P.sem e r = .ok w) := by
  induction as generalizing ws i with
  | nil => cases h; simp
  | cons r as ih =>
    simp only [Sem.resolveAll] at h
    split at h
    · cases h
    · rename_i w hw
      split at h
      · cases h
      · rename_i ws' hws
        cases h
        cases i with
        | zero => simp [hw]
        | succ i => simpa using ih hws (i := i)

theorem All2.left {A B : Type} {R : A → B → Prop} {l m} (h : All2 R l m) {i : Nat} {a} (ha : l[i]? = some a) :
    ∃ b, m[i]? = some b ∧ R a b := by
  cases hb : m[i]? with
  | none =>
    have h1 := h.length
    have h2 := List.getElem?_eq_none_iff.mp hb
    have h3 := (List.getElem?_eq_some_iff.mp ha).1
    omega
  | some b => exact ⟨b, rfl, h.get ha hb⟩

theorem All2.right {A B : Type} {R : A → B → Prop} {l m} (h : All2 R l m) {i : Nat} {b} (hb : m[i]? = some b) :
    ∃ a, l[i]? = some a ∧ R a b := by
  cases ha : l[i]? with
  | none =>
    have h1 := h.length
    have h2 := List.getElem?_eq_none_iff.mp ha
    have h3 := (List.getElem?_eq_some_iff.mp hb).1
    omega
  | some a => exact ⟨a, rfl, h.get ha hb⟩

include F in
theorem finds_fwd {p} {v : Val K} {w s} (hv : VR M v w) (h : Finds M.P p v s)
    (hl : M.exact ∨ ∀ x, s ≠ .error x) : Opt.Finds M.P.sem p w s := by
  induction p generalizing v w with
  | nil =>
    obtain ⟨n, r, h1, h2⟩ := h
    have hc : Calm M r := by
      rcases hl with hl | hl
      · exact .inr hl
      · cases r with
        | ok u => exact .inl ⟨u, rfl⟩
        | error x => simp only [seen, Option.some.injEq] at h2; exact absurd h2.symm (hl x)
    obtain ⟨n', r', a, b⟩ := fwd_all F n _ _ _ _ _ hv (.cons .top .nil) h1 hc
    obtain ⟨m, hm⟩ := Sem.program_complete M.P.sem a
    exact ⟨m, r', hm, by rw [← seen_rel F b]; exact h2⟩
  | cons i p ih =>
    obtain ⟨n, w1, t, vs, u, h1, h2, h3, h5⟩ := h
    obtain ⟨n', r', a, b⟩ := fwd_all F n _ _ _ _ _ hv (.cons .top .nil) h1 (.inl ⟨_, rfl⟩)
    obtain ⟨m, hm⟩ := Sem.program_complete M.P.sem a
    cases b with
    | @ok _ w2 b =>
      have hs := b.shape F
      rw [h2] at hs
      generalize hb : Sem.shape w2 = b' at hs
      cases hs with
      | data h6 h7 h8 =>
        obtain ⟨u', h9, h10⟩ := h7.left h3
        obtain ⟨r, h11, h12⟩ := (resolveAll_get h6).2 u' h9
        exact ⟨m, _, t, _, _, r, u', hm, hb, h11, h12, ih h10 h5⟩

include F in
theorem finds_bwd {p} {v : Val K} {w s} (hv : VR M v w) (h : Opt.Finds M.P.sem p w s)
    (hl : M.exact ∨ ∀ x, s ≠ .error x) : Finds M.P p v s := by
  induction p generalizing v w with
  | nil =>
    obtain ⟨n, r, h1, h2⟩ := h
    obtain ⟨k, ht⟩ := Sem.program_sound M.P.sem h1
    have hc : Calm M r := by
      rcases hl with hl | hl
      · exact .inr hl
      · cases r with
        | ok u => exact .inl ⟨u, rfl⟩
        | error x => simp only [Sem.seen, Option.some.injEq] at h2; exact absurd h2.symm (hl x)
    obtain ⟨n', r', a, b⟩ := bwd_all F k _ _ _ _ _ hv (.cons .top .nil) ht hc
    exact ⟨n', r', a, by rw [seen_rel F b]; exact h2⟩
  | cons i p ih =>
    obtain ⟨n, w1, t, as, e, r, u, h1, h2, h3, h4, h5⟩ := h
    obtain ⟨k, ht⟩ := Sem.program_sound M.P.sem h1
    obtain ⟨n', r', a, b⟩ := bwd_all F k _ _ _ _ _ hv (.cons .top .nil) ht (.inl ⟨_, rfl⟩)
    cases b with
    | @ok v2 _ b =>
      have hs := b.shape F
      rw [h2] at hs
      generalize hb : shape M.P v2 = b' at hs
      cases hs with
      | data h6 h7 h8 =>
        obtain ⟨u1, h9, h10⟩ := (resolveAll_get h6).1 r h3
        cases h10.symm.trans h4
        obtain ⟨u2, h11, h12⟩ := h7.right h9
        exact ⟨n', _, t, _, u2, a, hb, h11, ih h12 h5⟩
end

end Verif.Comp
