import Verif.SemCek

/-!
# Values that stand for each other

`Red P v v'`: `v'` is `v`, further on in its evaluation or with such values in its environment.  Putting `v'` for `v`
changes neither whether evaluation ends nor what it ends with, and it takes no more steps.
-/

namespace Verif.Sem
open Verif.Bc
variable {K : Type}

inductive All2 {A : Type} (R : A → A → Prop) : List A → List A → Prop where
  | nil : All2 R [] []
  | cons {a b l m} : R a b → All2 R l m → All2 R (a :: l) (b :: m)

mutual
inductive Red (P : World K) : Val K → Val K → Prop where
  | refl (v) : Red P v v
  | env {a c e e'} : ERed P e e' → Red P (.clo a c e) (.clo a c e')
  | steps {n v v1 v'} : Steps P n (v, []) (v1, []) → Red P v1 v' → Red P v v'
inductive ERed (P : World K) : Env K → Env K → Prop where
  | ext {e e'} : (∀ i, (lookup e i).isSome = (lookup e' i).isSome) →
      (∀ i v v', lookup e i = some v → lookup e' i = some v' → Red P v v') → ERed P e e'
  | recs {fs e e'} : ERed P e e' → ERed P (.recs fs e) (.recs fs e')
end

inductive ORel (R : Val K → Val K → Prop) : Option (Val K) → Option (Val K) → Prop where
  | none : ORel R none none
  | some {v v'} : R v v' → ORel R (some v) (some v')

theorem ERed.refl {P : World K} (e : Env K) : ERed P e e :=
  .ext (fun _ => rfl) fun i v v' h h' => by rw [h] at h'; cases h'; exact .refl _

theorem ERed.lookup {P : World K} {e e' : Env K} (h : ERed P e e') (i : Nat) :
    ORel (Red P) (lookup e i) (lookup e' i) := by
  match h with
  | .ext h1 h2 =>
    have h1 := h1 i
    have h2 := h2 i
    revert h1 h2
    cases Sem.lookup e i <;> cases Sem.lookup e' i <;> intro h1 h2 <;> simp at h1
    · exact .none
    · exact .some (h2 _ _ rfl rfl)
  | .recs (fs := fs) (e := e0) (e' := e0') h =>
    unfold Sem.lookup
    split
    · exact .some (.env (.recs h))
    · exact ERed.lookup h _
termination_by structural h

theorem ERed.cons {P : World K} {v v' e e'} (hv : Red P v v') (he : ERed P e e') : ERed P (.cons v e) (.cons v' e') := by
  refine .ext (fun i => ?_) (fun i u u' h h' => ?_)
  · simp only [Sem.lookup]
    split
    · rfl
    · have := he.lookup (i - 1)
      revert this
      generalize Sem.lookup e (i - 1) = a
      generalize Sem.lookup e' (i - 1) = b
      intro this
      cases this <;> rfl
  · simp only [Sem.lookup] at h h'
    split at h
    · simp_all
    · rename_i hi
      rw [if_neg hi] at h'
      have := he.lookup (i - 1)
      rw [h, h'] at this
      cases this; assumption

theorem ERed.consAll {P : World K} {vs vs' e e'} (hv : All2 (Red P) vs vs') (he : ERed P e e') :
    ERed P (consAll vs e) (consAll vs' e') := by
  induction hv with
  | nil => exact he
  | cons h _ ih => exact .cons h ih

/-- Values that are alike at the head. -/
inductive HRed (P : World K) : Val K → Val K → Prop where
  | nat (k) : HRed P (.nat k) (.nat k)
  | clo {a c e e'} : ERed P e e' → HRed P (.clo a c e) (.clo a c e')

theorem HRed.refl {P : World K} (v : Val K) : HRed P v v := by
  cases v with
  | nat k => exact .nat k
  | clo a c e => exact .clo (.refl e)

theorem HRed.red {P : World K} {v v' : Val K} (h : HRed P v v') : Red P v v' := by
  cases h with
  | nat k => exact .refl _
  | clo h => exact .env h

theorem Red.head {P : World K} {v v' : Val K} (h : Red P v v') : ∃ k v1, Steps P k (v, []) (v1, []) ∧ HRed P v1 v' := by
  match h with
  | .refl v => exact ⟨0, v, .refl _, .refl _⟩
  | .env h => exact ⟨0, _, .refl _, .clo h⟩
  | .steps s h =>
    obtain ⟨k, v1, s', h'⟩ := Red.head h
    exact ⟨_, v1, s.trans s', h'⟩
termination_by structural h

inductive FRed (P : World K) : Fr K → Fr K → Prop where
  | case {bs fb e e'} : ERed P e e' → FRed P (.case bs fb e) (.case bs fb e')
  | apply {vs vs'} : All2 (Red P) vs vs' → FRed P (.apply vs) (.apply vs')
  | demeta {h o e e'} : ERed P e e' → FRed P (.demeta h o e) (.demeta h o e')
  | seq {b e e'} : ERed P e e' → FRed P (.seq b e) (.seq b e')
  | fusedL {id r e e'} : ERed P e e' → FRed P (.fusedL id r e) (.fusedL id r e')
  | fusedR {id l l'} : HRed P l l' → FRed P (.fusedR id l) (.fusedR id l')
  | prim {id ds ds' vs vs'} : All2 (HRed P) ds ds' → All2 (Red P) vs vs' →
      FRed P (.prim id ds vs) (.prim id ds' vs')
  | top : FRed P .top .top

theorem all2_refl {A : Type} {R : A → A → Prop} (h : ∀ a, R a a) (l : List A) : All2 R l l := by
  induction l with
  | nil => exact .nil
  | cons a l ih => exact .cons (h a) ih

theorem FRed.refl {P : World K} (f : Fr K) : FRed P f f := by
  cases f with
  | case => exact .case (.refl _)
  | apply => exact .apply (all2_refl .refl _)
  | demeta => exact .demeta (.refl _)
  | seq => exact .seq (.refl _)
  | fusedL => exact .fusedL (.refl _)
  | fusedR => exact .fusedR (.refl _)
  | prim => exact .prim (all2_refl .refl _) (all2_refl .refl _)
  | top => exact .top

/-- Results alike. -/
inductive XRel {A : Type} (R : A → A → Prop) : Except Err A → Except Err A → Prop where
  | ok {v v'} : R v v' → XRel R (.ok v) (.ok v')
  | error (x) : XRel R (.error x) (.error x)

abbrev Reds2 (P : World K) : List (Fr K) → List (Fr K) → Prop := All2 (FRed P)

inductive SRel (P : World K) : SRes K → SRes K → Prop where
  | next {v S v' S'} : Red P v v' → Reds2 P S S' → SRel P (.next (v, S)) (.next (v', S'))
  | done {v v'} : HRed P v v' → SRel P (.done v) (.done v')
  | err (x) : SRel P (.err x) (.err x)

theorem resolve_red {P : World K} {e e'} (h : ERed P e e') (r : Ref K) : XRel (Red P) (resolve P e r) (resolve P e' r) := by
  cases r with
  | l i =>
    simp only [resolve]
    have := h.lookup i
    revert this
    generalize lookup e i = a
    generalize lookup e' i = b
    intro this
    cases this with
    | none => exact .error _
    | some h => exact .ok h
  | g i =>
    simp only [resolve, global]
    split
    · exact .ok (.refl _)
    · exact .error _
  | v k => exact .ok (.refl _)

theorem resolveAll_red {P : World K} {e e'} (h : ERed P e e') (rs : List (Ref K)) :
    XRel (All2 (Red P)) (resolveAll P e rs) (resolveAll P e' rs) := by
  induction rs with
  | nil => exact .ok .nil
  | cons r rs ih =>
    simp only [resolveAll]
    have := resolve_red h r
    revert this
    generalize resolve P e r = a
    generalize resolve P e' r = b
    intro this
    cases this with
    | error x => exact .error x
    | ok h =>
      revert ih
      generalize resolveAll P e rs = a
      generalize resolveAll P e' rs = b
      intro ih
      cases ih with
      | error x => exact .error x
      | ok hs => exact .ok (.cons h hs)

theorem fallback_red {P : World K} {v v' e e'} (hv : Red P v v') (he : ERed P e e') (fb : Fb K) (x : Err) :
    XRel (Red P) (fallback v fb e x) (fallback v' fb e' x) := by
  cases fb with
  | none => exact .error _
  | some b => exact .ok (.env (.cons hv he))

/-- The shapes of values alike at the head. -/
inductive ShRel (P : World K) : Shape K → Shape K → Prop where
  | nat (k) : ShRel P (.nat k) (.nat k)
  | fn {a c e e'} : ERed P e e' → ShRel P (.fn a c e) (.fn a c e')
  | data {t as e e'} : ERed P e e' → ShRel P (.data t as e) (.data t as e')
  | annotated {m b e e'} : ERed P e e' → ShRel P (.annotated m b e) (.annotated m b e')
  | busy : ShRel P .busy .busy

theorem HRed.shape {P : World K} {v v'} (h : HRed P v v') : ShRel P (shape v) (shape v') := by
  cases h with
  | nat k => exact .nat k
  | @clo a c e e' h =>
    cases a with
    | succ a => exact .fn h
    | zero =>
      cases c <;> simp only [Sem.shape] <;> first | exact .busy | exact .data h | exact .annotated h

theorem HRed.whnf {P : World K} {v v'} (h : HRed P v v') : Whnf v = Whnf v' := by
  unfold Whnf
  have := h.shape
  revert this
  generalize Sem.shape v = a
  generalize Sem.shape v' = b
  intro this
  cases this <;> rfl

theorem onCase_red {P : World K} {v v' e e'} (hv : HRed P v v') (he : ERed P e e') (bs : Brs K) (fb : Fb K) :
    XRel (Red P) (onCase P v bs fb e) (onCase P v' bs fb e') := by
  unfold onCase
  have := hv.shape
  revert this
  generalize shape v = a
  generalize shape v' = b
  intro this
  cases this with
  | nat k => exact fallback_red hv.red he _ _
  | fn h => exact fallback_red hv.red he _ _
  | annotated => exact .error _
  | busy => exact .error _
  | @data t as d d' h =>
    dsimp only
    split
    · have := resolveAll_red h as
      revert this
      generalize resolveAll P d as = a
      generalize resolveAll P d' as = b
      intro this
      cases this with
      | error x => exact .error x
      | ok hs => exact .ok (.env (.consAll hs he))
    · exact fallback_red hv.red he _ _

/-- What `onApply` gives, alike. -/
def ARel (P : World K) (p q : Val K × Option (List (Val K))) : Prop :=
  Red P p.1 q.1 ∧ match p.2, q.2 with
    | none, none => True
    | some vs, some vs' => All2 (Red P) vs vs'
    | _, _ => False

theorem all2_append {A : Type} {R : A → A → Prop} {a b c d : List A} (h : All2 R a b)
    (h' : All2 R c d) : All2 R (a ++ c) (b ++ d) := by
  induction h with
  | nil => exact h'
  | cons x _ ih => exact .cons x ih

theorem all2_take {A : Type} {R : A → A → Prop} {a b : List A} (h : All2 R a b) (n : Nat) :
    All2 R (a.take n) (b.take n) := by
  induction h generalizing n with
  | nil => simpa using All2.nil
  | cons x _ ih => cases n with
    | zero => exact .nil
    | succ n => exact .cons x (ih n)

theorem all2_drop {A : Type} {R : A → A → Prop} {a b : List A} (h : All2 R a b) (n : Nat) :
    All2 R (a.drop n) (b.drop n) := by
  induction h generalizing n with
  | nil => simpa using All2.nil
  | cons x t ih => cases n with
    | zero => exact .cons x t
    | succ n => exact ih n

theorem all2_length {A : Type} {R : A → A → Prop} {a b : List A} (h : All2 R a b) : a.length = b.length := by
  induction h with
  | nil => rfl
  | cons _ _ ih => simp [ih]

theorem onApply_red {P : World K} {v v' vs vs'} (hv : HRed P v v') (hs : All2 (Red P) vs vs') :
    XRel (ARel P) (onApply P v vs) (onApply P v' vs') := by
  unfold onApply
  have hl := all2_length hs
  have := hv.shape
  revert this
  generalize shape v = a
  generalize shape v' = b
  intro this
  cases this with
  | nat k => exact .error _
  | annotated => exact .error _
  | busy => exact .error _
  | fn h =>
    dsimp only
    rw [hl]
    split
    · exact .ok ⟨.env (.consAll hs h), trivial⟩
    · split
      · exact .ok ⟨.env (.consAll (.cons hv.red hs) h), trivial⟩
      · exact .ok ⟨.env (.consAll (all2_take hs _) h), all2_drop hs _⟩
  | data h =>
    dsimp only
    split
    · cases global P P.merge with
      | ok m => exact .ok ⟨.refl _, all2_append hs (.cons hv.red .nil)⟩
      | error x => exact .error _
    · exact .error _

theorem eagerBad_red {P : World K} {e e'} (h : ERed P e e') (rs : List (Ref K)) : eagerBad e rs = eagerBad e' rs := by
  induction rs with
  | nil => rfl
  | cons r rs ih =>
    cases r with
    | l i =>
      simp only [eagerBad]
      have := h.lookup i
      revert this
      generalize lookup e i = a
      generalize lookup e' i = b
      intro this
      cases this with
      | none => rfl
      | some _ => exact ih
    | g i => exact ih
    | v k => exact ih

theorem lazily_red {P : World K} {e e'} (h : ERed P e e') (rs : List (Ref K)) :
    All2 (Red P) (lazily e rs) (lazily e' rs) := by
  induction rs with
  | nil => exact .nil
  | cons r rs ih => exact .cons (.env h) ih

theorem app_red {P : World K} {e e'} (h : ERed P e e') (f : Ref K) (args : List (Ref K)) (eager : Bool) :
    XRel (fun p q => Red P p.1 q.1 ∧ All2 (Red P) p.2 q.2) (app P e f args eager) (app P e' f args eager) := by
  unfold app
  rw [eagerBad_red h]
  split
  · exact .error _
  · have : XRel (Red P) (callee P e f) (callee P e' f) := by
      cases f with
      | v k => exact .error _
      | l i => exact resolve_red h (.l i)
      | g i => exact resolve_red h (.g i)
    revert this
    generalize callee P e f = a
    generalize callee P e' f = b
    intro this
    cases this with
    | error x => exact .error x
    | ok hv => exact .ok ⟨hv, lazily_red h args⟩

def URel (P : World K) (p q : Option (Val K)) : Prop := ORel (Red P) p q

theorem unbox_red {P : World K} {v v'} (hv : HRed P v v') : XRel (URel P) (unbox P v) (unbox P v') := by
  unfold unbox
  have := hv.shape
  revert this
  generalize shape v = a
  generalize shape v' = b
  intro this
  cases this with
  | @data t as e e' h =>
    dsimp only
    split
    · cases as with
      | nil => exact .error _
      | cons r rs =>
        dsimp only
        have := resolve_red h r
        revert this
        generalize resolve P e r = a
        generalize resolve P e' r = b
        intro this
        cases this with
        | error x => exact .error x
        | ok h => exact .ok (.some h)
    · exact .ok .none
  | _ => exact .ok .none

theorem natives_red {P : World K} {vs vs'} (h : All2 (HRed P) vs vs') : natives vs = natives vs' := by
  induction h with
  | nil => rfl
  | cons h _ ih =>
    cases h with
    | nat k => simp only [natives, ih]
    | clo => rfl

theorem intrinsic_red {P : World K} {id vs vs'} (h : All2 (HRed P) vs vs') :
    intrinsic P id vs = intrinsic P id vs' := by
  unfold intrinsic
  rw [natives_red h]

theorem SRel.of {P : World K} {r r' S S'} (h : XRel (Red P) r r') (hS : Reds2 P S S') :
    SRel P (.of r S) (.of r' S') := by
  cases h with
  | ok h => exact .next h hS
  | error x => exact .err x

theorem exec_red {P : World K} {c e e' S S'} (he : ERed P e e') (hS : Reds2 P S S') :
    SRel P (exec P c e S) (exec P c e' S') := by
  cases c with
  | atom r => exact .of (resolve_red he r) hS
  | case scr bs fb => exact .next (.env he) (.cons (.case he) hS)
  | app f args eager =>
    simp only [exec]
    have := app_red he f args eager
    revert this
    generalize app P e f args eager = a
    generalize app P e' f args eager = b
    intro this
    cases this with
    | error x => exact .err x
    | ok h => exact .next h.1 (.cons (.apply h.2) hS)
  | dapp smid f args eager =>
    simp only [exec]
    have := app_red he f args eager
    revert this
    generalize app P e f args eager = a
    generalize app P e' f args eager = b
    intro this
    cases this with
    | error x => exact .err x
    | ok h => exact .next h.1 (.cons (.apply h.2) hS)
  | «bif» id args =>
    simp only [exec]
    have := resolveAll_red he args
    revert this
    generalize resolveAll P e args = a
    generalize resolveAll P e' args = b
    intro this
    cases this with
    | error x => exact .err x
    | ok h =>
      cases h with
      | nil =>
        dsimp only
        cases intrinsic P id [] with
        | ok u => exact .next (.refl _) hS
        | error x => exact .err x
      | cons h hs => exact .next h (.cons (.prim .nil hs) hS)
  | let_ fs body =>
    refine .next (.env (.consAll ?_ he)) hS
    induction Sem.forms fs with
    | nil => exact .nil
    | cons f l ih => exact .cons (.env he) ih
  | letrec fs body => exact .next (.env (.recs he)) hS
  | ann _ body => exact .next (.env he) hS
  | demeta scr h o => exact .next (.env he) (.cons (.demeta he) hS)
  | seq scr body => exact .next (.env he) (.cons (.seq he) hS)
  | fused id l r => exact .next (.env he) (.cons (.fusedL he) hS)
  | lookup => exact .err _
  | hole => exact .err _
  | cons => exact .err _
  | metaOf => exact .err _

theorem give_red {P : World K} {w w' S S' fr fr'} (hw : HRed P w w') (hS : Reds2 P S S') (hf : FRed P fr fr') :
    SRel P (give P w S fr) (give P w' S' fr') := by
  cases hf with
  | case he => exact .of (onCase_red hw he _ _) hS
  | apply hs =>
    rename_i vs vs'
    simp only [give]
    have := onApply_red hw hs
    revert this
    generalize onApply P w vs = a
    generalize onApply P w' vs' = b
    intro this
    cases this with
    | error x => exact .err x
    | @ok p q h =>
      obtain ⟨u, more⟩ := p
      obtain ⟨u', more'⟩ := q
      obtain ⟨h1, h2⟩ := h
      cases more <;> cases more' <;> simp only at h2
      · exact .next h1 hS
      · exact .next h1 (.cons (.apply h2) hS)
  | demeta he => exact .next (.env (.cons hw.red he)) hS
  | seq he => exact .next (.env he) hS
  | fusedL he =>
    simp only [give]
    have := unbox_red hw
    revert this
    generalize unbox P w = a
    generalize unbox P w' = b
    intro this
    cases this with
    | error x => exact .err x
    | ok h => cases h with
      | none => exact .next (.env he) (.cons (.fusedR hw) hS)
      | some h => exact .next h (.cons (.fusedL he) hS)
  | fusedR hl =>
    rename_i id l l'
    simp only [give]
    have hi : intrinsic P id [l, w] = intrinsic P id [l', w'] := intrinsic_red (.cons hl (.cons hw .nil))
    have := unbox_red hw
    revert this
    generalize unbox P w = a
    generalize unbox P w' = b
    intro this
    cases this with
    | error x => exact .err x
    | ok h => cases h with
      | none =>
        dsimp only
        rw [hi]
        cases intrinsic P id [l', w'] with
        | ok u => exact .next (.refl _) hS
        | error x => exact .err x
      | some h => exact .next h (.cons (.fusedR hl) hS)
  | prim hd hs =>
    cases hs with
    | nil =>
      simp only [give]
      rw [intrinsic_red (all2_append hd (.cons hw .nil))]
      exact .of (by cases intrinsic P _ _ with | ok u => exact .ok (.refl _) | error x => exact .error x) hS
    | cons h hs => exact .next h (.cons (.prim (all2_append hd (.cons hw .nil)) hs) hS)
  | top => exact .next hw.red hS

theorem giveMeta_red {P : World K} {m b e e' S S' fr fr'} (he : ERed P e e') (hS : Reds2 P S S') (hf : FRed P fr fr') :
    SRel P (giveMeta P m b e S fr) (giveMeta P m b e' S' fr') := by
  have hb := resolve_red he b
  cases hf with
  | demeta hd =>
    simp only [giveMeta]
    have := resolveAll_red he [m, b]
    revert this
    generalize resolveAll P e [m, b] = a
    generalize resolveAll P e' [m, b] = b
    intro this
    cases this with
    | error x => exact .err x
    | ok h => exact .next (.env (.consAll h hd)) hS
  | top =>
    simp only [giveMeta]
    have := resolveAll_red he [m, b]
    revert this
    generalize resolveAll P e [m, b] = a
    generalize resolveAll P e' [m, b] = b
    intro this
    cases this with
    | error x => exact .err x
    | ok h =>
      cases h with
      | nil => exact .err _
      | cons h1 h => cases h with
        | nil => exact .err _
        | cons h2 h => cases h with
          | nil => exact .next h2 (.cons .top hS)
          | cons _ _ => exact .err _
  | case he => exact .of hb (.cons (.case he) hS)
  | apply hs => exact .of hb (.cons (.apply hs) hS)
  | seq he => exact .of hb (.cons (.seq he) hS)
  | fusedL he => exact .of hb (.cons (.fusedL he) hS)
  | fusedR hl => exact .of hb (.cons (.fusedR hl) hS)
  | prim hd hs => exact .of hb (.cons (.prim hd hs) hS)

theorem sstep_red {P : World K} {v v' S S'} (hv : HRed P v v') (hS : Reds2 P S S') :
    SRel P (sstep P (v, S)) (sstep P (v', S')) := by
  cases hv with
  | nat k =>
    cases hS with
    | nil => exact .done (.nat k)
    | cons hf hS => exact give_red (.nat k) hS hf
  | @clo a c e e' he =>
    have hv : HRed P (.clo a c e) (.clo a c e') := .clo he
    cases a with
    | succ a =>
      cases hS with
      | nil => exact .done hv
      | cons hf hS => exact give_red hv hS hf
    | zero =>
      cases c with
      | cons t as =>
        cases hS with
        | nil => exact .done hv
        | cons hf hS => exact give_red hv hS hf
      | metaOf m b =>
        cases hS with
        | nil => exact .done hv
        | cons hf hS => exact giveMeta_red he hS hf
      | _ => simp only [sstep]; exact exec_red he hS

/-- Ends alike. -/
abbrev ORed (P : World K) : R K → R K → Prop := XRel (HRed P)

theorem red_fwd {P : World K} {n v v' S S' r} (hv : Red P v v') (hS : Reds2 P S S') (h : Term P n (v, S) r) :
    ∃ n' r', n' ≤ n ∧ Term P n' (v', S') r' ∧ ORed P r r' := by
  induction n using Nat.strongRecOn generalizing v v' S S' with
  | ind n ih =>
    obtain ⟨k, v1, s, hh⟩ := hv.head
    obtain ⟨hk, ht⟩ := (show Steps P k (v, S) (v1, S) by simpa using s.under S).unterm h
    clear h
    have hs := sstep_red hh hS
    generalize hj : n - k = j at ht
    cases ht with
    | done h => rw [h] at hs; generalize hq : sstep P (v', S') = q at hs; cases hs with
      | done hd => exact ⟨0, _, by omega, .done hq, .ok hd⟩
    | err h => rw [h] at hs; generalize hq : sstep P (v', S') = q at hs; cases hs with
      | err x => exact ⟨0, _, by omega, .err hq, .error _⟩
    | next h t => rw [h] at hs; generalize hq : sstep P (v', S') = q at hs; cases hs with
      | next hr hS' =>
        obtain ⟨n', r', hn, ht, ho⟩ := ih _ (by omega) hr hS' t
        exact ⟨n' + 1, r', by omega, .next hq ht, ho⟩

theorem red_bwd {P : World K} {n v v' S S' r} (hv : Red P v v') (hS : Reds2 P S S') (h : Term P n (v', S') r) :
    ∃ n' r', Term P n' (v, S) r' ∧ ORed P r' r := by
  induction n using Nat.strongRecOn generalizing v v' S S' with
  | ind n ih =>
    obtain ⟨k, v1, s, hh⟩ := hv.head
    have s : Steps P k (v, S) (v1, S) := by simpa using s.under S
    have hs := sstep_red hh hS
    cases h with
    | done h => rw [h] at hs; generalize hq : sstep P (v1, S) = q at hs; cases hs with
      | done hd => exact ⟨_, _, s.term (.done hq), .ok hd⟩
    | err h => rw [h] at hs; generalize hq : sstep P (v1, S) = q at hs; cases hs with
      | err => exact ⟨_, _, s.term (.err hq), .error _⟩
    | next h t => rw [h] at hs; generalize hq : sstep P (v1, S) = q at hs; cases hs with
      | next hr hS' =>
        obtain ⟨n', r', ht, ho⟩ := ih _ (by omega) hr hS' t
        exact ⟨_, r', s.term (.next hq ht), ho⟩

/-! ## Chains -/

inductive Reds (P : World K) : Val K → Val K → Prop where
  | refl (v) : Reds P v v
  | cons {a b c} : Red P a b → Reds P b c → Reds P a c

theorem Reds.one {P : World K} {a b} (h : Red P a b) : Reds P a b := .cons h (.refl _)

theorem Reds.trans {P : World K} {a b c} (h : Reds P a b) (h' : Reds P b c) : Reds P a c := by
  induction h with
  | refl => exact h'
  | cons h _ ih => exact .cons h (ih h')

/-- Ends alike through any number of stand-ins. -/
abbrev Ends (P : World K) : R K → R K → Prop := XRel (Reds P)

theorem Ends.refl {P : World K} (r) : Ends P r r := by
  cases r with
  | ok v => exact .ok (.refl _)
  | error x => exact .error x

theorem Ends.trans {P : World K} {a b c} (h : Ends P a b) (h' : Ends P b c) : Ends P a c := by
  cases h with
  | error x => exact h'
  | ok h => cases h' with
    | ok h' => exact .ok (h.trans h')

theorem ORed.ends {P : World K} {a b} (h : ORed P a b) : Ends P a b := by
  cases h with
  | ok h => exact .ok (.one h.red)
  | error x => exact .error x

/-- From `d` to `d'` in at least `δ` steps, stand-ins allowed. -/
structure Leads (P : World K) (δ : Nat) (d d' : Cfg K) : Prop where
  fwd : ∀ n r, Term P n d r → ∃ n' r', n' + δ ≤ n ∧ Term P n' d' r' ∧ Ends P r r'
  bwd : ∀ n' r', Term P n' d' r' → ∃ n r, Term P n d r ∧ Ends P r r'

theorem Leads.refl {P : World K} (d) : Leads P 0 d d :=
  ⟨fun n r h => ⟨n, r, Nat.le_refl _, h, .refl _⟩, fun n r h => ⟨n, r, h, .refl _⟩⟩

theorem Leads.trans {P : World K} {δ ε d d' d''} (h : Leads P δ d d') (h' : Leads P ε d' d'') : Leads P (δ + ε) d d'' := by
  refine ⟨fun n r t => ?_, fun n r t => ?_⟩
  · obtain ⟨n', r', a, b, c⟩ := h.fwd n r t
    obtain ⟨n'', r'', a', b', c'⟩ := h'.fwd n' r' b
    exact ⟨n'', r'', by omega, b', c.trans c'⟩
  · obtain ⟨n', r', b, c⟩ := h'.bwd n r t
    obtain ⟨n'', r'', b', c'⟩ := h.bwd n' r' b
    exact ⟨n'', r'', b', c'.trans c⟩

theorem Leads.weaken {P : World K} {δ ε d d'} (h : Leads P δ d d') (hle : ε ≤ δ) : Leads P ε d d' :=
  ⟨fun n r t => by obtain ⟨n', r', a, b, c⟩ := h.fwd n r t; exact ⟨n', r', by omega, b, c⟩, h.bwd⟩

theorem Leads.of_steps {P : World K} {k d d'} (h : Steps P k d d') : Leads P k d d' :=
  ⟨fun n r t => by have := h.unterm t; exact ⟨_, r, by omega, this.2, .refl _⟩,
   fun n r t => ⟨_, r, h.term t, .refl _⟩⟩

theorem Leads.of_step {P : World K} {d d'} (h : sstep P d = .next d') : Leads P 1 d d' := .of_steps (.one h)

theorem Leads.of_red {P : World K} {v v' S S'} (hv : Red P v v') (hS : Reds2 P S S') : Leads P 0 (v, S) (v', S') :=
  ⟨fun n r t => by obtain ⟨n', r', a, b, c⟩ := red_fwd hv hS t; exact ⟨n', r', a, b, ORed.ends c⟩,
   fun n r t => by obtain ⟨n', r', b, c⟩ := red_bwd hv hS t; exact ⟨n', r', b, ORed.ends c⟩⟩

theorem reds2_refl {P : World K} (S : List (Fr K)) : Reds2 P S S := all2_refl .refl S

theorem Leads.of_reds {P : World K} {v v'} (hv : Reds P v v') (S : List (Fr K)) : Leads P 0 (v, S) (v', S) := by
  induction hv with
  | refl => exact .refl _
  | cons h _ ih => exact Leads.trans (δ := 0) (ε := 0) (.of_red h (reds2_refl S)) ih

/-- A step, then stand-ins. -/
theorem Leads.step_red {P : World K} {d v S v' S'} (h : sstep P d = .next (v, S)) (hv : Red P v v') (hS : Reds2 P S S') :
    Leads P 1 d (v', S') := Leads.trans (δ := 1) (ε := 0) (.of_step h) (.of_red hv hS)

theorem Leads.step_reds {P : World K} {d v S v'} (h : sstep P d = .next (v, S)) (hv : Reds P v v') :
    Leads P 1 d (v', S) := Leads.trans (δ := 1) (ε := 0) (.of_step h) (.of_reds hv S)

theorem steps_whnf {P : World K} {n v c} (hv : Whnf v = true) (h : Steps P n (v, []) c) : n = 0 ∧ c = (v, []) := by
  cases h with
  | refl => exact ⟨rfl, rfl⟩
  | next h => rw [sstep_whnf hv] at h; cases h

theorem Red.whnf {P : World K} {v v'} (h : Red P v v') (hv : Whnf v = true) : HRed P v v' := by
  obtain ⟨k, v1, s, hh⟩ := h.head
  have := (steps_whnf hv s).2
  cases this; exact hh

/-- Once a value, what can be seen of it is settled. -/
theorem Reds.seen {P : World K} {v v'} (h : Reds P v v') (hv : Whnf v = true) : seen (.ok v) = Sem.seen (.ok v') := by
  induction h with
  | refl => rfl
  | cons h _ ih =>
    have hh := h.whnf hv
    rw [← ih (hh.whnf ▸ hv)]
    unfold Sem.seen
    dsimp only
    have := hh.shape
    revert this
    generalize Sem.shape _ = a
    generalize Sem.shape _ = b
    intro this
    cases this <;> rfl

end Verif.Sem
