import Verif.CompInv
import Verif.OptSim

/-!
# Core expressions and the code they become

Proofs only.
-/

namespace Verif.Comp
open Verif.Bc
open Verif.Opt (wf wfForms wfBrs wfFb okRef count fieldsOf)
variable {K : Type}

inductive Steps (P : World K) : Nat → Cfg K → Cfg K → Prop where
  | refl (c) : Steps P 0 c c
  | next {c c' d n} : step P c = .next c' → Steps P n c' d → Steps P (n + 1) c d

/-- Lists alike, member by member. -/
inductive All2 {A B : Type} (R : A → B → Prop) : List A → List B → Prop where
  | nil : All2 R [] []
  | cons {a b l m} : R a b → All2 R l m → All2 R (a :: l) (b :: m)

inductive XRel {A B : Type} (R : A → B → Prop) : Except Sem.Err A → Except Sem.Err B → Prop where
  | ok {a b} : R a b → XRel R (.ok a) (.ok b)
  | error (x) : XRel R (.error x) (.error x)

/-- What relations are about: how to compile, what is around, and what may be forced early. -/
structure Mode (K : Type) where
  cfg : Config K
  P : World K
  /-- Nothing is forced early. -/
  exact : Prop

def Mode.globals (M : Mode K) : Nat := M.P.sem.globals.length

/-- What is forced early is needed anyway. -/
def Mark (M : Mode K) (v u : Val K) : Prop := ¬ M.exact ∧ Needs M.P v u

def HM (M : Mode K) (x : Exp K) (ρ : Scopes K) : Prop := ∃ E, E ρ ∧ Marked (Mark M) M.cfg x E
def HMAll (M : Mode K) (xs : Exps K) (ρ : Scopes K) : Prop := ∃ E, E ρ ∧ MarkedAll (Mark M) M.cfg xs E
def HMBinds (M : Mode K) (bs : Binds K) (ρ : Scopes K) : Prop := ∃ E, E ρ ∧ MarkedBinds (Mark M) M.cfg bs E
def HMKvs (M : Mode K) (kvs : Kvs K) (ρ : Scopes K) : Prop := ∃ E, E ρ ∧ MarkedKvs (Mark M) M.cfg kvs E

mutual
/-- `w` after compilation stands for `v` before. -/
inductive VR (M : Mode K) : Val K → Sem.Val K → Prop where
  | nat (k) : VR M (.nat k) (.nat k)
  | clo {a c e e' d} : DR M d e e' → wf M.globals (d + a) c = true → VR M (.clo a c e) (.clo a c e')
  | con {t vs as e'} : as.length = vs.length → fieldsOf t = some vs.length →
      (∀ r ∈ as, ∃ w, Sem.resolve M.P.sem e' r = .ok w) →
      (∀ (i : Nat) v r w, vs[i]? = some v → as[i]? = some r → Sem.resolve M.P.sem e' r = .ok w → VR M v w) →
      VR M (.con t vs) (.clo 0 (.cons t as) e')
  | note {m b rm rb e' wm wb} : Sem.resolve M.P.sem e' rm = .ok wm → Sem.resolve M.P.sem e' rb = .ok wb →
      VR M m wm → VR M b wb → VR M (.note m b) (.clo 0 (.metaOf rm rb) e')
  | fn {ctx ρ e' s n body self ann code} : ER M ctx ρ e' →
      lamForm M.cfg ann (n + 1) (bodyE M.cfg body self) ctx = .ok ⟨.lambda (n + 1) ann, code⟩ → HM M (.lam s (n + 1) body) ρ →
      VR M (.exp (.lam s (n + 1) body) ρ) (.clo (n + 1) code e')
  | var {ctx ρ e' s i name r} : ER M ctx ρ e' → ctxLookup ctx s i = .ok r →
      VR M (.exp (.var s i name) ρ) (.clo 0 (.atom r) e')
  | src {v v1 w n} : (∀ S, Steps M.P n (v, S) (v1, S)) → VR M v1 w → VR M v w
  | tgt {v w w1} : (∀ S, Sem.sstep M.P.sem (w, S) = .next (w1, S)) → VR M v w1 → VR M v w
  | call {v w v1 w1} {vs : List (Val K)} {ws : List (Sem.Val K)} : (∀ S, step M.P (v, S) = .next (v1, .apply vs :: S)) →
      (∀ S, Sem.sstep M.P.sem (w, S) = Sem.sstep M.P.sem (w1, .apply ws :: S)) →
      VR M v1 w1 → vs.length = ws.length →
      (∀ (i : Nat) v w, vs[i]? = some v → ws[i]? = some w → VR M v w) → VR M v w
  | seq {v u i c e'} : Mark M v u → VR M u (.clo 0 (.atom (.l i)) e') → VR M v (.clo 0 c e') →
      VR M v (.clo 0 (.seq (.atom (.l i)) c) e')
  | err {v w x} : (∀ S, step M.P (v, S) = .err x) → (∀ S, Sem.sstep M.P.sem (w, S) = .err x) → VR M v w
/-- Environments of global code. -/
inductive DR (M : Mode K) : Nat → Env K → Sem.Env K → Prop where
  | ext {d e e'} : (∀ i < d, (lookup e i).isSome = true ∧ (Sem.lookup e' i).isSome = true) →
      (∀ i v w, i < d → lookup e i = some v → Sem.lookup e' i = some w → VR M v w) → DR M d e e'
  | recs {d fs e e'} : wfForms M.globals (d + count fs) fs = true → DR M d e e' →
      DR M (d + count fs) (.recs fs e) (.recs fs e')
/-- Scopes, and the environment in which code compiled in the context is run. -/
inductive ER (M : Mode K) : Ctx K → Scopes K → Sem.Env K → Prop where
  | nil {e'} : ER M [] .nil e'
  | syn {n ctx ρ e' e''} : ER M ctx ρ e' → (∀ i, Sem.lookup e'' (i + n) = Sem.lookup e' i) →
      ER M (⟨false, [], n⟩ :: ctx) ρ e''
  | args {n ctx ρ e'} {vs : List (Val K)} {ws : List (Sem.Val K)} : ER M ctx ρ e' → vs.length = n → ws.length = n →
      (∀ (i : Nat) v w, vs[i]? = some v → ws[i]? = some w → VR M v w) →
      ER M (⟨true, (List.range n).map .l, n⟩ :: ctx) (.args vs ρ) (Sem.consAll ws e')
  | recs {ctx ρ e' e'' bs self B1 B2 fs} : ER M ctx ρ e' → bindLets M.cfg bs self .forScope = (.ok (), B1) → Ext B1 B2 →
      realise (B2.frame :: ctx) B2.protos = .ok fs → HMBinds M bs (.recs bs ρ) →
      (∀ i, Sem.lookup e'' i = Sem.lookup (.recs fs e') i) → ER M (B2.frame :: ctx) (.recs bs ρ) e''
end

/-! ## Lists alike -/

section
variable {A B : Type} {R : A → B → Prop}

theorem All2.length {l : List A} {m : List B} (h : All2 R l m) : l.length = m.length := by
  induction h with
  | nil => rfl
  | cons _ _ ih => simp [ih]

theorem All2.get {l : List A} {m : List B} (h : All2 R l m) {i : Nat} {a b} (ha : l[i]? = some a) (hb : m[i]? = some b) : R a b := by
  induction h generalizing i with
  | nil => simp at ha
  | cons h _ ih =>
    cases i with
    | zero => simp at ha hb; subst ha; subst hb; exact h
    | succ i => exact ih (by simpa using ha) (by simpa using hb)

theorem All2.of {l : List A} {m : List B} (hl : l.length = m.length)
    (h : ∀ (i : Nat) a b, l[i]? = some a → m[i]? = some b → R a b) : All2 R l m := by
  induction l generalizing m with
  | nil => cases m with
    | nil => exact .nil
    | cons => simp at hl
  | cons a l ih => cases m with
    | nil => simp at hl
    | cons b m => exact .cons (h 0 a b rfl rfl) (ih (by simpa using hl) fun i a b ha hb => h (i + 1) a b (by simpa using ha) (by simpa using hb))

theorem All2.append {a c : List A} {b d : List B} (h : All2 R a b) (h' : All2 R c d) : All2 R (a ++ c) (b ++ d) := by
  induction h with
  | nil => exact h'
  | cons h _ ih => exact .cons h ih

theorem All2.take {a : List A} {b : List B} (h : All2 R a b) (n : Nat) : All2 R (a.take n) (b.take n) := by
  induction h generalizing n with
  | nil => simpa using All2.nil
  | cons h _ ih => cases n with
    | zero => exact .nil
    | succ n => exact .cons h (ih n)

theorem All2.drop {a : List A} {b : List B} (h : All2 R a b) (n : Nat) : All2 R (a.drop n) (b.drop n) := by
  induction h generalizing n with
  | nil => simpa using All2.nil
  | cons h hs ih => cases n with
    | zero => exact .cons h hs
    | succ n => exact ih n
end

/-! ## Steps -/

theorem Steps.trans {P : World K} {n m c d f} (h : Steps P n c d) (h' : Steps P m d f) : Steps P (n + m) c f := by
  induction h with
  | refl => simpa
  | next h _ ih => have := Steps.next h (ih h'); rwa [Nat.add_right_comm] at this

theorem Steps.one {P : World K} {c d} (h : step P c = .next d) : Steps P 1 c d := .next h (.refl _)

theorem Steps.ends {P : World K} {n m c d r} (h : Steps P n c d) (h' : Ends P m d r) : Ends P (n + m) c r := by
  induction h with
  | refl => simpa
  | next h _ ih => have := Ends.next h (ih h'); rwa [Nat.add_right_comm] at this

theorem Steps.unends {P : World K} {n m c d r} (h : Steps P n c d) (h' : Ends P m c r) : n ≤ m ∧ Ends P (m - n) d r := by
  induction h generalizing m with
  | refl => simpa
  | next h _ ih => cases h' with
    | done h' => simp_all
    | err h' => simp_all
    | next h' t => rw [h] at h'; cases h'; have := ih t; simp; exact ⟨by omega, by simpa using this.2⟩

theorem Ends.det {P : World K} {n m c r s} (h : Ends P n c r) (h' : Ends P m c s) : n = m ∧ r = s := by
  induction h generalizing m s with
  | done h => cases h' <;> simp_all
  | err h => cases h' <;> simp_all
  | next h _ ih => cases h' with
    | done h' => simp_all
    | err h' => simp_all
    | next h' t => rw [h] at h'; cases h'; have := ih t; simp_all

/-! ## Environments -/

variable {M : Mode K}

theorem lookup_consAll (vs : List (Val K)) (e : Env K) (i : Nat) :
    lookup (consAll vs e) i = match vs[i]? with
      | some v => some v
      | none => lookup e (i - vs.length) := by
  induction vs generalizing i with
  | nil => simp [consAll]
  | cons v vs ih =>
    simp only [consAll, List.foldr_cons, lookup]
    cases i with
    | zero => simp
    | succ i =>
      simp only [Nat.add_one_ne_zero, if_false, Nat.add_sub_cancel, List.getElem?_cons_succ]
      have := ih i
      unfold consAll at this
      rw [this]
      simp

theorem wfForms_get {g d : Nat} {fs : Forms K} (h : wfForms g d fs = true) {i : Nat} {f} (hf : (Sem.forms fs)[i]? = some f) :
    wf g (d + Sem.arity f.head) f.body = true := by
  match fs with
  | .nil => simp [Sem.forms] at hf
  | .cons hd b rest =>
    simp only [wfForms, Bool.and_eq_true] at h
    cases i with
    | zero => simp only [Sem.forms, List.getElem?_cons_zero, Option.some.injEq] at hf; subst hf; exact h.1
    | succ i => exact wfForms_get h.2 (by simpa [Sem.forms] using hf)

theorem DR.lookup {d} {e : Env K} {e' : Sem.Env K} (h : DR M d e e') {i : Nat} (hi : i < d) :
    ∃ v w, Comp.lookup e i = some v ∧ Sem.lookup e' i = some w ∧ VR M v w := by
  match h with
  | .ext h1 h2 =>
    obtain ⟨ha, hb⟩ := h1 i hi
    obtain ⟨v, hv⟩ := Option.isSome_iff_exists.1 ha
    obtain ⟨w, hw⟩ := Option.isSome_iff_exists.1 hb
    exact ⟨v, w, hv, hw, h2 i v w hi hv hw⟩
  | .recs (d := d0) (fs := fs) (e := e0) (e' := e0') hf he =>
    simp only [Comp.lookup, Sem.lookup]
    cases hx : (Sem.forms fs)[i]? with
    | some f => exact ⟨_, _, rfl, rfl, .clo (.recs hf he) (wfForms_get hf hx)⟩
    | none =>
      have hge : (Sem.forms fs).length ≤ i := by simpa using hx
      rw [Opt.count_forms] at hi
      exact DR.lookup he (i := i - (Sem.forms fs).length) (by omega)
termination_by structural h

theorem DR.of {d} {e : Env K} {e' : Sem.Env K}
    (h : ∀ i < d, ∃ v w, Comp.lookup e i = some v ∧ Sem.lookup e' i = some w ∧ VR M v w) : DR M d e e' := by
  refine .ext (fun i hi => ?_) fun i v w hi hv hw => ?_
  · obtain ⟨v, w, h1, h2, _⟩ := h i hi
    rw [h1, h2]; exact ⟨rfl, rfl⟩
  · obtain ⟨v', w', h1, h2, h3⟩ := h i hi
    rw [h1] at hv; rw [h2] at hw
    cases hv; cases hw; exact h3

theorem DR.nil {e : Env K} {e'} : DR M 0 e e' := .of fun i hi => absurd hi (by omega)

theorem DR.consAll {d} {e : Env K} {e' : Sem.Env K} {vs ws} (h : DR M d e e') (hv : All2 (VR M) vs ws) :
    DR M (d + vs.length) (Comp.consAll vs e) (Sem.consAll ws e') := by
  have hl := hv.length
  refine .of fun i hi => ?_
  rw [lookup_consAll, Opt.lookup_consAll]
  by_cases hlt : i < vs.length
  · have hx : vs[i]? = some vs[i] := List.getElem?_eq_getElem hlt
    have hy : ws[i]? = some (ws[i]'(by omega)) := List.getElem?_eq_getElem (by omega)
    rw [hx, hy]
    exact ⟨_, _, rfl, rfl, hv.get hx hy⟩
  · have hx : vs[i]? = none := by simpa using hlt
    have hw : ws[i]? = none := by simp; omega
    rw [hx, hw, ← hl]
    exact h.lookup (i := i - vs.length) (by omega)

theorem DR.cons {d} {e : Env K} {e' : Sem.Env K} {v w} (h : DR M d e e') (hv : VR M v w) :
    DR M (d + 1) (.cons v e) (.cons w e') := DR.consAll h (.cons hv .nil)

theorem VR.code {d c} {e : Env K} {e' : Sem.Env K} (he : DR M d e e') (hc : wf M.globals d c = true) :
    VR M (.clo 0 c e) (.clo 0 c e') := .clo he hc

end Verif.Comp
