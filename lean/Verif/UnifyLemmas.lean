import Verif.UnifySpec

/-!
# Unification of types: lemmas

Proofs only.
-/

namespace Verif.Unify

open Spec

variable {b : Bool}

theorem get_mem {x : String} {s : Sub} {t : Ty} (h : get x s = some t) : (x, t) ∈ s := by
  induction s with
  | nil => simp [get] at h
  | cons p s ih =>
    rw [get] at h
    split at h
    · rename_i hp
      injection h with h
      subst hp h
      simp
    · simp [ih h]

theorem same_tuple {σ : String → Ty} {es fs : List Ty} :
    Same σ (.tuple es) (.tuple fs) ↔ looseL (instL σ es) = looseL (instL σ fs) := by
  simp [Same, inst, loose]

theorem same_app {σ : String → Ty} {f g a c : Ty} :
    Same σ (.app f a) (.app g c) ↔ Same σ f g ∧ Same σ a c := by
  simp [Same, inst, loose]

theorem same_function {σ : String → Ty} {f g a c : Ty} :
    Same σ (.function f a) (.function g c) ↔ Same σ f g ∧ Same σ a c := by
  simp [Same, inst, loose]

/-! ## Applying a substitution -/

theorem mapO_plain {s : Sub} {f : Ty → Option Ty}
    (hf : ∀ t t', Plain b t → f t = some t' → Plain b t' ∧ ∀ σ, Solves σ s → Same σ t' t) :
    ∀ {es es'}, PlainL b es → mapO f es = some es' →
      PlainL b es' ∧ ∀ σ, Solves σ s → looseL (instL σ es') = looseL (instL σ es)
  | [], es', _, h => by
    simp only [mapO, Option.some.injEq] at h
    subst h
    exact ⟨trivial, fun _ _ => rfl⟩
  | e :: es, es', hp, h => by
    rw [PlainL] at hp
    simp only [mapO] at h
    cases h1 : f e with
    | none => simp [h1] at h
    | some e' =>
      cases h2 : mapO f es with
      | none => simp [h1, h2] at h
      | some r =>
        simp only [h1, h2, Option.some.injEq] at h
        subst h
        have a1 := hf e e' hp.1 h1
        have a2 := mapO_plain hf hp.2 h2
        refine ⟨⟨a1.1, a2.1⟩, fun σ hσ => ?_⟩
        have := a1.2 σ hσ
        unfold Same at this
        simp [instL, looseL, this, a2.2 σ hσ]

theorem apply_plain {s : Sub} (hs : PlainS b s) : ∀ (n : Nat) (t t' : Ty), Plain b t →
    applySubst n s t = some t' → Plain b t' ∧ ∀ σ, Solves σ s → Same σ t' t
  | 0, _, _, _, h => by simp [applySubst] at h
  | n + 1, t, t', hp, h => by
    by_cases h0 : s = []
    · have : t = t' := by
        cases t <;> simpa [applySubst, h0] using h
      subst this
      exact ⟨hp, fun _ _ => rfl⟩
    · cases t with
      | var x k =>
        simp only [applySubst, if_neg h0] at h
        cases hg : get x s with
        | none =>
          simp only [hg, Option.some.injEq] at h
          subst h
          exact ⟨hp, fun _ _ => rfl⟩
        | some u =>
          simp only [hg] at h
          have hm := get_mem hg
          have a := apply_plain hs n u t' (hs _ hm) h
          exact ⟨a.1, fun σ hσ => (a.2 σ hσ).trans (hσ _ hm).symm⟩
      | app f a =>
        simp only [applySubst, if_neg h0] at h
        rw [Plain] at hp
        cases h1 : applySubst n s f with
        | none => simp [h1] at h
        | some f' =>
          cases h2 : applySubst n s a with
          | none => simp [h1, h2] at h
          | some a' =>
            simp only [h1, h2] at h
            have i1 := apply_plain hs n f f' hp.1 h1
            have i2 := apply_plain hs n a a' hp.2 h2
            have hb : betaReduce n (.app f' a') = some (.app f' a') := by
              cases f' with
              | lam => exact absurd i1.1 (by simp [Plain])
              | _ => rfl
            rw [hb] at h
            injection h with h
            subst h
            exact ⟨⟨i1.1, i2.1⟩, fun σ hσ => same_app.2 ⟨i1.2 σ hσ, i2.2 σ hσ⟩⟩
      | function f a =>
        simp only [applySubst, if_neg h0] at h
        rw [Plain] at hp
        cases h1 : applySubst n s f with
        | none => simp [h1] at h
        | some f' =>
          cases h2 : applySubst n s a with
          | none => simp [h1, h2] at h
          | some a' =>
            simp only [h1, h2, Option.some.injEq] at h
            have i1 := apply_plain hs n f f' hp.1 h1
            have i2 := apply_plain hs n a a' hp.2 h2
            subst h
            exact ⟨⟨i1.1, i2.1⟩, fun σ hσ => same_function.2 ⟨i1.2 σ hσ, i2.2 σ hσ⟩⟩
      | tuple es =>
        simp only [applySubst, if_neg h0] at h
        rw [Plain] at hp
        cases h1 : mapO (applySubst n s) es with
        | none => simp [h1] at h
        | some es' =>
          simp only [h1, Option.map_some, Option.some.injEq] at h
          subst h
          have := mapO_plain (fun t t' => apply_plain hs n t t') hp h1
          exact ⟨this.1, fun σ hσ => same_tuple.2 (this.2 σ hσ)⟩
      | record => exact absurd hp (by simp [Plain])
      | forall_ => exact absurd hp (by simp [Plain])
      | lam => exact absurd hp (by simp [Plain])
      | any => exact absurd hp (by simp [Plain])
      | prim p =>
        simp only [applySubst, if_neg h0, Option.some.injEq] at h
        subst h
        exact ⟨hp, fun _ _ => rfl⟩
      | con p =>
        simp only [applySubst, if_neg h0, Option.some.injEq] at h
        subst h
        exact ⟨hp, fun _ _ => rfl⟩
      | litSymbol p =>
        simp only [applySubst, if_neg h0, Option.some.injEq] at h
        subst h
        exact ⟨hp, fun _ _ => rfl⟩
      | litString p =>
        simp only [applySubst, if_neg h0, Option.some.injEq] at h
        subst h
        exact ⟨hp, fun _ _ => rfl⟩

/-! ## A variable does not stand for a type that it is a part of -/

mutual
def size : Ty → Nat
  | .app f a => size f + size a + 1
  | .function f a => size f + size a + 1
  | .tuple es => sizeL es + 1
  | _ => 1
def sizeL : List Ty → Nat
  | [] => 0
  | t :: ts => size t + sizeL ts
end

def isVar : Ty → Bool
  | .var _ _ => true
  | _ => false

mutual
theorem occurs_size (σ : String → Ty) (x : String) : ∀ t : Ty, Plain b t → occurs x t = true →
    size (loose (σ x)) ≤ size (loose (inst σ t)) ∧
      (isVar t = false → size (loose (σ x)) < size (loose (inst σ t)))
  | .var y k, _, h => by
    simp only [occurs, decide_eq_true_eq] at h
    subst h
    simp [inst, isVar]
  | .app f a, hp, h => by
    rw [Plain] at hp
    simp only [occurs, Bool.or_eq_true] at h
    have key : size (loose (σ x)) < size (loose (inst σ (.app f a))) := by
      simp only [inst, loose, size]
      rcases h with h | h
      · have := (occurs_size σ x f hp.1 h).1
        omega
      · have := (occurs_size σ x a hp.2 h).1
        omega
    exact ⟨Nat.le_of_lt key, fun _ => key⟩
  | .function f a, hp, h => by
    rw [Plain] at hp
    simp only [occurs, Bool.or_eq_true] at h
    have key : size (loose (σ x)) < size (loose (inst σ (.function f a))) := by
      simp only [inst, loose, size]
      rcases h with h | h
      · have := (occurs_size σ x f hp.1 h).1
        omega
      · have := (occurs_size σ x a hp.2 h).1
        omega
    exact ⟨Nat.le_of_lt key, fun _ => key⟩
  | .tuple es, hp, h => by
    rw [Plain] at hp
    simp only [occurs] at h
    have key : size (loose (σ x)) < size (loose (inst σ (.tuple es))) := by
      simp only [inst, loose, size]
      have := occurs_sizeL σ x es hp h
      omega
    exact ⟨Nat.le_of_lt key, fun _ => key⟩
  | .prim _, _, h => by simp [occurs] at h
  | .any, _, h => by simp [occurs] at h
  | .con _, _, h => by simp [occurs] at h
  | .litSymbol _, _, h => by simp [occurs] at h
  | .litString _, _, h => by simp [occurs] at h
  | .record _ _ _, hp, _ => by simp [Plain] at hp
  | .forall_ _ _, hp, _ => by simp [Plain] at hp
  | .lam _ _, hp, _ => by simp [Plain] at hp
theorem occurs_sizeL (σ : String → Ty) (x : String) : ∀ ts : List Ty, PlainL b ts →
    occursL x ts = true → size (loose (σ x)) ≤ sizeL (looseL (instL σ ts))
  | [], _, h => by simp [occursL] at h
  | t :: ts, hp, h => by
    rw [PlainL] at hp
    simp only [occursL, Bool.or_eq_true] at h
    simp only [instL, looseL, sizeL]
    rcases h with h | h
    · have := (occurs_size σ x t hp.1 h).1
      omega
    · have := occurs_sizeL σ x ts hp.2 h
      omega
end

theorem kind_loose : ∀ t : Ty, kindOf (loose t) = kindOf t
  | .app f a => by
    simp only [loose, kindOf]
    rw [kind_loose f]
  | .con n => by
    simp only [loose]
    split
    · rename_i h
      subst h
      rfl
    · rfl
  | .prim _ => rfl
  | .any => rfl
  | .tuple _ => by simp [loose, kindOf]
  | .function _ _ => by simp [loose, kindOf]
  | .record _ _ _ => by simp [loose]
  | .litSymbol _ => rfl
  | .litString _ => rfl
  | .var _ _ => rfl
  | .forall_ _ _ => by simp [loose]
  | .lam _ _ => by simp [loose]

theorem kind_inst {σ : String → Ty} (hσ : Kinds σ) : ∀ t : Ty, Plain b t → kindOf (inst σ t) = kindOf t
  | .app f a, hp => by
    rw [Plain] at hp
    simp only [inst, kindOf]
    rw [kind_inst hσ f hp.1]
  | .var x k, hp => by
    rw [Plain] at hp
    subst hp
    exact hσ x
  | .con n, _ => by simp [inst]
  | .prim _, _ => by simp [inst]
  | .any, _ => by simp [inst]
  | .tuple _, _ => by simp [inst, kindOf]
  | .function _ _, _ => by simp [inst, kindOf]
  | .record _ _ _, _ => by simp [inst]
  | .litSymbol _, _ => by simp [inst]
  | .litString _, _ => by simp [inst]
  | .forall_ _ _, _ => by simp [inst]
  | .lam _ _, _ => by simp [inst]

/-! ## What a call comes to -/

/-- What comes of solving the equation `P` after `s`. -/
def Right (b : Bool) (s : Sub) (P : (String → Ty) → Prop) : Out → Prop
  | .more => True
  | .ok s' => PlainS b s' ∧ ∀ σ, Solves σ s' ↔ Solves σ s ∧ P σ
  | .fail _ => b = false → ∀ σ, Kinds σ → Solves σ s → ¬ P σ

theorem Right.congr {s : Sub} {P Q : (String → Ty) → Prop} {o : Out} (h : Right b s P o)
    (hpq : ∀ σ, Solves σ s → (P σ ↔ Q σ)) : Right b s Q o := by
  cases o with
  | more => trivial
  | ok s' =>
    refine ⟨h.1, fun σ => (h.2 σ).trans ?_⟩
    exact ⟨fun x => ⟨x.1, (hpq σ x.1).1 x.2⟩, fun x => ⟨x.1, (hpq σ x.1).2 x.2⟩⟩
  | fail e => exact fun hb σ hk hs hq => h hb σ hk hs ((hpq σ hs).2 hq)

theorem Right.bind {s : Sub} {P Q : (String → Ty) → Prop} {o : Out} {f : Sub → Out}
    (h : Right b s P o)
    (hf : ∀ s', PlainS b s' → (∀ σ, Solves σ s' ↔ Solves σ s ∧ P σ) → Right b s' Q (f s')) :
    Right b s (fun σ => P σ ∧ Q σ) (o.bind f) := by
  cases o with
  | more => trivial
  | fail e => exact fun hb σ hk hs hq => h hb σ hk hs hq.1
  | ok s' =>
    have h2 := hf s' h.1 h.2
    show Right b s _ (f s')
    cases hfs : f s' with
    | more => trivial
    | ok s'' =>
      rw [hfs] at h2
      refine ⟨h2.1, fun σ => ?_⟩
      rw [h2.2 σ, h.2 σ, and_assoc]
    | fail e =>
      rw [hfs] at h2
      exact fun hb σ hk hs hq => h2 hb σ hk ((h.2 σ).2 ⟨hs, hq.1⟩) hq.2

theorem right_ok {s : Sub} {P : (String → Ty) → Prop} (hs : PlainS b s) (h : ∀ σ, P σ) :
    Right b s P (.ok s) := ⟨hs, fun σ => ⟨fun x => ⟨x, h σ⟩, fun x => x.1⟩⟩

theorem right_applied {s : Sub} {P : (String → Ty) → Prop} {o : Option Ty} {f : Ty → Out}
    (h : ∀ t, o = some t → Right b s P (f t)) : Right b s P (withApplied o f) := by
  cases o with
  | none => trivial
  | some t => exact h t rfl

/-- `un` does what is asked of unification. -/
def Correct (b : Bool) (un : Ty → Ty → Sub → Out) : Prop :=
  ∀ t1 t2 s, Plain b t1 → Plain b t2 → PlainS b s → Right b s (fun σ => Same σ t1 t2) (un t1 t2 s)

theorem plain_widen {t : Ty} (h : Plain b t) : Plain b (widen t) := by
  cases t <;> first | exact h | trivial

theorem loose_widen (σ : String → Ty) (t : Ty) : loose (inst σ (widen t)) = loose (inst σ t) := by
  cases t <;> simp [widen, inst, loose]

theorem kind_widen (t : Ty) : kindOf (widen t) = kindOf t := by
  cases t <;> rfl

theorem bindVar_right {x : String} {t : Ty} {s : Sub} (hp : Plain b t) (hs : PlainS b s)
    (hne : t ≠ .var x .star) :
    Right b s (fun σ => Same σ (.var x .star) t) (bindVar x .star t s) := by
  rw [bindVar]
  split
  · rename_i ho
    intro _ σ _ _ h
    have hv : isVar t = false := by
      cases t with
      | var y k =>
        simp only [occurs, decide_eq_true_eq] at ho
        rw [Plain] at hp
        subst ho hp
        exact absurd rfl hne
      | _ => rfl
    have := (occurs_size σ x t hp ho).2 hv
    have h' : loose (σ x) = loose (inst σ t) := by
      unfold Same at h
      simpa [inst] using h
    rw [h'] at this
    omega
  · split
    · refine ⟨?_, fun σ => ?_⟩
      · intro p hm
        rcases List.mem_cons.1 hm with rfl | hm
        · exact plain_widen hp
        · exact hs p hm
      · have : Same σ (.var x .star) (widen t) ↔ Same σ (.var x .star) t := by
          unfold Same
          rw [loose_widen]
        show _ ↔ Solves σ s ∧ Same σ (.var x .star) t
        rw [← this]
        unfold Solves
        rw [List.forall_mem_cons, and_comm]
    · rename_i hk
      intro _ σ hσ _ h
      refine hk ?_
      have h' : loose (σ x) = loose (inst σ t) := by
        unfold Same at h
        simpa [inst] using h
      have := congrArg kindOf h'
      rw [kind_loose, kind_loose, hσ x, kind_inst hσ t hp] at this
      rw [kind_widen, this]

theorem pairs_right {un : Ty → Ty → Sub → Out} (hu : Correct b un) :
    ∀ (as bs : List Ty) (s : Sub), as.length = bs.length → PlainL b as → PlainL b bs → PlainS b s →
      Right b s (fun σ => looseL (instL σ as) = looseL (instL σ bs)) (unifyPairs un as bs s)
  | [], [], s, _, _, _, hs => right_ok hs fun _ => rfl
  | a :: as, c :: bs, s, hl, ha, hb, hs => by
    rw [PlainL] at ha hb
    rw [unifyPairs]
    refine ((hu a c s ha.1 hb.1 hs).bind fun s' hs' _ =>
      pairs_right hu as bs s' (by simpa using hl) ha.2 hb.2 hs').congr fun σ _ => ?_
    simp [instL, looseL, Same]
  | [], _ :: _, _, hl, _, _, _ => by simp at hl
  | _ :: _, [], _, hl, _, _, _ => by simp at hl

theorem looseL_length : ∀ ts : List Ty, (looseL ts).length = ts.length
  | [] => rfl
  | t :: ts => by simp [looseL, looseL_length ts]

theorem instL_length (σ : String → Ty) : ∀ ts : List Ty, (instL σ ts).length = ts.length
  | [] => rfl
  | t :: ts => by simp [instL, instL_length σ ts]

theorem two_right {un : Ty → Ty → Sub → Out} (hu : Correct b un) (n : Nat) {a1 a2 c1 c2 : Ty} {s : Sub}
    (h1 : Plain b a1) (h2 : Plain b a2) (h3 : Plain b c1) (h4 : Plain b c2) (hs : PlainS b s) :
    Right b s (fun σ => Same σ a1 a2 ∧ Same σ c1 c2)
      ((un a1 a2 s).bind fun s =>
        withApplied (applySubst n s c1) fun x => withApplied (applySubst n s c2) fun y => un x y s) := by
  refine (hu a1 a2 s h1 h2 hs).bind fun s' hs' _ => ?_
  refine right_applied fun x hx => right_applied fun y hy => ?_
  have i1 := apply_plain hs' n c1 x h3 hx
  have i2 := apply_plain hs' n c2 y h4 hy
  refine (hu x y s' i1.1 i2.1 hs').congr fun σ hσ => ?_
  have e1 := i1.2 σ hσ
  have e2 := i2.2 σ hσ
  unfold Same at e1 e2 ⊢
  rw [e1, e2]

theorem rest_right {un : Ty → Ty → Sub → Out} (hu : Correct b un) (n : Nat)
    (fr : List (String × Kind) → Ty → Option Ty) {t1 t2 : Ty} {s : Sub}
    (h1 : Plain b t1) (h2 : Plain b t2) (hs : PlainS b s) (hne : t1 ≠ t2) :
    Right b s (fun σ => Same σ t1 t2) (unifyRest (applySubst n) un fr t1 t2 s) := by
  by_cases hv1 : isVar t1 = true
  · cases t1 with
    | var x k =>
      rw [Plain] at h1
      subst h1
      rw [unifyRest]
      exact bindVar_right h2 hs (Ne.symm hne)
    | _ => simp [isVar] at hv1
  by_cases hv2 : isVar t2 = true
  · cases t2 with
    | var x k =>
      rw [Plain] at h2
      subst h2
      have : unifyRest (applySubst n) un fr t1 (.var x .star) s = bindVar x .star t1 s := by
        cases t1 <;> first | rfl | simp [isVar] at hv1
      rw [this]
      refine (bindVar_right h1 hs hne).congr fun σ _ => ?_
      unfold Same
      exact eq_comm
    | _ => simp [isVar] at hv2
  cases t1 with
  | var => simp [isVar] at hv1
  | record => exact absurd h1 (by simp [Plain])
  | forall_ => exact absurd h1 (by simp [Plain])
  | lam => exact absurd h1 (by simp [Plain])
  | any => exact absurd h1 (by simp [Plain])
  | app f1 x1 =>
    cases t2 with
    | app f2 x2 =>
      rw [Plain] at h1 h2
      rw [unifyRest]
      split
      · rename_i a c hl
        refine (hu a c s ?_ ?_ hs).congr fun σ _ => ?_
        all_goals
          unfold listPair at hl
          split at hl
          · rename_i e1 e2
            injection e1 with e1 e1'
            injection e2 with e2 e2'
            subst e1 e1' e2 e2'
            injection hl with hl
            injection hl with hl hl'
            subst hl hl'
            first
              | exact h1.2
              | exact h2.2
              | (rw [same_app]; simp [Same, inst, loose])
          · rename_i e1 e2
            injection e1 with e1 e1'
            injection e2 with e2 e2'
            subst e1 e1' e2 e2'
            injection hl with hl
            injection hl with hl hl'
            subst hl hl'
            first
              | exact h1.2
              | exact h2.2
              | (rw [same_app]; simp [Same, inst, loose])
          · simp at hl
      · refine (two_right hu n h1.1 h2.1 h1.2 h2.2 hs).congr fun σ _ => ?_
        rw [same_app]
    | var => simp [isVar] at hv2
    | record => exact absurd h2 (by simp [Plain])
    | forall_ => exact absurd h2 (by simp [Plain])
    | lam => exact absurd h2 (by simp [Plain])
    | any => exact absurd h2 (by simp [Plain])
    | con m =>
      intro _ σ _ _ h
      simp only [Same, inst, loose] at h
      split at h <;> simp at h
    | _ => intro _ σ _ _ h; simp [Same, inst, loose] at h
  | function f1 x1 =>
    cases t2 with
    | function f2 x2 =>
      rw [Plain] at h1 h2
      rw [unifyRest]
      refine (two_right hu n h1.1 h2.1 h1.2 h2.2 hs).congr fun σ _ => ?_
      rw [same_function]
    | var => simp [isVar] at hv2
    | record => exact absurd h2 (by simp [Plain])
    | forall_ => exact absurd h2 (by simp [Plain])
    | lam => exact absurd h2 (by simp [Plain])
    | any => exact absurd h2 (by simp [Plain])
    | con m =>
      intro _ σ _ _ h
      simp only [Same, inst, loose] at h
      split at h <;> simp at h
    | _ => intro _ σ _ _ h; simp [Same, inst, loose] at h
  | tuple es =>
    cases t2 with
    | tuple fs =>
      rw [Plain] at h1 h2
      rw [unifyRest]
      split
      · rename_i hl
        exact (pairs_right hu es fs s hl h1 h2 hs).congr fun σ _ => same_tuple.symm
      · rename_i hl
        intro _ σ _ _ h
        have := congrArg List.length (same_tuple.1 h)
        rw [looseL_length, looseL_length, instL_length, instL_length] at this
        exact hl this
    | var => simp [isVar] at hv2
    | record => exact absurd h2 (by simp [Plain])
    | forall_ => exact absurd h2 (by simp [Plain])
    | lam => exact absurd h2 (by simp [Plain])
    | any => exact absurd h2 (by simp [Plain])
    | con m =>
      intro _ σ _ _ h
      simp only [Same, inst, loose] at h
      split at h <;> simp at h
    | _ => intro _ σ _ _ h; simp [Same, inst, loose] at h
  | con m =>
    cases t2 with
    | con m' =>
      intro hb σ _ _ h
      rw [Plain] at h1 h2
      subst hb
      simp only [Bool.false_eq_true, false_or] at h1 h2
      simp only [Same, inst, loose, if_neg h1, if_neg h2] at h
      exact hne h
    | var => simp [isVar] at hv2
    | record => exact absurd h2 (by simp [Plain])
    | forall_ => exact absurd h2 (by simp [Plain])
    | lam => exact absurd h2 (by simp [Plain])
    | any => exact absurd h2 (by simp [Plain])
    | _ =>
      intro _ σ _ _ h
      simp only [Same, inst, loose] at h
      split at h <;> simp at h
  | litSymbol m =>
    cases t2 with
    | var => simp [isVar] at hv2
    | record => exact absurd h2 (by simp [Plain])
    | forall_ => exact absurd h2 (by simp [Plain])
    | lam => exact absurd h2 (by simp [Plain])
    | any => exact absurd h2 (by simp [Plain])
    | prim p =>
      by_cases hp : p = .symbol
      · subst hp
        exact right_ok hs fun _ => rfl
      · have hb : unifyRest (applySubst n) un fr (.litSymbol m) (.prim p) s =
            .fail (.mismatch (.litSymbol m) (.prim p)) := by
          cases p <;> first | rfl | exact absurd rfl hp
        rw [hb]
        intro hb
        rw [Plain, hb] at h1
        cases h1
    | _ =>
      intro hb
      rw [Plain, hb] at h1
      cases h1
  | litString m =>
    cases t2 with
    | var => simp [isVar] at hv2
    | record => exact absurd h2 (by simp [Plain])
    | forall_ => exact absurd h2 (by simp [Plain])
    | lam => exact absurd h2 (by simp [Plain])
    | any => exact absurd h2 (by simp [Plain])
    | prim p =>
      by_cases hp : p = .string
      · subst hp
        exact right_ok hs fun _ => rfl
      · have hb : unifyRest (applySubst n) un fr (.litString m) (.prim p) s =
            .fail (.mismatch (.litString m) (.prim p)) := by
          cases p <;> first | rfl | exact absurd rfl hp
        rw [hb]
        intro hb
        rw [Plain, hb] at h1
        cases h1
    | _ =>
      intro hb
      rw [Plain, hb] at h1
      cases h1
  | prim p =>
    cases t2 with
    | var => simp [isVar] at hv2
    | record => exact absurd h2 (by simp [Plain])
    | forall_ => exact absurd h2 (by simp [Plain])
    | lam => exact absurd h2 (by simp [Plain])
    | any => exact absurd h2 (by simp [Plain])
    | litSymbol m =>
      by_cases hp : p = .symbol
      · subst hp
        exact right_ok hs fun _ => rfl
      · have hb : unifyRest (applySubst n) un fr (.prim p) (.litSymbol m) s =
            .fail (.mismatch (.prim p) (.litSymbol m)) := by
          cases p <;> first | rfl | exact absurd rfl hp
        rw [hb]
        intro hb
        rw [Plain, hb] at h2
        cases h2
    | litString m =>
      by_cases hp : p = .string
      · subst hp
        exact right_ok hs fun _ => rfl
      · have hb : unifyRest (applySubst n) un fr (.prim p) (.litString m) s =
            .fail (.mismatch (.prim p) (.litString m)) := by
          cases p <;> first | rfl | exact absurd rfl hp
        rw [hb]
        intro hb
        rw [Plain, hb] at h2
        cases h2
    | con m =>
      have hb : unifyRest (applySubst n) un fr (.prim p) (.con m) s =
          .fail (.mismatch (.prim p) (.con m)) := by
        cases p <;> rfl
      rw [hb]
      intro _ σ _ _ h
      simp only [Same, inst, loose] at h
      split at h <;> simp at h
    | prim q =>
      have hb : unifyRest (applySubst n) un fr (.prim p) (.prim q) s =
          .fail (.mismatch (.prim p) (.prim q)) := by
        cases p <;> cases q <;> rfl
      rw [hb]
      intro _ σ _ _ h
      simp only [Same, inst, loose] at h
      exact hne h
    | app g a =>
      have hb : unifyRest (applySubst n) un fr (.prim p) (.app g a) s =
          .fail (.mismatch (.prim p) (.app g a)) := by
        cases p <;> rfl
      rw [hb]
      intro _ σ _ _ h
      simp [Same, inst, loose] at h
    | function g a =>
      have hb : unifyRest (applySubst n) un fr (.prim p) (.function g a) s =
          .fail (.mismatch (.prim p) (.function g a)) := by
        cases p <;> rfl
      rw [hb]
      intro _ σ _ _ h
      simp [Same, inst, loose] at h
    | tuple g =>
      have hb : unifyRest (applySubst n) un fr (.prim p) (.tuple g) s =
          .fail (.mismatch (.prim p) (.tuple g)) := by
        cases p <;> rfl
      rw [hb]
      intro _ σ _ _ h
      simp [Same, inst, loose] at h

theorem pattern_none {t : Ty} (h : Plain b t) (s : Sub) : pattern s t = none := by
  unfold pattern
  split
  · simp only [Plain] at h
    cases h.1
  · rfl

theorem unify_right : ∀ n : Nat, Correct b (unify n)
  | 0 => fun _ _ _ _ _ _ => trivial
  | n + 1 => by
    intro t1 t2 s h1 h2 hs
    rw [unify]
    refine right_applied fun u1 e1 => right_applied fun u2 e2 => ?_
    have i1 := apply_plain hs n t1 u1 h1 e1
    have i2 := apply_plain hs n t2 u2 h2 e2
    have main : Right b s (fun σ => Same σ u1 u2)
        (if u1 = .any ∨ u2 = .any then .ok s
         else if u1 = u2 then .ok s
         else unifyRest (applySubst n) (unify n) (freshenForall n) u1 u2 s) := by
      split
      · rename_i h
        rcases h with rfl | rfl
        · exact absurd i1.1 (by simp [Plain])
        · exact absurd i2.1 (by simp [Plain])
      · split
        · rename_i h
          subst h
          exact right_ok hs fun _ => rfl
        · rename_i h
          exact rest_right (unify_right n) n _ i1.1 i2.1 hs h
    rw [pattern_none i1.1, pattern_none i2.1]
    refine main.congr fun σ hσ => ?_
    have e1 := i1.2 σ hσ
    have e2 := i2.2 σ hσ
    unfold Same at e1 e2 ⊢
    rw [e1, e2]

end Verif.Unify
