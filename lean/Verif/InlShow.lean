import Verif.InlDist2
import Verif.InlSim

/-!
# Distribution keeps what a program shows

Proofs only.
-/

namespace Verif.Inl
open Verif.Comp
variable {K : Type}

/-- An expression leads to what is put in for it, through names. -/
inductive Res : Ctx K → Comp.Exp K → Exp K → Prop where
  | self {Φ e} : Closed e → Res Φ (erase e) e
  | step {Φ Ψ s i h b e} : Opens Φ s i b Ψ → Res Ψ b e → Res Φ (.var s i h) e

theorem Res.rightArgs {Φ : Ctx K} {b : Comp.Exp K} {e : Exp K} (h : Res Φ b e) : Res (.rightArgs :: Φ) b e := by
  induction h with
  | self h => exact .self h
  | step h _ ih => exact .step (.rightArgs h) ih

theorem Res.rightLet {Φ : Ctx K} {b : Comp.Exp K} {e : Exp K} (h : Res Φ b e) (bs') : Res (.rightLet bs' :: Φ) b e := by
  induction h with
  | self h => exact .self h
  | step h _ ih => exact .step (.rightLet h) ih

mutual
theorem flat_T {n : Nat} {Φ : Ctx K} (x : Exp K) (hx : flat n x = true) : T (.lam :: Φ) (erase x) (erase x) := by
  match x with
  | .var (.bound s i h) =>
    simp only [flat, Bool.and_eq_true, beq_iff_eq, decide_eq_true_eq] at hx
    rw [hx.1]
    exact .head (.var .hereLam)
  | .app e xs =>
    simp only [flat, Bool.and_eq_true] at hx
    exact .head (.app (flat_T e hx.1) (flat_Ts xs hx.2))
  | .lit p => exact .head .lit
  | .intrinsic _ => exact .head .intrinsic
theorem flat_Ts {n : Nat} {Φ : Ctx K} (xs : Exps K) (hx : flatL n xs = true) : Ts (.lam :: Φ) (eraseL xs) (eraseL xs) := by
  match xs with
  | .nil => exact .nil
  | .cons x xs =>
    simp only [flatL, Bool.and_eq_true] at hx
    exact .cons (flat_T x hx.1) (flat_Ts xs hx.2)
end

theorem Closed.T {e : Exp K} (h : Closed e) (Φ : Ctx K) : T Φ (erase e) (erase e) := by
  cases h with
  | lam hb _ _ => exact .head (.lam (flat_T _ hb))
  | intrinsic => exact .head .intrinsic

theorem Res.T {Φ : Ctx K} {b : Comp.Exp K} {e : Exp K} (h : Res Φ b e) : T Φ b (erase e) := by
  induction h with
  | self h => exact h.T _
  | step h _ ih => exact .unfold h ih

/-- The scopes of `distribute` and the context of the two programs. -/
inductive Fits' : List (Fr K) → Ctx K → Prop where
  | nil : Fits' [] []
  | lam {Γ Φ} : Fits' Γ Φ → Fits' (.lam :: Γ) (.lam :: Φ)
  | opened {Γ Φ ns f bs bs'} : Fits' Γ Φ →
      (∀ i e, f i = some e → ∃ b, (bindings bs)[i]? = some b ∧ Res (.both bs bs' :: Φ) b e) →
      Fits' (.opened ns f :: Γ) (.both bs bs' :: Φ)

theorem Fits'.same {Γ : List (Fr K)} {Φ : Ctx K} (h : Fits' Γ Φ) {s i : Nat} {x : Option String}
    (hg : goodVar (namesOf Γ) s i x = true) : Same Φ s s := by
  induction h generalizing s with
  | nil => simp [namesOf, goodVar] at hg
  | lam _ ih =>
    cases s with
    | zero => exact .hereLam
    | succ s => exact .lam (ih (by simpa [namesOf, goodVar] using hg))
  | opened _ _ ih =>
    cases s with
    | zero => exact .hereBoth
    | succ s =>
      simp only [namesOf, goodVar, Bool.and_eq_true] at hg
      exact .both (ih hg.1)

theorem Fits'.opens {Γ : List (Fr K)} {Φ : Ctx K} (h : Fits' Γ Φ) {s i : Nat} {e : Exp K} (hi : inlAt Γ s i = some e) :
    ∃ b Ψ, Opens Φ s i b Ψ ∧ Res Ψ b e := by
  induction h generalizing s with
  | nil => simp [inlAt] at hi
  | lam _ ih =>
    cases s with
    | zero => simp [inlAt] at hi
    | succ s =>
      obtain ⟨b, Ψ, h1, h2⟩ := ih (by simpa [inlAt] using hi)
      exact ⟨b, _, .lam h1, h2.rightArgs⟩
  | opened _ hf ih =>
    cases s with
    | zero =>
      obtain ⟨b, h1, h2⟩ := hf i e (by simpa [inlAt] using hi)
      exact ⟨b, _, .hereLet h1, h2⟩
    | succ s =>
      obtain ⟨b, Ψ, h1, h2⟩ := ih (by simpa [inlAt] using hi)
      exact ⟨b, _, .both h1, h2.rightLet _⟩

theorem sVar_T {Γ : List (Fr K)} {Φ : Ctx K} (hf : Fits' Γ Φ) (v : Var) (hv : tame (K := K) (namesOf Γ) (.var v) = true) :
    T Φ (erase (.var v)) (erase (sVar Γ 0 v)) := by
  cases v with
  | free n => exact .head .free
  | bound s i h =>
    simp only [sVar, Nat.not_lt_zero, if_false, Nat.sub_zero]
    cases hi : inlAt Γ s i with
    | none => exact .head (.var (hf.same (by simpa [tame] using hv)))
    | some e =>
      obtain ⟨b, Ψ, h1, h2⟩ := hf.opens hi
      exact .unfold h1 h2.T

theorem fields_T {Φ : Ctx K} (ks : List K) {xs ys : Comp.Exps K} (h : Ts Φ xs ys) : Tk Φ (fields ks xs) (fields ks ys) := by
  match ks, xs, ys, h with
  | [], _, _, .nil => exact .nil
  | [], _, _, .cons _ _ => exact .nil
  | _ :: _, _, _, .nil => exact .nil
  | k :: ks, _, _, .cons h h' => exact .cons h (fields_T ks h')

theorem nodeOf_T {Φ : Ctx K} (k : Kind K) {xs ys : Comp.Exps K} (h : Ts Φ xs ys) : T Φ (nodeOf k xs) (nodeOf k ys) := by
  refine .head ?_
  cases k with
  | list => exact .list h
  | block ks => exact .block (fields_T ks h)
  | lookup k =>
    cases h with
    | nil => exact .other
    | cons h h' => cases h' with
      | nil => exact .lookup h
      | cons _ _ => exact .other
  | lookupOr k =>
    cases h with
    | nil => exact .other
    | cons h h' => cases h' with
      | nil => exact .other
      | cons h2 h' => cases h' with
        | nil => exact .lookupOr h h2
        | cons _ _ => exact .other
  | operator =>
    cases h with
    | nil => exact .other
    | cons h h' => cases h' with
      | nil => exact .operator h
      | cons _ _ => exact .other
  | other => exact .other

theorem s_lam (Γ : List (Fr K)) (x : Exp K) : x.trav (sVar Γ) 1 = x.trav (sVar (.lam :: Γ)) 0 :=
  trav_shift (s_under fun _ => rfl) x 0

theorem s_let (Γ : List (Fr K)) (ns : List String) (x : Exp K) :
    x.trav (sVar Γ) 1 = x.trav (sVar (.opened ns (fun _ => none) :: Γ)) 0 :=
  trav_shift (s_under fun _ => rfl) x 0

theorem s_letB (Γ : List (Fr K)) (ns : List String) (bs : Binds K) :
    bs.trav (sVar Γ) 1 = bs.trav (sVar (.opened ns (fun _ => none) :: Γ)) 0 :=
  travB_shift (s_under fun _ => rfl) bs 0

mutual
/-- Putting in what names stand for. -/
theorem s_T {Γ : List (Fr K)} {Φ : Ctx K} (hf : Fits' Γ Φ) (x : Exp K) (hx : tame (namesOf Γ) x = true) :
    T Φ (erase x) (erase (x.trav (sVar Γ) 0)) := by
  match x with
  | .var v => exact sVar_T hf v hx
  | .let_ t bs b =>
    simp only [tame, Bool.and_eq_true] at hx
    simp only [Exp.trav, Nat.zero_add, s_let Γ bs.names, s_letB Γ bs.names, erase]
    have hf' : Fits' (.opened bs.names (fun _ => none) :: Γ)
        (.both (eraseB bs) (eraseB (bs.trav (sVar (.opened bs.names (fun _ => none) :: Γ)) 0)) :: Φ) := .opened hf (by simp)
    exact .head (.let_ (s_Tb hf' bs hx.1.2) (s_T hf' b hx.2))
  | .lam true ps b =>
    have hcl : Closed (.lam true ps b) := tame_closed hx rfl
    rw [hcl.trav (fun d i h => by simp [sVar])]
    exact hcl.T Φ
  | .lam false ps b =>
    simp only [Exp.trav, Nat.zero_add, s_lam, erase]
    exact .head (.lam (s_T hf.lam b (by simpa [tame, namesOf] using hx)))
  | .app e xs =>
    simp only [tame, Bool.and_eq_true] at hx
    exact .head (.app (s_T hf e hx.1) (s_Ts hf xs hx.2))
  | .lit p => exact .head .lit
  | .intrinsic n => exact .head .intrinsic
  | .metaOf x m =>
    simp only [tame, Bool.and_eq_true] at hx
    exact .head (.metaOf (s_T hf x hx.1) (s_T hf m hx.2))
  | .node k xs => exact nodeOf_T k (s_Ts hf xs (by simpa [tame] using hx))
theorem s_Ts {Γ : List (Fr K)} {Φ : Ctx K} (hf : Fits' Γ Φ) (xs : Exps K) (hx : tameL (namesOf Γ) xs = true) :
    Ts Φ (eraseL xs) (eraseL (xs.trav (sVar Γ) 0)) := by
  match xs with
  | .nil => exact .nil
  | .cons x xs =>
    simp only [tameL, Bool.and_eq_true] at hx
    exact .cons (s_T hf x hx.1) (s_Ts hf xs hx.2)
theorem s_Tb {Γ : List (Fr K)} {Φ : Ctx K} (hf : Fits' Γ Φ) (xs : Binds K) (hx : tameB (namesOf Γ) xs = true) :
    Tb Φ (eraseB xs) (eraseB (xs.trav (sVar Γ) 0)) := by
  match xs with
  | .nil => exact .nil
  | .cons n x xs =>
    simp only [tameB, Bool.and_eq_true] at hx
    exact .cons (s_T hf x hx.1.2) (s_Tb hf xs hx.2)
end

theorem bindings_erase (bs : Binds K) (i : Nat) : (bindings (eraseB bs))[i]? = bs.list[i]?.map fun p => erase p.2 := by
  match bs with
  | .nil => simp [eraseB, bindings, Binds.list]
  | .cons n x rest =>
    cases i with
    | zero => simp [eraseB, bindings, Binds.list]
    | succ i => simpa [eraseB, bindings, Binds.list] using bindings_erase rest i

/-- What a binding puts in is what it leads to. -/
theorem inlOf_res {Γ : List (Fr K)} {Φ : Ctx K} (hf : Fits' Γ Φ) {ns : List String} {G : Names} {x e : Exp K} (hb : bare x = true)
    (hx : tame G x = true) (h : inlOf Γ ns x = some e) (bs bs' : Comp.Binds K) : Res (.both bs bs' :: Φ) (erase x) e := by
  unfold inlOf at h
  split at h
  case isFalse => cases h
  case isTrue hi =>
    cases h
    cases x with
    | var v =>
      cases v with
      | free n => simp [Exp.trav, sVar, peelMeta, inlinable] at hi
      | bound s i h =>
        cases s with
        | zero => simp [Exp.trav, sVar, inlAt, peelMeta, inlinable] at hi
        | succ s =>
          cases ha : inlAt Γ s i with
          | none => simp [Exp.trav, sVar, inlAt, ha, peelMeta, inlinable] at hi
          | some e =>
            obtain ⟨b, Ψ, h1, h2⟩ := hf.opens ha
            have h3 : Res (.both bs bs' :: Φ) (.var (s + 1) i h) e := .step (.both h1) (h2.rightLet bs')
            have hcl : peelMeta e = e := by
              clear hi h1 h3 ha
              induction h2 with
              | self h => exact h.peel
              | step _ _ ih => exact ih
            simpa [Exp.trav, sVar, inlAt, ha, hcl, erase] using h3
    | lam i ps b =>
      cases i with
      | false => simp [Exp.trav, peelMeta, inlinable] at hi
      | true =>
        have hcl : Closed (.lam true ps b) := tame_closed hx rfl
        rw [hcl.trav (fun d i h => by simp [sVar]), hcl.peel]
        exact .self hcl
    | intrinsic n => exact .self .intrinsic
    | metaOf x m =>
      exfalso
      simp only [Exp.trav, peelMeta] at hi
      simp only [bare] at hb
      revert hi hb
      generalize (Fr.opened ns (fun _ => none) :: Γ : List (Fr K)) = Γ'
      clear hx
      induction x using Exp.rec (motive_2 := fun _ => True) (motive_3 := fun _ => True) with
      | metaOf x m ih _ => exact ih
      | var v => intro hb _; simp [peelMeta] at hb
      | lam i ps b _ =>
        intro hb hi
        cases i with
        | true => simp [peelMeta] at hb
        | false => simp [Exp.trav, peelMeta, inlinable] at hi
      | intrinsic n => intro hb _; simp [peelMeta] at hb
      | let_ | app | lit | node => intro _ hi; simp [Exp.trav, peelMeta, inlinable] at hi
      | _ => trivial
    | _ => simp [Exp.trav, peelMeta, inlinable] at hi

theorem tameB_bare {G : Names} (bs : Binds K) (hb : tameB G bs = true) (p : String × Exp K) (hp : p ∈ bs.list) :
    bare p.2 = true ∧ tame G p.2 = true := by
  match bs with
  | .nil => simp [Binds.list] at hp
  | .cons n x rest =>
    simp only [tameB, Bool.and_eq_true] at hb
    simp only [Binds.list, List.mem_cons] at hp
    rcases hp with rfl | hp
    · exact hb.1
    · exact tameB_bare rest hb.2 p hp

mutual
/-- **Distribution relates a program to the one it gives.** -/
theorem D_T {Γ : List (Fr K)} {Φ : Ctx K} (hf : Fits' Γ Φ) (x : Exp K) (hx : tame (namesOf Γ) x = true) :
    T Φ (erase x) (erase (D Γ x)) := by
  match x with
  | .var v => exact sVar_T hf v hx
  | .let_ t bs b =>
    have hx' := hx
    simp only [tame, Bool.and_eq_true] at hx
    unfold D
    split
    · exact s_T hf (.let_ t bs b) hx'
    · simp only [erase]
      have hf' : Fits' (.opened bs.names (inlsOf Γ bs) :: Γ)
          (.both (eraseB bs) (eraseB (DB (.opened bs.names (inlsOf Γ bs) :: Γ) bs)) :: Φ) := by
        refine .opened hf fun i e hi => ?_
        unfold inlsOf at hi
        cases hp : bs.list[i]? with
        | none => simp [hp] at hi
        | some p =>
          simp only [hp, Option.bind_some] at hi
          obtain ⟨h1, h2⟩ := tameB_bare bs hx.1.2 p (List.mem_of_getElem? hp)
          exact ⟨erase p.2, by simp [bindings_erase, hp], inlOf_res hf h1 h2 hi _ _⟩
      exact .head (.let_ (D_Tb hf' bs hx.1.2) (D_T hf' b hx.2))
  | .lam true ps b =>
    have hcl : Closed (.lam true ps b) := tame_closed hx rfl
    rw [D]
    exact hcl.T Φ
  | .lam false ps b =>
    simp only [D, erase]
    exact .head (.lam (D_T hf.lam b (by simpa [tame, namesOf] using hx)))
  | .app e xs =>
    simp only [tame, Bool.and_eq_true] at hx
    simp only [D, erase]
    exact .head (.app (D_T hf e hx.1) (D_Ts hf xs hx.2))
  | .lit p => rw [D]; exact .head .lit
  | .intrinsic n => rw [D]; exact .head .intrinsic
  | .metaOf x m =>
    simp only [tame, Bool.and_eq_true] at hx
    simp only [D, erase]
    exact .head (.metaOf (D_T hf x hx.1) (D_T hf m hx.2))
  | .node k xs =>
    simp only [D, erase]
    exact nodeOf_T k (D_Ts hf xs (by simpa [tame] using hx))
theorem D_Ts {Γ : List (Fr K)} {Φ : Ctx K} (hf : Fits' Γ Φ) (xs : Exps K) (hx : tameL (namesOf Γ) xs = true) :
    Ts Φ (eraseL xs) (eraseL (DL Γ xs)) := by
  match xs with
  | .nil => simp only [DL]; exact .nil
  | .cons x xs =>
    simp only [tameL, Bool.and_eq_true] at hx
    simp only [DL, eraseL]
    exact .cons (D_T hf x hx.1) (D_Ts hf xs hx.2)
theorem D_Tb {Γ : List (Fr K)} {Φ : Ctx K} (hf : Fits' Γ Φ) (xs : Binds K) (hx : tameB (namesOf Γ) xs = true) :
    Tb Φ (eraseB xs) (eraseB (DB Γ xs)) := by
  match xs with
  | .nil => simp only [DB]; exact .nil
  | .cons n x xs =>
    simp only [tameB, Bool.and_eq_true] at hx
    simp only [DB, eraseB]
    exact .cons (D_T hf x hx.1.2) (D_Tb hf xs hx.2)
end

theorem D_shows {P : World K} (x : Exp K) (hx : tame [] x = true) (p : List Nat) (s : Sem.Seen K) :
    Shows P (erase x) p s ↔ Shows P (erase (D [] x)) p s :=
  shows_same (D_T .nil x hx) p s

end Verif.Inl
