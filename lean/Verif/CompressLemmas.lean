import Verif.CompressModel
import Verif.CoreSemLemmas

/-! Helper lemmas about removing eliminated bindings. -/

namespace Verif.Dce

open Verif.Core

theorem permFrom_get {vs : List Core} {i j k : Nat} (h : (permFrom k vs)[i]? = some (some j)) :
    ∃ v, vs[i]? = some v ∧ isElim v = false ∧ k ≤ j := by
  induction vs generalizing i k with
  | nil => simp [permFrom] at h
  | cons v vs ih =>
    simp only [permFrom] at h
    cases hv : isElim v with
    | true =>
      rw [hv] at h
      cases i with
      | zero => simp at h
      | succ i => simp at h; exact ih h
    | false =>
      rw [hv] at h
      cases i with
      | zero => simp at h; exact ⟨v, rfl, hv, by omega⟩
      | succ i =>
        simp at h
        obtain ⟨w, h1, h2, h3⟩ := ih h
        exact ⟨w, by simpa using h1, h2, by omega⟩

theorem vals_get {perms : List Perm} {ns : List String} {vs : List Core} {r : List String × List Core} {k : Nat}
    (hl : ns.length = vs.length)
    (h : compressVals perms ns vs = some r) {i j : Nat} (hp : (permFrom k vs)[i]? = some (some j)) :
    ∃ v v', vs[i]? = some v ∧ r.2[j - k]? = some v' ∧ compress perms v = some v' := by
  induction vs generalizing ns r i k with
  | nil => simp [permFrom] at hp
  | cons v vs ih =>
    cases ns with
    | nil => simp at hl
    | cons n ns =>
      simp only [List.length_cons, Nat.add_right_cancel_iff] at hl
      simp only [compressVals] at h
      simp only [permFrom] at hp
      cases hv : isElim v with
      | true =>
        rw [hv] at h hp
        cases i with
        | zero => simp at hp
        | succ i => simp at h hp; obtain ⟨w, w', h1, h2, h3⟩ := ih hl h hp; exact ⟨w, w', by simpa using h1, h2, h3⟩
      | false =>
        rw [hv] at h hp
        simp only [Bool.false_eq_true, if_false, Option.bind_eq_bind, Option.bind_eq_some_iff, Option.pure_def,
          Option.some.injEq] at h hp
        obtain ⟨v', h1, r', h2, rfl⟩ := h
        cases i with
        | zero => simp at hp; subst hp; exact ⟨v, v', rfl, by simp, h1⟩
        | succ i =>
          simp at hp
          obtain ⟨w, w', g1, g2, g3⟩ := ih hl h2 hp
          obtain ⟨_, _, _, hkj⟩ := permFrom_get hp
          refine ⟨w, w', by simpa using g1, ?_, g3⟩
          rw [show j - k = (j - (k + 1)) + 1 by omega, List.getElem?_cons_succ]
          exact g2

theorem vals_length {perms : List Perm} {ns : List String} {vs : List Core} {r : List String × List Core}
    (h : compressVals perms ns vs = some r) : r.1.length = r.2.length := by
  induction vs generalizing ns r with
  | nil => cases ns <;> (simp [compressVals] at h; subst h; rfl)
  | cons v vs ih =>
    cases ns with
    | nil => simp [compressVals] at h; subst h; rfl
    | cons n ns =>
      simp only [compressVals] at h
      split at h
      · exact ih h
      · simp only [Option.bind_eq_bind, Option.bind_eq_some_iff, Option.pure_def, Option.some.injEq] at h
        obtain ⟨v', h1, r', h2, rfl⟩ := h
        simp [ih h2]

/-- No bindings left: all are eliminated. -/
theorem vals_empty {perms : List Perm} {ns : List String} {vs : List Core} {r : List String × List Core}
    (hl : ns.length = vs.length) (h : compressVals perms ns vs = some r) (he : r.1 = []) (k : Nat) :
    ∀ i j : Nat, (permFrom k vs)[i]? ≠ some (some j) := by
  intro i j hp
  obtain ⟨v, v', _, h2, _⟩ := vals_get hl h hp
  have := vals_length h
  rw [he] at this
  have : r.2 = [] := List.length_eq_zero_iff.mp this.symm
  rw [this] at h2
  simp at h2

theorem compressL_some {perms : List Perm} {xs xs' : List Core} (h : compressL perms xs = some xs') :
    xs'.length = xs.length ∧ ∀ (i : Nat) x x', xs[i]? = some x → xs'[i]? = some x' → compress perms x = some x' := by
  induction xs generalizing xs' with
  | nil => simp [compressL] at h; subst h; simp
  | cons x xs ih =>
    simp only [compressL, Option.bind_eq_bind, Option.bind_eq_some_iff, Option.pure_def, Option.some.injEq] at h
    obtain ⟨x', h1, xs'', h2, rfl⟩ := h
    obtain ⟨g1, g2⟩ := ih h2
    refine ⟨by simp [g1], ?_⟩
    intro i y y' hy hy'
    cases i with
    | zero => simp at hy hy'; subst hy hy'; exact h1
    | succ i => exact g2 i y y' (by simpa using hy) (by simpa using hy')

/-! ## No reference to a binder that is removed -/

/-- No reference to the binder `d + a` levels out. -/
def noRefAt (a d : Nat) : Var → Prop
  | .free _ => True
  | .bound s _ _ => s ≠ d + a

theorem vals_all {perms : List Perm} {ns : List String} {vs : List Core} {r : List String × List Core}
    (h : compressVals perms ns vs = some r) : ∀ v' ∈ r.2, ∃ v ∈ vs, compress perms v = some v' := by
  induction vs generalizing ns r with
  | nil => cases ns <;> (simp [compressVals] at h; subst h; simp)
  | cons v vs ih =>
    cases ns with
    | nil => simp [compressVals] at h; subst h; simp
    | cons n ns =>
      simp only [compressVals] at h
      split at h
      · intro v' hv'
        obtain ⟨w, hw, hc⟩ := ih h v' hv'
        exact ⟨w, by simp [hw], hc⟩
      · simp only [Option.bind_eq_bind, Option.bind_eq_some_iff, Option.pure_def, Option.some.injEq] at h
        obtain ⟨v', h1, r', h2, rfl⟩ := h
        intro w' hw'
        simp only [List.mem_cons] at hw'
        rcases hw' with rfl | hw'
        · exact ⟨v, by simp, h1⟩
        · obtain ⟨w, hw, hc⟩ := ih h2 w' hw'
          exact ⟨w, by simp [hw], hc⟩

theorem pred_noRef {a : Nat} {e : Core} (h0 : e.All (noRefAt 0) 0) (h1 : e.All (noRefAt (a + 1)) 0) :
    (pred e).All (noRefAt a) 0 := by
  unfold pred
  rw [All_mapVars]
  refine All.imp (fun d v hv => ?_) (All.and h0 h1)
  cases v with
  | free x => trivial
  | bound s i n =>
    simp only [noRefAt, predVar] at hv ⊢
    by_cases hs : d ≤ s
    · rw [if_pos hs]; simp only; omega
    · rw [if_neg hs]; simp only; omega

/-- `compress` never leaves a reference to a binder all of whose slots are eliminated. -/
theorem compress_noRef {e e' : Core} (a : Nat) (perms : List Perm) (p : Perm) (hp : perms[a]? = some p)
    (hno : ∀ i j : Nat, p[i]? ≠ some (some j)) (hw : ∃ Γ, e.WS Γ) (h : compress perms e = some e') :
    e'.All (noRefAt a) 0 := by
  induction e using Core.ind generalizing a perms e' p with
  | hv v =>
    cases v with
    | free x => simp [compress, compressVar] at h; subst h; exact trivial
    | bound s i n =>
      simp only [compress, compressVar, Option.bind_eq_bind, Option.map_eq_some_iff, Option.bind_eq_some_iff,
        Option.pure_def, Option.some.injEq] at h
      obtain ⟨w, ⟨q, h1, j, h2, rfl⟩, rfl⟩ := h
      rw [All_var]
      intro hs
      rw [Nat.zero_add] at hs
      subst hs
      rw [hp] at h1
      cases h1
      cases hq : p[i]? with
      | none => simp [hq] at h2
      | some o =>
        rw [hq] at h2
        simp at h2
        subst h2
        exact hno i j hq
  | hlet ns vs b t ihv ihb =>
    obtain ⟨Γ, hl, hwv, hwb⟩ := hw
    rw [WSL_iff] at hwv
    simp only [compress, Option.bind_eq_bind, Option.bind_eq_some_iff, Option.pure_def] at h
    obtain ⟨r, h1, b', h2, h3⟩ := h
    have hp' : (permOf vs :: perms)[a + 1]? = some p := by simpa using hp
    have hb := ihb (a + 1) _ p hp' hno ⟨_, hwb⟩ h2
    split at h3
    · simp only [Option.some.injEq] at h3
      subst h3
      rw [All_let]
      constructor
      · intro v' hv'
        obtain ⟨v, hv, hc⟩ := vals_all h1 v' hv'
        have := ihv v hv (a + 1) _ p hp' hno ⟨_, hwv v hv⟩ hc
        rw [Nat.zero_add]
        have hs := (All_shift (noRefAt a) 1 0 v').mpr
        rw [Nat.zero_add] at hs
        refine hs (All.imp (fun d w hw => ?_) this)
        cases w with
        | free x => trivial
        | bound s i n => simp only [noRefAt] at hw ⊢; omega
      · have hs := (All_shift (noRefAt a) 1 0 b').mpr
        rw [Nat.zero_add] at hs ⊢
        refine hs (All.imp (fun d w hw => ?_) hb)
        cases w with
        | free x => trivial
        | bound s i n => simp only [noRefAt] at hw ⊢; omega
    · next he =>
      simp only [Option.some.injEq] at h3
      subst h3
      have hz : r.1 = [] := by simpa using he
      exact pred_noRef (ihb 0 _ (permOf vs) rfl (vals_empty hl h1 hz 0) ⟨_, hwb⟩ h2) hb
  | hlam ps b ih =>
    obtain ⟨Γ, hwb⟩ := hw
    simp only [compress, Option.bind_eq_bind, Option.bind_eq_some_iff, Option.pure_def, Option.some.injEq] at h
    obtain ⟨b', h2, rfl⟩ := h
    have hb := ih (a + 1) (permLam ps.length :: perms) p (by simpa using hp) hno ⟨_, hwb⟩ h2
    rw [All_lam]
    have hs := (All_shift (noRefAt a) 1 0 b').mpr
    rw [Nat.zero_add] at hs ⊢
    refine hs (All.imp (fun d w hw => ?_) hb)
    cases w with
    | free x => trivial
    | bound s i n => simp only [noRefAt] at hw ⊢; omega
  | hn k xs ih =>
    obtain ⟨Γ, hwx⟩ := hw
    simp only [Core.WS, WSL_iff] at hwx
    simp only [compress, Option.bind_eq_bind, Option.bind_eq_some_iff, Option.pure_def, Option.some.injEq] at h
    obtain ⟨xs', h2, rfl⟩ := h
    obtain ⟨hl, hx⟩ := compressL_some h2
    rw [All_node]
    intro x' hx'
    obtain ⟨i, hi, hxi⟩ := List.getElem_of_mem hx'
    have hi2 : i < xs.length := by omega
    have := hx i xs[i] x' (List.getElem?_eq_getElem hi2) (by rw [List.getElem?_eq_getElem hi, hxi])
    exact ih _ (List.getElem_mem hi2) a perms p hp hno ⟨Γ, hwx _ (List.getElem_mem hi2)⟩ this

/-! ## Leaving a binder that is not referred to -/

def dropVar : Var → Var
  | .free x => .free x
  | .bound s i n => .bound (s - 1) i n

def OkDrop : Var → Prop
  | .free _ => True
  | .bound s _ _ => s ≠ 0

inductive BDrop : EnvRel
  | mk {fr E} : (∀ l, fr ≠ Frame.lam l) → BDrop (fr :: E) E dropVar OkDrop

theorem BDrop.closed : Closed BDrop := by
  intro E E' φ Ok h
  cases h with
  | @mk fr _ hfr =>
    refine ⟨?_, ?_⟩
    · cases fr with
      | lam l => exact absurd rfl (hfr l)
      | letF vs => rfl
    · intro v hv
      cases v with
      | free x => exact RefRel_refl _ _
      | bound s i n =>
        have h0 : s ≠ 0 := hv
        have : look (fr :: E') (.bound s i n) = look E' (.bound (s - 1) i n) := by
          rw [← look_up_one fr E']
          simp only [Var.up]
          rw [show s - 1 + 1 = s by omega]
        rw [this]
        exact RefRel_refl _ _

theorem unfold_pred {vs : List Core} {E : Env} {e : Core} (h : e.All (noRefAt 0) 0) (n : Nat) :
    unfold n (.letF vs :: E) e = unfold n E (pred e) := by
  have hp : pred e = ren dropVar e := by
    unfold pred ren
    refine mapVars_congr (All.imp (fun d v hv => ?_) h)
    cases v with
    | free x => rfl
    | bound s i n =>
      simp only [noRefAt, Nat.add_zero] at hv
      simp only [predVar, liftV, dropVar, Var.up]
      by_cases hs : s < d
      · rw [if_pos hs, if_neg (by omega)]
      · rw [if_neg hs, if_pos (by omega)]
        congr 1; omega
  rw [hp]
  refine unfold_ren BDrop.closed n (Push.base (BDrop.mk (by simp))) (All.imp (fun d v hv => ?_) h)
  cases v with
  | free x => trivial
  | bound s i n =>
    simp only [noRefAt, Nat.add_zero] at hv
    simp only [liftOk, OkDrop]
    split
    · trivial
    · omega

/-! ## The semantics of compressing -/

/-- Environments before and after. -/
inductive CRel : List Perm → Env → Env → Prop
  | nil {E E'} : lamCount E = lamCount E' → CRel [] E E'
  | lam {P E E'} (l m : Nat) : CRel P E E' → CRel (permLam m :: P) (.lam l :: E) (.lam l :: E')
  | letF {P E E'} {ns : List String} {vs : List Core} {r : List String × List Core} : CRel P E E' →
      ns.length = vs.length → (∀ v ∈ vs, ∃ Γ, v.WS Γ) → compressVals (permOf vs :: P) ns vs = some r →
      CRel (permOf vs :: P) (.letF vs :: E) (.letF r.2 :: E')

theorem CRel.lamCount {P E E'} (h : CRel P E E') : lamCount E = lamCount E' := by
  induction h with
  | nil h => exact h
  | lam l m _ ih => simp [Core.lamCount, ih]
  | letF _ _ _ _ ih => simp [Core.lamCount, ih]

theorem permLam_get {m i j : Nat} (h : (permLam m)[i]? = some (some j)) : j = i := by
  simp only [permLam, List.getElem?_map, Option.map_eq_some_iff, Option.some.injEq] at h
  obtain ⟨a, h1, rfl⟩ := h
  have := List.getElem?_eq_some_iff.mp h1
  obtain ⟨_, h2⟩ := this
  simpa using h2.symm

/-- What is seen of a reference and of its compression. -/
theorem CRel.look {P E E'} (h : CRel P E E') {s i j : Nat} {n : Option String} {p : Perm} (hs : P[s]? = some p)
    (hp : p[i]? = some (some j)) :
    (∃ l, look E (.bound s i n) = .param l i ∧ look E' (.bound s j n) = .param l i) ∨
    ∃ P' F F' v v', look E (.bound s i n) = .val F v ∧ look E' (.bound s j n) = .val F' v' ∧ CRel P' F F' ∧
      (∃ Γ, v.WS Γ) ∧ compress P' v = some v' := by
  induction h generalizing s with
  | nil h => simp at hs
  | @lam P E E' l m h ih =>
    cases s with
    | zero =>
      simp at hs
      subst hs
      have := permLam_get hp
      subst this
      exact Or.inl ⟨l, rfl, rfl⟩
    | succ s =>
      have := ih (s := s) (by simpa using hs)
      have h1 := look_up_one (.lam l) E (.bound s i n)
      have h2 := look_up_one (.lam l) E' (.bound s j n)
      simp only [Var.up] at h1 h2
      rw [h1, h2]
      exact this
  | @letF P E E' ns vs r h hl hw hc ih =>
    cases s with
    | zero =>
      simp at hs
      subst hs
      obtain ⟨v, v', h1, h2, h3⟩ := vals_get hl hc hp
      refine Or.inr ⟨_, _, _, v, v', ?_, ?_, .letF h hl hw hc, hw v (List.mem_of_getElem? h1), h3⟩
      · simp [Core.look, h1]
      · simp at h2; simp [Core.look, h2]
    | succ s =>
      have := ih (s := s) (by simpa using hs)
      have h1 := look_up_one (.letF vs) E (.bound s i n)
      have h2 := look_up_one (.letF r.2) E' (.bound s j n)
      simp only [Var.up] at h1 h2
      rw [h1, h2]
      exact this

theorem unfold_compress (n : Nat) : ∀ {e e' : Core} {P E E'}, CRel P E E' → (∃ Γ, e.WS Γ) →
    compress P e = some e' → unfold n E e = unfold n E' e' := by
  -- what is seen of references, `k` and `m` being the fuel before and after
  have step : ∀ n, (∀ m, m < n → ∀ {e e' : Core} {P E E'}, CRel P E E' → (∃ Γ, e.WS Γ) →
      compress P e = some e' → unfold m E e = unfold m E' e') →
      ∀ {e e' : Core} {P E E'}, CRel P E E' → (∃ Γ, e.WS Γ) → compress P e = some e' →
        unfold n E e = unfold n E' e' := by
    intro n hk e
    induction e using Core.ind with
    | hv v =>
      intro e' P E E' hr _ h
      cases v with
      | free x =>
        simp [compress, compressVar] at h
        subst h
        cases n <;> rfl
      | bound s i nm =>
        simp only [compress, compressVar, Option.bind_eq_bind, Option.map_eq_some_iff, Option.bind_eq_some_iff,
          Option.pure_def, Option.some.injEq] at h
        obtain ⟨w, ⟨q, h1, j, h2, rfl⟩, rfl⟩ := h
        have hq : q[i]? = some (some j) := by
          cases hq : q[i]? with
          | none => simp [hq] at h2
          | some o => rw [hq] at h2; simp at h2; rw [h2]
        have hl := hr.look (n := nm) h1 hq
        rcases hl with ⟨l, g1, g2⟩ | ⟨P', F, F', v, v', g1, g2, g3, g4, g5⟩
        · cases n <;> simp [unfold, unfoldWith, g1, g2, seen]
        · cases n with
          | zero => simp [unfold, unfoldWith, g1, g2, seen]
          | succ m =>
            simp only [unfold, unfoldWith, g1, g2, seen]
            exact hk m (by omega) g3 g4 g5
    | hlet ns vs b t ihv ihb =>
      intro e' P E E' hr hw h
      obtain ⟨Γ, hl, hwv, hwb⟩ := hw
      rw [WSL_iff] at hwv
      simp only [compress, Option.bind_eq_bind, Option.bind_eq_some_iff, Option.pure_def] at h
      obtain ⟨r, h1, b', h2, h3⟩ := h
      have hb := ihb (CRel.letF hr hl (fun v hv => ⟨_, hwv v hv⟩) h1) ⟨_, hwb⟩ h2
      rw [unfold_let, hb]
      split at h3
      · simp only [Option.some.injEq] at h3
        subst h3
        rw [unfold_let]
      · next he =>
        simp only [Option.some.injEq] at h3
        subst h3
        have hz : r.1 = [] := by simpa using he
        exact unfold_pred (compress_noRef 0 _ (permOf vs) rfl (vals_empty hl h1 hz 0) ⟨_, hwb⟩ h2) n
    | hlam ps b ih =>
      intro e' P E E' hr hw h
      obtain ⟨Γ, hwb⟩ := hw
      simp only [compress, Option.bind_eq_bind, Option.bind_eq_some_iff, Option.pure_def, Option.some.injEq] at h
      obtain ⟨b', h2, rfl⟩ := h
      rw [unfold_lam, unfold_lam, ← hr.lamCount, ih (CRel.lam (lamCount E) ps.length hr) ⟨_, hwb⟩ h2]
    | hn k xs ih =>
      intro e' P E E' hr hw h
      obtain ⟨Γ, hwx⟩ := hw
      simp only [Core.WS, WSL_iff] at hwx
      simp only [compress, Option.bind_eq_bind, Option.bind_eq_some_iff, Option.pure_def, Option.some.injEq] at h
      obtain ⟨xs', h2, rfl⟩ := h
      obtain ⟨hl, hx⟩ := compressL_some h2
      rw [unfold_node, unfold_node]
      congr 1
      refine List.ext_getElem (by simp [hl]) ?_
      intro i hi hi'
      simp only [List.length_map] at hi hi'
      simp only [List.getElem_map]
      exact ih _ (List.getElem_mem hi) hr ⟨Γ, hwx _ (List.getElem_mem hi)⟩
        (hx i _ _ (List.getElem?_eq_getElem hi) (List.getElem?_eq_getElem hi'))
  induction n using Nat.strongRecOn with
  | _ n ih => exact step n fun m hm => ih m hm

end Verif.Dce
