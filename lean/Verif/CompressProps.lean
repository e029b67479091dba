import Verif.CompressLemmas

/-!
# Removing eliminated bindings (C10)
-/

namespace Verif.Dce

open Verif.Core

/-- **Removing eliminated bindings keeps what every reference stands for.** -/
theorem compress_preserves {e e' : Core} (hw : e.WS []) (h : compress [] e = some e') : Same e e' :=
  fun n _ => unfold_compress n (CRel.nil rfl) ⟨[], hw⟩ h

/-! ## When it fails -/

/-- The permutations of the enclosing binders. -/
def Agree (P : List Perm) (Γ : List Slots) : Prop :=
  ∀ s i : Nat, (∃ p j, P[s]? = some p ∧ p[i]? = some (some j)) ↔ ∃ b, Γ[s]? = some b ∧ i < b.count ∧ b.live i

theorem isElim_false {v : Core} : isElim v = false ↔ ∀ parts, v ≠ .node .errEliminated parts := by
  constructor
  · intro h parts he; subst he; simp [isElim] at h
  · intro h
    cases v with
    | node k xs => cases k <;> first | rfl | exact absurd rfl (h xs)
    | _ => rfl

theorem permFrom_live {vs : List Core} {k i : Nat} :
    (∃ j, (permFrom k vs)[i]? = some (some j)) ↔ i < vs.length ∧ ∀ parts, vs[i]? ≠ some (.node .errEliminated parts) := by
  induction vs generalizing i k with
  | nil => simp [permFrom]
  | cons v vs ih =>
    simp only [permFrom]
    cases hv : isElim v with
    | true =>
      rw [if_pos rfl]
      cases i with
      | zero =>
        have : ∃ parts, v = .node .errEliminated parts := by
          cases v with
          | node k xs => cases k <;> simp_all [isElim]
          | _ => simp [isElim] at hv
        obtain ⟨parts, rfl⟩ := this
        simp
      | succ i => simpa using ih
    | false =>
      rw [if_neg (by simp)]
      cases i with
      | zero =>
        simp only [List.getElem?_cons_zero, Option.some.injEq, exists_eq', List.length_cons, Nat.zero_lt_succ, true_and,
          true_iff]
        intro parts
        intro he
        exact isElim_false.mp hv parts (Option.some.inj he)
      | succ i => simpa using ih

theorem Agree.letE {P Γ} (h : Agree P Γ) (vs : List Core) : Agree (permOf vs :: P) (letSlots vs :: Γ) := by
  intro s i
  cases s with
  | zero =>
    have := permFrom_live (vs := vs) (k := 0) (i := i)
    simp only [List.getElem?_cons_zero, Option.some.injEq]
    constructor
    · rintro ⟨p, j, rfl, hp⟩
      exact ⟨_, rfl, this.mp ⟨j, hp⟩⟩
    · rintro ⟨b, rfl, hb⟩
      obtain ⟨j, hj⟩ := this.mpr hb
      exact ⟨_, j, rfl, hj⟩
  | succ s => simpa using h s i

theorem Agree.lam {P Γ} (h : Agree P Γ) (n : Nat) : Agree (permLam n :: P) (lamSlots n :: Γ) := by
  intro s i
  cases s with
  | zero =>
    simp only [List.getElem?_cons_zero, Option.some.injEq]
    constructor
    · rintro ⟨p, j, rfl, hp⟩
      refine ⟨_, rfl, ?_, trivial⟩
      have := (List.getElem?_eq_some_iff.mp hp).1
      simpa [permLam, lamSlots] using this
    · rintro ⟨b, rfl, hb, _⟩
      exact ⟨_, i, rfl, by simp only [lamSlots] at hb; simp [permLam, hb]⟩
  | succ s => simpa using h s i

theorem compressL_iff {P : List Perm} {xs : List Core} :
    (∃ xs', compressL P xs = some xs') ↔ ∀ x ∈ xs, ∃ x', compress P x = some x' := by
  induction xs with
  | nil => simp [compressL]
  | cons x xs ih =>
    simp only [compressL, Option.bind_eq_bind, Option.bind_eq_some_iff, Option.pure_def, Option.some.injEq,
      List.mem_cons, forall_eq_or_imp, ← ih]
    constructor
    · rintro ⟨_, x', h1, xs', h2, _⟩; exact ⟨⟨x', h1⟩, xs', h2⟩
    · rintro ⟨⟨x', h1⟩, xs', h2⟩; exact ⟨_, x', h1, xs', h2, rfl⟩

theorem compressVals_iff {P : List Perm} {ns : List String} {vs : List Core} (hl : ns.length = vs.length) :
    (∃ r, compressVals P ns vs = some r) ↔ ∀ v ∈ vs, isElim v = false → ∃ v', compress P v = some v' := by
  induction vs generalizing ns with
  | nil => cases ns <;> simp [compressVals]
  | cons v vs ih =>
    cases ns with
    | nil => simp at hl
    | cons n ns =>
      simp only [List.length_cons, Nat.add_right_cancel_iff] at hl
      simp only [compressVals, List.mem_cons, forall_eq_or_imp]
      cases hv : isElim v with
      | true => simp [ih hl]
      | false =>
        simp only [Bool.false_eq_true, if_false, Option.bind_eq_bind, Option.bind_eq_some_iff, Option.pure_def,
          Option.some.injEq, forall_const, ← ih hl]
        constructor
        · rintro ⟨_, v', h1, r, h2, _⟩; exact ⟨⟨v', h1⟩, r, h2⟩
        · rintro ⟨⟨v', h1⟩, r, h2⟩; exact ⟨_, v', h1, r, h2, rfl⟩

theorem LiveL_iff {Γ : List Slots} {xs : List Core} : LiveL Γ xs ↔ ∀ x ∈ xs, Live Γ x := by
  induction xs with
  | nil => simp [LiveL]
  | cons x xs ih => simp [LiveL, ih]

theorem LiveB_iff {Γ : List Slots} {xs : List Core} : LiveB Γ xs ↔ ∀ x ∈ xs, isElim x = false → Live Γ x := by
  induction xs with
  | nil => simp [LiveB]
  | cons x xs ih =>
    cases hx : isElim x with
    | true =>
      have : ∃ parts, x = .node .errEliminated parts := by
        cases x with
        | node k xs => cases k <;> simp_all [isElim]
        | _ => simp [isElim] at hx
      obtain ⟨parts, rfl⟩ := this
      simp [LiveB, ih, isElim]
    | false =>
      rw [LiveB]
      · simp [ih, hx]
      · intro parts he
        exact isElim_false.mp hx parts he

theorem compress_iff {e : Core} : ∀ {P : List Perm} {Γ : List Slots} {Δ : List Nat}, Agree P Γ → e.WS Δ →
    ((∃ e', compress P e = some e') ↔ Live Γ e) := by
  induction e using Core.ind with
  | hv v =>
    intro P Γ Δ ha _
    cases v with
    | free x => simp [compress, compressVar, Live, LiveRef]
    | bound s i n =>
      simp only [compress, compressVar, Live, LiveRef, ← ha s i, Option.bind_eq_bind, Option.map_eq_some_iff,
        Option.bind_eq_some_iff, Option.pure_def, Option.some.injEq]
      constructor
      · rintro ⟨_, _, ⟨p, h1, j, h2, _⟩, _⟩
        refine ⟨p, j, h1, ?_⟩
        cases hq : p[i]? with
        | none => simp [hq] at h2
        | some o => rw [hq] at h2; simp at h2; rw [h2]
      · rintro ⟨p, j, h1, h2⟩
        exact ⟨_, _, ⟨p, h1, j, by simp [h2], rfl⟩, rfl⟩
  | hlet ns vs b t ihv ihb =>
    intro P Γ Δ ha hw
    simp only [Core.WS, WSL_iff] at hw
    have hb := ihb (ha.letE vs) hw.2.2
    have hv : (∃ r, compressVals (permOf vs :: P) ns vs = some r) ↔ LiveB (letSlots vs :: Γ) vs := by
      rw [compressVals_iff hw.1, LiveB_iff]
      constructor
      · intro h v hv he; exact (ihv v hv (ha.letE vs) (hw.2.1 v hv)).mp (h v hv he)
      · intro h v hv he; exact (ihv v hv (ha.letE vs) (hw.2.1 v hv)).mpr (h v hv he)
    simp only [compress, Live, ← hb, ← hv, Option.bind_eq_bind, Option.bind_eq_some_iff, Option.pure_def]
    constructor
    · rintro ⟨_, r, h1, b', h2, _⟩; exact ⟨hw.1, ⟨r, h1⟩, b', h2⟩
    · rintro ⟨_, ⟨r, h1⟩, b', h2⟩
      by_cases hr : r.1 ≠ []
      · exact ⟨_, r, h1, b', h2, by rw [if_pos hr]⟩
      · exact ⟨_, r, h1, b', h2, by rw [if_neg hr]⟩
  | hlam ps b ih =>
    intro P Γ Δ ha hw
    simp only [compress, Live, ← ih (ha.lam ps.length) hw, Option.bind_eq_bind, Option.bind_eq_some_iff,
      Option.pure_def, Option.some.injEq]
    constructor
    · rintro ⟨_, b', h, _⟩; exact ⟨b', h⟩
    · rintro ⟨b', h⟩; exact ⟨_, b', h, rfl⟩
  | hn k xs ih =>
    intro P Γ Δ ha hw
    simp only [Core.WS, WSL_iff] at hw
    have hx : (∃ xs', compressL P xs = some xs') ↔ LiveL Γ xs := by
      rw [compressL_iff, LiveL_iff]
      constructor
      · intro h x hx; exact (ih x hx ha (hw x hx)).mp (h x hx)
      · intro h x hx; exact (ih x hx ha (hw x hx)).mpr (h x hx)
    simp only [compress, Live, ← hx, Option.bind_eq_bind, Option.bind_eq_some_iff, Option.pure_def, Option.some.injEq]
    constructor
    · rintro ⟨_, xs', h, _⟩; exact ⟨xs', h⟩
    · rintro ⟨xs', h⟩; exact ⟨_, xs', h, rfl⟩

/-- **It fails exactly when a reference to an eliminated binding is left.** -/
theorem compress_total {e : Core} (hw : e.WS []) : (∃ e', compress [] e = some e') ↔ Live [] e :=
  compress_iff (fun s i => by simp) hw

/-! ## The result -/

/-- The new indices are in range. -/
def Into (P : List Perm) (Γ : List Nat) : Prop :=
  ∀ (s i j : Nat) p, P[s]? = some p → p[i]? = some (some j) → ∃ m, Γ[s]? = some m ∧ j < m

theorem Into.letE {P Γ} (h : Into P Γ) {ns : List String} {vs : List Core} {r : List String × List Core} {Q : List Perm}
    (hl : ns.length = vs.length) (hr : compressVals Q ns vs = some r) : Into (permOf vs :: P) (r.2.length :: Γ) := by
  intro s i j p hs hp
  cases s with
  | zero =>
    simp at hs
    subst hs
    obtain ⟨_, v', _, h2, _⟩ := vals_get hl hr hp
    have := (List.getElem?_eq_some_iff.mp h2).1
    exact ⟨_, rfl, by omega⟩
  | succ s => simpa using h s i j p (by simpa using hs) hp

theorem Into.lam {P Γ} (h : Into P Γ) (n : Nat) : Into (permLam n :: P) (n :: Γ) := by
  intro s i j p hs hp
  cases s with
  | zero =>
    simp at hs
    subst hs
    have := permLam_get hp
    subst this
    have := (List.getElem?_eq_some_iff.mp hp).1
    exact ⟨_, rfl, by simpa [permLam] using this⟩
  | succ s => simpa using h s i j p (by simpa using hs) hp

theorem compress_scoped {e e' : Core} : ∀ {P : List Perm} {Γ Δ : List Nat}, Into P Γ → e.WS Δ →
    compress P e = some e' → e'.WS Γ := by
  induction e using Core.ind generalizing e' with
  | hv v =>
    intro P Γ Δ hi _ h
    cases v with
    | free x => simp [compress, compressVar] at h; subst h; exact trivial
    | bound s i n =>
      simp only [compress, compressVar, Option.bind_eq_bind, Option.map_eq_some_iff, Option.bind_eq_some_iff,
        Option.pure_def, Option.some.injEq] at h
      obtain ⟨w, ⟨q, h1, j, h2, rfl⟩, rfl⟩ := h
      refine hi s i j q h1 ?_
      cases hq : q[i]? with
      | none => simp [hq] at h2
      | some o => rw [hq] at h2; simp at h2; rw [h2]
  | hlet ns vs b t ihv ihb =>
    intro P Γ Δ hi hw h
    simp only [Core.WS, WSL_iff] at hw
    simp only [compress, Option.bind_eq_bind, Option.bind_eq_some_iff, Option.pure_def] at h
    obtain ⟨r, h1, b', h2, h3⟩ := h
    have hi' := hi.letE hw.1 h1
    have hb := ihb hi' hw.2.2 h2
    split at h3
    · simp only [Option.some.injEq] at h3
      subst h3
      simp only [Core.WS, WSL_iff]
      refine ⟨vals_length h1, ?_, hb⟩
      intro v' hv'
      obtain ⟨v, hv, hc⟩ := vals_all h1 v' hv'
      exact ihv v hv hi' (hw.2.1 v hv) hc
    · next he =>
      simp only [Option.some.injEq] at h3
      subst h3
      have hz : r.1 = [] := by simpa using he
      have hn := compress_noRef 0 _ (permOf vs) rfl (vals_empty hw.1 h1 hz 0) ⟨_, hw.2.2⟩ h2
      refine WS_pred r.2.length [] (All.imp (fun d v hv => ?_) hn) hb
      cases v with
      | free x => trivial
      | bound s i n => simpa [noRefAt, noRef] using hv
  | hlam ps b ih =>
    intro P Γ Δ hi hw h
    simp only [compress, Option.bind_eq_bind, Option.bind_eq_some_iff, Option.pure_def, Option.some.injEq] at h
    obtain ⟨b', h2, rfl⟩ := h
    simp only [Core.WS]
    exact ih (hi.lam ps.length) hw h2
  | hn k xs ih =>
    intro P Γ Δ hi hw h
    simp only [Core.WS, WSL_iff] at hw
    simp only [compress, Option.bind_eq_bind, Option.bind_eq_some_iff, Option.pure_def, Option.some.injEq] at h
    obtain ⟨xs', h2, rfl⟩ := h
    obtain ⟨hl, hx⟩ := compressL_some h2
    simp only [Core.WS, WSL_iff]
    intro x' hx'
    obtain ⟨i, hi2, hxi⟩ := List.getElem_of_mem hx'
    have hi3 : i < xs.length := by omega
    exact ih _ (List.getElem_mem hi3) hi (hw _ (List.getElem_mem hi3))
      (hx i xs[i] x' (List.getElem?_eq_getElem hi3) (by rw [List.getElem?_eq_getElem hi2, hxi]))

/-- The result is well scoped. -/
theorem compress_ws {e e' : Core} (hw : e.WS []) (h : compress [] e = some e') : e'.WS [] :=
  compress_scoped (fun s i j p hs => by simp at hs) hw h

mutual
/-- The names of the bindings that are not eliminated, nor inside eliminated ones. -/
def liveNames : Core → List String
  | .var _ => []
  | .letE ns vs b _ => liveB ns vs ++ liveNames b
  | .lam _ b => liveNames b
  | .node _ xs => liveNamesL xs
def liveB : List String → List Core → List String
  | n :: ns, v :: vs => match v with
    | .node .errEliminated _ => liveB ns vs
    | v => n :: liveNames v ++ liveB ns vs
  | _, _ => []
def liveNamesL : List Core → List String
  | [] => []
  | x :: xs => liveNames x ++ liveNamesL xs
end

mutual
/-- The names of all the bindings. -/
def allNames : Core → List String
  | .var _ => []
  | .letE ns vs b _ => allB ns vs ++ allNames b
  | .lam _ b => allNames b
  | .node _ xs => allNamesL xs
def allB : List String → List Core → List String
  | n :: ns, v :: vs => n :: allNames v ++ allB ns vs
  | _, _ => []
def allNamesL : List Core → List String
  | [] => []
  | x :: xs => allNames x ++ allNamesL xs
end

theorem allNamesL_eq (xs : List Core) : allNamesL xs = xs.flatMap allNames := by
  induction xs with
  | nil => rfl
  | cons x xs ih => simp [allNamesL, ih]

theorem allB_map {f : Core → Core} {ns : List String} {vs : List Core} (h : ∀ v ∈ vs, allNames (f v) = allNames v) :
    allB ns (vs.map f) = allB ns vs := by
  induction vs generalizing ns with
  | nil => cases ns <;> rfl
  | cons v vs ih =>
    cases ns with
    | nil => rfl
    | cons n ns =>
      simp only [List.map_cons, allB, h v (by simp)]
      rw [ih fun w hw => h w (by simp [hw])]

theorem allNames_mapVars (f : Nat → Var → Var) (d : Nat) (e : Core) : allNames (e.mapVars f d) = allNames e := by
  induction e using Core.ind generalizing d with
  | hv v => rfl
  | hlet ns vs b t ihv ihb =>
    simp only [Core.mapVars, mapVarsL_eq, allNames, ihb]
    rw [allB_map fun v hv => ihv v hv _]
  | hlam ps b ih => simp only [Core.mapVars, allNames, ih]
  | hn k xs ih =>
    simp only [Core.mapVars, mapVarsL_eq, allNames, allNamesL_eq, List.flatMap_map]
    simp only [List.flatMap]
    congr 1
    exact List.map_congr_left fun x hx => ih x hx d

theorem names_vals {P : List Perm} {ns : List String} {vs : List Core} {r : List String × List Core}
    (hv : ∀ v ∈ vs, ∀ v', compress P v = some v' → allNames v' = liveNames v)
    (h : compressVals P ns vs = some r) : allB r.1 r.2 = liveB ns vs := by
  induction vs generalizing ns r with
  | nil => cases ns <;> (simp [compressVals] at h; subst h; rfl)
  | cons v vs ih =>
    cases ns with
    | nil => simp [compressVals] at h; subst h; rfl
    | cons n ns =>
      simp only [compressVals] at h
      cases he : isElim v with
      | true =>
        have : ∃ parts, v = .node .errEliminated parts := by
          cases v with
          | node k xs => cases k <;> simp_all [isElim]
          | _ => simp [isElim] at he
        obtain ⟨parts, rfl⟩ := this
        rw [if_pos (by simp [isElim])] at h
        simp only [liveB]
        exact ih (fun w hw => hv w (by simp [hw])) h
      | false =>
        rw [he] at h
        simp only [Bool.false_eq_true, if_false, Option.bind_eq_bind, Option.bind_eq_some_iff, Option.pure_def,
          Option.some.injEq] at h
        obtain ⟨v', h1, r', h2, rfl⟩ := h
        have hlb : liveB (n :: ns) (v :: vs) = n :: liveNames v ++ liveB ns vs := by
          rw [liveB]
          exact fun parts hp => isElim_false.mp he parts hp
        rw [hlb]
        simp only [allB, hv v (by simp) v' h1, ih (fun w hw => hv w (by simp [hw])) h2]

/-- **Exactly the eliminated bindings are removed**: those left are, in order, the ones that were not. -/
theorem compress_names {e e' : Core} {P : List Perm} (h : compress P e = some e') : allNames e' = liveNames e := by
  induction e using Core.ind generalizing P e' with
  | hv v =>
    simp only [compress, Option.map_eq_some_iff] at h
    obtain ⟨w, _, rfl⟩ := h
    rfl
  | hlet ns vs b t ihv ihb =>
    simp only [compress, Option.bind_eq_bind, Option.bind_eq_some_iff, Option.pure_def] at h
    obtain ⟨r, h1, b', h2, h3⟩ := h
    have hn := names_vals (fun v hv v' hc => ihv v hv hc) h1
    have hb := ihb h2
    split at h3
    · simp only [Option.some.injEq] at h3
      subst h3
      simp only [allNames, liveNames, hn, hb]
    · next he =>
      simp only [Option.some.injEq] at h3
      subst h3
      have hz : r.1 = [] := by simpa using he
      rw [hz] at hn
      simp only [pred, allNames_mapVars, hb, liveNames, ← hn, allB, List.nil_append]
  | hlam ps b ih =>
    simp only [compress, Option.bind_eq_bind, Option.bind_eq_some_iff, Option.pure_def, Option.some.injEq] at h
    obtain ⟨b', h2, rfl⟩ := h
    simp only [allNames, liveNames]
    exact ih h2
  | hn k xs ih =>
    simp only [compress, Option.bind_eq_bind, Option.bind_eq_some_iff, Option.pure_def, Option.some.injEq] at h
    obtain ⟨xs', h2, rfl⟩ := h
    simp only [allNames, liveNames]
    induction xs generalizing xs' with
    | nil => simp [compressL] at h2; subst h2; rfl
    | cons x xs ih' =>
      simp only [compressL, Option.bind_eq_bind, Option.bind_eq_some_iff, Option.pure_def, Option.some.injEq] at h2
      obtain ⟨x', g1, xs'', g2, rfl⟩ := h2
      simp only [allNamesL, liveNamesL, ih x (by simp) g1,
        ih' (fun y hy => ih y (List.mem_cons_of_mem _ hy)) _ g2]

section
def elim : Core := .node .errEliminated []
/-- Two nested groups, the inner one eliminated altogether. -/
def wDce : Core :=
  .letE ["a", "b", "c"] [elim, .node (.literal "1") [], .lam ["p"] (.node .app [.var (.bound 1 1 (some "b")),
      .var (.bound 0 0 (some "p"))])]
    (.letE ["x", "y"] [elim, elim]
      (.node .list [.var (.bound 1 2 (some "c")), .var (.bound 1 1 (some "b"))]) .default) .default

example : wDce.WS [] := by simp [wDce, elim, Core.WS, WSL, Var.InScope]
example : Live [] wDce := by
  simp [wDce, elim, Live, LiveB, LiveL, LiveRef, letSlots, lamSlots]
example : compress [] wDce = some
    (.letE ["b", "c"] [.node (.literal "1") [], .lam ["p"] (.node .app [.var (.bound 1 0 (some "b")),
        .var (.bound 0 0 (some "p"))])]
      (.node .list [.var (.bound 0 1 (some "c")), .var (.bound 0 0 (some "b"))]) .default) := by
  rfl
-- a reference to an eliminated binding
example : compress [] (.letE ["a", "b"] [elim, .var (.bound 0 0 (some "a"))] (.var (.bound 0 1 (some "b"))) .other) = none := by
  rfl
end

end Verif.Dce
