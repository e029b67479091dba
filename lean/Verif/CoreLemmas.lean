import Verif.CoreSpec

/-! Helper lemmas about core expressions. -/

namespace Verif.Core

/-! ## Induction and lists -/

mutual
theorem Core.ind {P : Core → Prop} (hv : ∀ v, P (.var v))
    (hlet : ∀ ns vs b t, (∀ v ∈ vs, P v) → P b → P (.letE ns vs b t))
    (hlam : ∀ ps b, P b → P (.lam ps b)) (hn : ∀ k xs, (∀ x ∈ xs, P x) → P (.node k xs)) : ∀ e, P e
  | .var v => hv v
  | .letE ns vs b t => hlet ns vs b t (Core.indL hv hlet hlam hn vs) (Core.ind hv hlet hlam hn b)
  | .lam ps b => hlam ps b (Core.ind hv hlet hlam hn b)
  | .node k xs => hn k xs (Core.indL hv hlet hlam hn xs)
theorem Core.indL {P : Core → Prop} (hv : ∀ v, P (.var v))
    (hlet : ∀ ns vs b t, (∀ v ∈ vs, P v) → P b → P (.letE ns vs b t))
    (hlam : ∀ ps b, P b → P (.lam ps b)) (hn : ∀ k xs, (∀ x ∈ xs, P x) → P (.node k xs)) :
    ∀ es : List Core, ∀ e ∈ es, P e
  | [] => fun e h => nomatch h
  | x :: xs => fun e h => by
    have hx := Core.ind hv hlet hlam hn x
    rcases List.mem_cons.mp h with h | h
    · rw [h]; exact hx
    · exact Core.indL hv hlet hlam hn xs e h
end

theorem mapVarsL_eq (f : Nat → Var → Var) (d : Nat) (xs : List Core) :
    mapVarsL f d xs = xs.map (Core.mapVars f d) := by
  induction xs with
  | nil => simp [mapVarsL]
  | cons x xs ih => simp [mapVarsL, ih]

theorem WSL_iff {Γ : List Nat} {xs : List Core} : WSL Γ xs ↔ ∀ x ∈ xs, x.WS Γ := by
  induction xs with
  | nil => simp [WSL]
  | cons x xs ih => simp [WSL, ih]

theorem substFreeL_eq (f : String → Option Core) (xs : List Core) :
    substFreeL f xs = xs.map (Core.substFree f) := by
  induction xs with
  | nil => simp [substFreeL]
  | cons x xs ih => simp [substFreeL, ih]

theorem freeVarsL_eq (xs : List Core) : freeVarsL xs = xs.flatMap Core.freeVars := by
  induction xs with
  | nil => simp [freeVarsL]
  | cons x xs ih => simp [freeVarsL, ih]

theorem unfoldWithL_eq (k : Env → Core → Tree) (E : Env) (xs : List Core) :
    unfoldWithL k E xs = xs.map (unfoldWith k E) := by
  induction xs with
  | nil => simp [unfoldWithL]
  | cons x xs ih => simp [unfoldWithL, ih]

/-! ## The generic traversal -/

/-- A property of every variable occurrence, given its depth. -/
def Core.All (P : Nat → Var → Prop) : Nat → Core → Prop := fun d e => e.rec
  (motive_1 := fun _ => Nat → Prop) (motive_2 := fun _ => Nat → Prop)
  (fun v d => P d v) (fun _ _ _ _ ihv ihb d => ihv (d + 1) ∧ ihb (d + 1)) (fun _ _ ih d => ih (d + 1))
  (fun _ _ ih d => ih d) (fun _ => True) (fun _ _ ih ihs d => ih d ∧ ihs d) d

section
variable {P : Nat → Var → Prop} {d : Nat}

theorem All_list (xs : List Core) :
    (Core.rec_1 (motive_1 := fun _ => Nat → Prop) (motive_2 := fun _ => Nat → Prop)
      (fun v d => P d v) (fun _ _ _ _ ihv ihb d => ihv (d + 1) ∧ ihb (d + 1)) (fun _ _ ih d => ih (d + 1))
      (fun _ _ ih d => ih d) (fun _ => True) (fun _ _ ih ihs d => ih d ∧ ihs d) xs : Nat → Prop) d ↔
      ∀ x ∈ xs, x.All P d := by
  induction xs with
  | nil => simp
  | cons x xs ih => simp only [List.mem_cons, forall_eq_or_imp, ← ih]; rfl

theorem All_var {v : Var} : (Core.var v).All P d ↔ P d v := Iff.rfl
theorem All_let {ns vs b t} : (Core.letE ns vs b t).All P d ↔ (∀ v ∈ vs, v.All P (d + 1)) ∧ b.All P (d + 1) := by
  rw [← All_list]; exact Iff.rfl
theorem All_lam {ps b} : (Core.lam ps b).All P d ↔ b.All P (d + 1) := Iff.rfl
theorem All_node {k xs} : (Core.node k xs).All P d ↔ ∀ x ∈ xs, x.All P d := by
  rw [← All_list]; exact Iff.rfl

end

theorem All.imp {P Q : Nat → Var → Prop} (h : ∀ d v, P d v → Q d v) {d : Nat} {e : Core} (he : e.All P d) :
    e.All Q d := by
  induction e using Core.ind generalizing d with
  | hv v => exact h d v he
  | hlet ns vs b t ihv ihb =>
    rw [All_let] at he ⊢
    exact ⟨fun v hv => ihv v hv (he.1 v hv), ihb he.2⟩
  | hlam ps b ih => exact ih (All_lam.mp he)
  | hn k xs ih =>
    rw [All_node] at he ⊢
    exact fun x hx => ih x hx (he x hx)

theorem All.and {P Q : Nat → Var → Prop} {d : Nat} {e : Core} (h1 : e.All P d) (h2 : e.All Q d) :
    e.All (fun d v => P d v ∧ Q d v) d := by
  induction e using Core.ind generalizing d with
  | hv v => exact ⟨h1, h2⟩
  | hlet ns vs b t ihv ihb =>
    rw [All_let] at h1 h2 ⊢
    exact ⟨fun v hv => ihv v hv (h1.1 v hv) (h2.1 v hv), ihb h1.2 h2.2⟩
  | hlam ps b ih => exact ih (All_lam.mp h1) (All_lam.mp h2)
  | hn k xs ih =>
    rw [All_node] at h1 h2 ⊢
    exact fun x hx => ih x hx (h1 x hx) (h2 x hx)

theorem All_of {P : Nat → Var → Prop} (h : ∀ d v, P d v) (d : Nat) (e : Core) : e.All P d := by
  induction e using Core.ind generalizing d with
  | hv v => exact h d v
  | hlet ns vs b t ihv ihb => rw [All_let]; exact ⟨fun v hv => ihv v hv _, ihb _⟩
  | hlam ps b ih => exact ih _
  | hn k xs ih => rw [All_node]; exact fun x hx => ih x hx _

theorem mapVars_comp (f g : Nat → Var → Var) (d : Nat) (e : Core) :
    (e.mapVars g d).mapVars f d = e.mapVars (fun d v => f d (g d v)) d := by
  induction e using Core.ind generalizing d with
  | hv v => rfl
  | hlet ns vs b t ihv ihb =>
    simp only [Core.mapVars, mapVarsL_eq, List.map_map, ihb]
    congr 1
    exact List.map_congr_left fun v hv => ihv v hv _
  | hlam ps b ih => simp only [Core.mapVars, ih]
  | hn k xs ih =>
    simp only [Core.mapVars, mapVarsL_eq, List.map_map]
    congr 1
    exact List.map_congr_left fun v hv => ih v hv _

theorem mapVars_congr {f g : Nat → Var → Var} {d : Nat} {e : Core} (h : e.All (fun d v => f d v = g d v) d) :
    e.mapVars f d = e.mapVars g d := by
  induction e using Core.ind generalizing d with
  | hv v => exact congrArg _ h
  | hlet ns vs b t ihv ihb =>
    rw [All_let] at h
    simp only [Core.mapVars, mapVarsL_eq, ihb h.2]
    congr 1
    exact List.map_congr_left fun v hv => ihv v hv (h.1 v hv)
  | hlam ps b ih => simp only [Core.mapVars, ih (All_lam.mp h)]
  | hn k xs ih =>
    rw [All_node] at h
    simp only [Core.mapVars, mapVarsL_eq]
    congr 1
    exact List.map_congr_left fun v hv => ih v hv (h v hv)

theorem mapVars_id (d : Nat) (e : Core) : e.mapVars (fun _ v => v) d = e := by
  induction e using Core.ind generalizing d with
  | hv v => rfl
  | hlet ns vs b t ihv ihb =>
    simp only [Core.mapVars, mapVarsL_eq, ihb]
    congr 1
    conv => rhs; rw [← List.map_id vs]
    exact List.map_congr_left fun v hv => ihv v hv _
  | hlam ps b ih => simp only [Core.mapVars, ih]
  | hn k xs ih =>
    simp only [Core.mapVars, mapVarsL_eq]
    congr 1
    conv => rhs; rw [← List.map_id xs]
    exact List.map_congr_left fun v hv => ih v hv _

theorem All_mapVars {f : Nat → Var → Var} {P : Nat → Var → Prop} {d : Nat} {e : Core} :
    (e.mapVars f d).All P d ↔ e.All (fun d v => P d (f d v)) d := by
  induction e using Core.ind generalizing d with
  | hv v => exact Iff.rfl
  | hlet ns vs b t ihv ihb =>
    simp only [Core.mapVars, mapVarsL_eq]
    rw [All_let, All_let, ihb]
    refine and_congr_left fun _ => ?_
    simp only [List.mem_map, forall_exists_index, and_imp, forall_apply_eq_imp_iff₂]
    exact ⟨fun h v hv => (ihv v hv).mp (h v hv), fun h v hv => (ihv v hv).mpr (h v hv)⟩
  | hlam ps b ih =>
    simp only [Core.mapVars]
    rw [All_lam, All_lam, ih]
  | hn k xs ih =>
    simp only [Core.mapVars, mapVarsL_eq]
    rw [All_node, All_node]
    simp only [List.mem_map, forall_exists_index, and_imp, forall_apply_eq_imp_iff₂]
    exact ⟨fun h v hv => (ih v hv).mp (h v hv), fun h v hv => (ih v hv).mpr (h v hv)⟩

/-- The free names, by occurrences. -/
theorem All_free {P : String → Prop} {d : Nat} {e : Core} :
    e.All (fun _ v => ∀ x, v = .free x → P x) d ↔ ∀ x ∈ e.freeVars, P x := by
  induction e using Core.ind generalizing d with
  | hv v =>
    rw [All_var]
    cases v <;> simp [Core.freeVars]
  | hlet ns vs b t ihv ihb =>
    rw [All_let, ihb]
    simp only [Core.freeVars, freeVarsL_eq, List.mem_append, List.mem_flatMap, or_imp, forall_and]
    refine and_congr_left fun _ => ?_
    constructor
    · rintro h x ⟨v, hv, hx⟩; exact (ihv v hv).mp (h v hv) x hx
    · intro h v hv; exact (ihv v hv).mpr fun x hx => h x ⟨v, hv, hx⟩
  | hlam ps b ih => rw [All_lam, ih]; rfl
  | hn k xs ih =>
    rw [All_node]
    simp only [Core.freeVars, freeVarsL_eq, List.mem_flatMap]
    constructor
    · rintro h x ⟨v, hv, hx⟩; exact (ih v hv).mp (h v hv) x hx
    · intro h v hv; exact (ih v hv).mpr fun x hx => h x ⟨v, hv, hx⟩

/-! ## Positions -/

theorem position_some {names : List String} {x : String} {i : Nat} (h : position names x = some i) :
    names[i]? = some x := by
  unfold position at h
  rw [List.findIdx?_eq_some_iff_getElem] at h
  obtain ⟨hl, h1, _⟩ := h
  rw [List.getElem?_eq_getElem hl]
  simpa using h1

theorem position_lt {names : List String} {x : String} {i : Nat} (h : position names x = some i) :
    i < names.length := (List.getElem?_eq_some_iff.mp (position_some h)).1

theorem position_none {names : List String} {x : String} : position names x = none ↔ x ∉ names := by
  unfold position
  rw [List.findIdx?_eq_none_iff]
  constructor
  · intro h hx
    have := h x hx
    simp at this
  · intro h y hy
    have : y ≠ x := fun e => h (e ▸ hy)
    simp [this]

theorem position_nodup {names : List String} (hn : names.Nodup) {i : Nat} {x : String} (h : names[i]? = some x) :
    position names x = some i := by
  unfold position
  rw [List.findIdx?_eq_some_iff_getElem]
  obtain ⟨hl, hx⟩ := List.getElem?_eq_some_iff.mp h
  refine ⟨hl, by simp [hx], ?_⟩
  intro j hj
  have : names[j] ≠ x := by
    intro e
    have := (List.getElem?_inj (i := j) (j := i) (by omega) hn).mp
      (by rw [List.getElem?_eq_getElem (by omega), List.getElem?_eq_getElem hl, e, hx])
    omega
  simpa using this

theorem position_mem {names : List String} {x : String} (h : x ∈ names) : ∃ i, position names x = some i := by
  cases hp : position names x with
  | none => exact absurd h (position_none.mp hp)
  | some i => exact ⟨i, rfl⟩

end Verif.Core

namespace Verif.Core

/-! ## Well-scopedness -/

theorem WS_mapVars {f : Nat → Var → Var} {Γ Γ' : List Nat} {Ok : Nat → Var → Prop}
    (h : ∀ (Δ : List Nat) v, Ok Δ.length v → v.InScope (Δ ++ Γ) → (f Δ.length v).InScope (Δ ++ Γ'))
    (Δ : List Nat) {e : Core} (ho : e.All Ok Δ.length) (hw : e.WS (Δ ++ Γ)) :
    (e.mapVars f Δ.length).WS (Δ ++ Γ') := by
  induction e using Core.ind generalizing Δ with
  | hv v => exact h Δ v ho hw
  | hlet ns vs b t ihv ihb =>
    rw [All_let] at ho
    simp only [Core.WS, Core.mapVars, mapVarsL_eq, WSL_iff, List.length_map] at hw ⊢
    refine ⟨hw.1, ?_, ?_⟩
    · intro x hx
      obtain ⟨v, hv, rfl⟩ := List.mem_map.mp hx
      exact ihv v hv (vs.length :: Δ) (ho.1 v hv) (hw.2.1 v hv)
    · exact ihb (vs.length :: Δ) ho.2 hw.2.2
  | hlam ps b ih =>
    simp only [Core.WS, Core.mapVars] at hw ⊢
    exact ih (ps.length :: Δ) (All_lam.mp ho) hw
  | hn k xs ih =>
    rw [All_node] at ho
    simp only [Core.WS, Core.mapVars, mapVarsL_eq, WSL_iff] at hw ⊢
    intro x hx
    obtain ⟨v, hv, rfl⟩ := List.mem_map.mp hx
    exact ih v hv Δ (ho v hv) (hw v hv)

theorem WS_mapVars' {f : Nat → Var → Var} {Γ Γ' : List Nat}
    (h : ∀ (Δ : List Nat) v, v.InScope (Δ ++ Γ) → (f Δ.length v).InScope (Δ ++ Γ'))
    (Δ : List Nat) {e : Core} (hw : e.WS (Δ ++ Γ)) : (e.mapVars f Δ.length).WS (Δ ++ Γ') :=
  WS_mapVars (Ok := fun _ _ => True) (fun Δ v _ => h Δ v) Δ (All_of (fun _ _ => trivial) _ _) hw

theorem InScope_weaken {Γ Γ' : List Nat} {v : Var} (h : v.InScope Γ) : v.InScope (Γ ++ Γ') := by
  cases v with
  | free x => trivial
  | bound s i n =>
    obtain ⟨k, hk, hi⟩ := h
    have := (List.getElem?_eq_some_iff.mp hk).1
    exact ⟨k, by rw [List.getElem?_append_left this, hk], hi⟩

theorem WS_weaken {Γ Γ' : List Nat} {e : Core} (h : e.WS Γ) : e.WS (Γ ++ Γ') := by
  induction e using Core.ind generalizing Γ with
  | hv v => exact InScope_weaken h
  | hlet ns vs b t ihv ihb =>
    simp only [Core.WS, WSL_iff] at h ⊢
    exact ⟨h.1, fun v hv => ihv v hv (h.2.1 v hv), ihb h.2.2⟩
  | hlam ps b ih => exact ih h
  | hn k xs ih =>
    simp only [Core.WS, WSL_iff] at h ⊢
    exact fun x hx => ih x hx (h x hx)

theorem WS_close {names : List String} {Γ : List Nat} (Δ : List Nat) {e : Core} (h : e.WS (Δ ++ Γ)) :
    (close names Δ.length e).WS (Δ ++ names.length :: Γ) := by
  refine WS_mapVars' ?_ Δ h
  intro Δ v hv
  cases v with
  | free x =>
    simp only [closeVar]
    split
    · next i hp => exact ⟨names.length, by simp, position_lt hp⟩
    · trivial
  | bound s i n =>
    obtain ⟨k, hk, hi⟩ := hv
    simp only [closeVar]
    split
    · next hs =>
      refine ⟨k, ?_, hi⟩
      rw [List.getElem?_append_right (by omega)] at hk ⊢
      rw [show s + 1 - Δ.length = (s - Δ.length) + 1 by omega, List.getElem?_cons_succ, hk]
    · next hs =>
      refine ⟨k, ?_, hi⟩
      rw [List.getElem?_append_left (by omega)] at hk ⊢
      exact hk

theorem WS_open {names : List String} {Γ : List Nat} {m : Nat} (Δ : List Nat) {e : Core}
    (h : e.WS (Δ ++ m :: Γ)) : (opn names Δ.length e).WS (Δ ++ Γ) := by
  refine WS_mapVars' ?_ Δ h
  intro Δ v hv
  cases v with
  | free x => trivial
  | bound s i n =>
    obtain ⟨k, hk, hi⟩ := hv
    simp only [openVar]
    split
    · trivial
    · split
      · next h1 hs =>
        refine ⟨k, ?_, hi⟩
        rw [List.getElem?_append_right (by omega)] at hk ⊢
        rw [show s - Δ.length = (s - 1 - Δ.length) + 1 by omega, List.getElem?_cons_succ] at hk
        exact hk
      · next hs =>
        refine ⟨k, ?_, hi⟩
        rw [List.getElem?_append_left (by omega)] at hk ⊢
        exact hk

theorem WS_bindFree {names : List String} {Γ : List Nat} (Δ : List Nat) {e : Core}
    (h : e.WS (Δ ++ names.length :: Γ)) : (bindFree names Δ.length e).WS (Δ ++ names.length :: Γ) := by
  refine WS_mapVars' ?_ Δ h
  intro Δ v hv
  cases v with
  | free x =>
    simp only [bindVar]
    split
    · next i hp => exact ⟨names.length, by simp, position_lt hp⟩
    · trivial
  | bound s i n => exact hv

theorem WS_succ {Γ : List Nat} (m : Nat) (Δ : List Nat) {e : Core} (h : e.WS (Δ ++ Γ)) :
    (e.mapVars succVar Δ.length).WS (Δ ++ m :: Γ) := by
  refine WS_mapVars' ?_ Δ h
  intro Δ v hv
  cases v with
  | free x => trivial
  | bound s i n =>
    obtain ⟨k, hk, hi⟩ := hv
    simp only [succVar]
    split
    · next hs =>
      refine ⟨k, ?_, hi⟩
      rw [List.getElem?_append_right (by omega)] at hk ⊢
      rw [show s + 1 - Δ.length = (s - Δ.length) + 1 by omega, List.getElem?_cons_succ, hk]
    · next hs =>
      refine ⟨k, ?_, hi⟩
      rw [List.getElem?_append_left (by omega)] at hk ⊢
      exact hk

/-- No reference to the innermost enclosing binder. -/
def noRef (d : Nat) : Var → Prop
  | .free _ => True
  | .bound s _ _ => s ≠ d

theorem WS_pred {Γ : List Nat} (m : Nat) (Δ : List Nat) {e : Core} (hr : e.All noRef Δ.length)
    (h : e.WS (Δ ++ m :: Γ)) : (e.mapVars predVar Δ.length).WS (Δ ++ Γ) := by
  refine WS_mapVars ?_ Δ hr h
  intro Δ v hn hv
  cases v with
  | free x => trivial
  | bound s i n =>
    obtain ⟨k, hk, hi⟩ := hv
    simp only [predVar, noRef] at hn ⊢
    split
    · next hs =>
      refine ⟨k, ?_, hi⟩
      rw [List.getElem?_append_right (by omega)] at hk ⊢
      rw [show s - Δ.length = (s - 1 - Δ.length) + 1 by omega, List.getElem?_cons_succ] at hk
      exact hk
    · next hs =>
      refine ⟨k, ?_, hi⟩
      rw [List.getElem?_append_left (by omega)] at hk ⊢
      exact hk

theorem WS_substFree {f : String → Option Core} (hf : ∀ x e, f x = some e → e.WS []) {Γ : List Nat} {e : Core}
    (h : e.WS Γ) : (e.substFree f).WS Γ := by
  induction e using Core.ind generalizing Γ with
  | hv v =>
    cases v with
    | free x =>
      simp only [Core.substFree]
      cases hx : f x with
      | none => trivial
      | some e' => exact WS_weaken (Γ := []) (hf x e' hx)
    | bound s i n => exact h
  | hlet ns vs b t ihv ihb =>
    simp only [Core.WS, Core.substFree, substFreeL_eq, WSL_iff, List.length_map] at h ⊢
    refine ⟨h.1, ?_, ihb h.2.2⟩
    intro x hx
    obtain ⟨v, hv, rfl⟩ := List.mem_map.mp hx
    exact ihv v hv (h.2.1 v hv)
  | hlam ps b ih =>
    simp only [Core.WS, Core.substFree] at h ⊢
    exact ih h
  | hn k xs ih =>
    simp only [Core.WS, Core.substFree, substFreeL_eq, WSL_iff] at h ⊢
    intro x hx
    obtain ⟨v, hv, rfl⟩ := List.mem_map.mp hx
    exact ih v hv (h v hv)

end Verif.Core
