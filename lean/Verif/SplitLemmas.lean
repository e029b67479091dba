import Verif.SplitModel
import Verif.CoreSemLemmas
import Verif.TarjanProps

/-! Helper lemmas about splitting binding groups. -/

namespace Verif.Split

open Verif.Core

theorem bindersL_eq (xs : List Core) : bindersL xs = xs.flatMap binders := by
  induction xs with
  | nil => simp [bindersL]
  | cons x xs ih => simp [bindersL, ih]

theorem FitL_iff {Γ : List (Option (List String))} {xs : List Core} : FitL Γ xs ↔ ∀ x ∈ xs, Fit Γ x := by
  induction xs with
  | nil => simp [FitL]
  | cons x xs ih => simp [FitL, ih]

theorem binders_mapVars (f : Nat → Var → Var) (d : Nat) (e : Core) : binders (e.mapVars f d) = binders e := by
  induction e using Core.ind generalizing d with
  | hv v => rfl
  | hlet ns vs b t ihv ihb =>
    simp only [Core.mapVars, mapVarsL_eq, binders, bindersL_eq, ihb, List.flatMap_map]
    congr 2
    simp only [List.flatMap]
    congr 1
    exact List.map_congr_left fun v hv => ihv v hv _
  | hlam ps b ih => simp only [Core.mapVars, binders, ih]
  | hn k xs ih =>
    simp only [Core.mapVars, mapVarsL_eq, binders, bindersL_eq, List.flatMap_map]
    simp only [List.flatMap]
    congr 1
    exact List.map_congr_left fun v hv => ih v hv _

theorem Fit_mapVars {f : Nat → Var → Var} {Γ Γ' : List (Option (List String))} {Ok : Nat → Var → Prop}
    (h : ∀ (Δ : List (Option (List String))) v, Ok Δ.length v → Fits (Δ ++ Γ) v → Fits (Δ ++ Γ') (f Δ.length v))
    (Δ : List (Option (List String))) {e : Core} (ho : e.All Ok Δ.length) (hw : Fit (Δ ++ Γ) e) :
    Fit (Δ ++ Γ') (e.mapVars f Δ.length) := by
  induction e using Core.ind generalizing Δ with
  | hv v => exact h Δ v ho hw
  | hlet ns vs b t ihv ihb =>
    rw [All_let] at ho
    simp only [Fit, Core.mapVars, mapVarsL_eq, FitL_iff, List.length_map] at hw ⊢
    refine ⟨hw.1, hw.2.1, ?_, ?_⟩
    · intro x hx
      obtain ⟨v, hv, rfl⟩ := List.mem_map.mp hx
      exact ihv v hv (some ns :: Δ) (ho.1 v hv) (hw.2.2.1 v hv)
    · exact ihb (some ns :: Δ) ho.2 hw.2.2.2
  | hlam ps b ih =>
    simp only [Fit, Core.mapVars] at hw ⊢
    exact ih (none :: Δ) (All_lam.mp ho) hw
  | hn k xs ih =>
    rw [All_node] at ho
    simp only [Fit, Core.mapVars, mapVarsL_eq, FitL_iff] at hw ⊢
    intro x hx
    obtain ⟨v, hv, rfl⟩ := List.mem_map.mp hx
    exact ih v hv Δ (ho v hv) (hw v hv)

/-- What fitting says of the references to one enclosing group. -/
def FitsOne (ns : List String) : Var → Prop
  | .free x => x ∉ ns
  | .bound 0 i _ => i < ns.length
  | .bound (_ + 1) _ _ => True

theorem Fit_one {Γ : List (Option (List String))} {ns : List String} (Δ : List (Option (List String))) {e : Core}
    (h : Fit (Δ ++ some ns :: Γ) e) : e.All (liftOk (FitsOne ns)) Δ.length := by
  induction e using Core.ind generalizing Δ with
  | hv v =>
    rw [All_var]
    cases v with
    | free x => exact h ns (by simp)
    | bound s i n =>
      simp only [liftOk]
      split
      · trivial
      · next hs =>
        cases hd : s - Δ.length with
        | zero =>
          refine h ns ?_
          have : s = Δ.length := by omega
          subst this
          simp
        | succ k => trivial
  | hlet ns' vs b t ihv ihb =>
    simp only [Fit, FitL_iff] at h
    rw [All_let]
    exact ⟨fun v hv => ihv v hv (some ns' :: Δ) (h.2.2.1 v hv), ihb (some ns' :: Δ) h.2.2.2⟩
  | hlam ps b ih => exact ih (none :: Δ) h
  | hn k xs ih =>
    simp only [Fit, FitL_iff] at h
    rw [All_node]
    exact fun x hx => ih x hx Δ (h x hx)

/-! ## Closing several groups, one after the other -/

def seqClose : Nat → List (List String) → Core → Core
  | _, [], e => e
  | d, g :: gs, e => seqClose (d + 1) gs (close g d e)

theorem seqClose_snoc (d : Nat) (gs : List (List String)) (h : List String) (e : Core) :
    seqClose d (gs ++ [h]) e = close h (d + gs.length) (seqClose d gs e) := by
  induction gs generalizing d e with
  | nil => simp [seqClose]
  | cons g gs ih =>
    simp only [List.cons_append, seqClose, ih, List.length_cons]
    rw [show d + 1 + gs.length = d + (gs.length + 1) by omega]

/-- The groups of a `let`, closed one inside the other, `acc` being the groups outside. -/
def nest (names : List Nat → List String) (val : Nat → Core) (ob : Core) : List (List String) → List (List Nat) → Core
  | acc, [] => seqClose 0 acc ob
  | acc, g :: gs =>
    .letE (names g) (g.map fun i => seqClose 0 (names g :: acc) (val i)) (nest names val ob (names g :: acc) gs) .other

theorem close_nest {names : List Nat → List String} {val : Nat → Core} {ob : Core} (h : List String)
    (acc : List (List String)) (gs : List (List Nat)) :
    close h acc.length (nest names val ob acc gs) = nest names val ob (acc ++ [h]) gs := by
  induction gs generalizing acc with
  | nil => simp only [nest, seqClose_snoc, Nat.zero_add]
  | cons g gs ih =>
    have := ih (names g :: acc)
    simp only [nest]
    unfold close at this ⊢
    simp only [Core.mapVars, mapVarsL_eq, List.length_cons, List.cons_append] at this ⊢
    rw [this, List.map_map]
    congr 1
    refine List.map_congr_left fun i _ => ?_
    have := seqClose_snoc 0 (names g :: acc) h (val i)
    simp only [Nat.zero_add, List.length_cons, List.cons_append] at this
    rw [this]
    rfl

theorem foldr_nest (ns : List String) (ovs : List Core) (ob : Core) (gs : List (List Nat)) :
    gs.foldr (closeGroup ns ovs) ob =
      nest (fun g => g.map fun i => ns[i]?.getD "") (fun i => ovs[i]?.getD default) ob [] gs := by
  induction gs with
  | nil => rfl
  | cons g gs ih =>
    simp only [List.foldr_cons, ih, closeGroup, closeLet, nest]
    have := close_nest (names := fun g => g.map fun i => ns[i]?.getD "") (val := fun i => ovs[i]?.getD default)
      (ob := ob) (g.map fun i => ns[i]?.getD "") [] gs
    simp only [List.length_nil, List.nil_append] at this
    rw [this, List.map_map]
    rfl

/-- The group and the slot of a name; the innermost group first. -/
def findG : List (List String) → String → Option (Nat × Nat)
  | [], _ => none
  | g :: gs, x => match position g x with
    | some i => some (0, i)
    | none => (findG gs x).map fun p => (p.1 + 1, p.2)

def seqVar (acc : List (List String)) (d : Nat) : Var → Var
  | .free x => match findG acc x with
    | some (k, i) => .bound (d + k) i (some x)
    | none => .free x
  | .bound s i n => if d ≤ s then .bound (s + acc.length) i n else .bound s i n

theorem seqClose_eq (acc : List (List String)) (d : Nat) (e : Core) :
    seqClose d acc e = e.mapVars (seqVar acc) d := by
  induction acc generalizing d e with
  | nil =>
    simp only [seqClose]
    conv => lhs; rw [← mapVars_id d e]
    refine mapVars_congr (All_of (fun d v => ?_) d e)
    cases v <;> simp [seqVar, findG]
  | cons g gs ih =>
    simp only [seqClose, ih]
    unfold close
    have h1 : ∀ x : Core, x.mapVars (seqVar gs) (d + 1) = x.mapVars (fun d => seqVar gs (d + 1)) d := fun x => by
      have := mapVars_shift (seqVar gs) 1 d x
      exact this
    rw [h1, mapVars_comp]
    refine mapVars_congr (All_of (fun d v => ?_) d e)
    cases v with
    | free x =>
      simp only [closeVar, seqVar, findG]
      cases hp : position g x with
      | some i =>
        dsimp only
        rw [if_neg (by omega)]
        rfl
      | none =>
        dsimp only
        cases findG gs x with
        | none => rfl
        | some p => simp only [Option.map_some]; congr 1; omega
    | bound s i n =>
      by_cases hs : d ≤ s
      · simp only [closeVar, if_pos hs, seqVar, List.length_cons]
        rw [if_pos (by omega)]
        congr 1; omega
      · simp only [closeVar, if_neg hs, seqVar]
        rw [if_neg (by omega)]

/-- Opening a group with names `ns` and closing the groups `acc`, as one renaming. -/
def phi (ns : List String) (acc : List (List String)) : Var → Var
  | .free x => .free x
  | .bound 0 i _ => match findG acc (ns[i]?.getD "") with
    | some (k, j) => .bound k j (some (ns[i]?.getD ""))
    | none => .free (ns[i]?.getD "")
  | .bound (s + 1) i n => .bound (s + acc.length) i n

theorem findG_none {acc : List (List String)} {x : String} (h : ∀ g ∈ acc, x ∉ g) : findG acc x = none := by
  induction acc with
  | nil => rfl
  | cons g gs ih =>
    simp only [List.mem_cons, forall_eq_or_imp] at h
    simp [findG, position_none.mpr h.1, ih h.2]

theorem seq_phi {ns : List String} {acc : List (List String)} (hsub : ∀ g ∈ acc, ∀ x ∈ g, x ∈ ns) {e : Core}
    (h : AllOk (FitsOne ns) e) : seqClose 0 acc (opn ns 0 e) = ren (phi ns acc) e := by
  rw [seqClose_eq]
  unfold opn
  rw [mapVars_comp, ren]
  refine mapVars_congr (All.imp (fun d v hv => ?_) h)
  cases v with
  | free x =>
    simp only [openVar, seqVar, liftV, phi, Var.up]
    rw [findG_none fun g hg hx => hv (hsub g hg x hx)]
  | bound s i n =>
    simp only [openVar, liftV]
    by_cases h1 : s = d
    · subst h1
      simp only [if_true, Nat.lt_irrefl, if_false, Nat.sub_self, phi, seqVar]
      have : (ns[i]?.or n).getD "_" = ns[i]?.getD "" := by
        have hi : i < ns.length := by simpa [liftOk, FitsOne] using hv
        rw [List.getElem?_eq_getElem hi]
        rfl
      rw [this]
      cases findG acc (ns[i]?.getD "") with
      | none => rfl
      | some p => simp only [Var.up]; congr 1; omega
    · rw [if_neg h1]
      by_cases h2 : d < s
      · rw [if_pos h2, if_neg (by omega)]
        obtain ⟨k, hk⟩ : ∃ k, s - d = k + 1 := ⟨s - d - 1, by omega⟩
        simp only [seqVar, hk, phi, Var.up]
        rw [if_pos (by omega)]
        congr 1; omega
      · rw [if_neg h2, if_pos (by omega)]
        simp only [seqVar]
        rw [if_neg (by omega)]

/-! ## The semantics of the nested groups -/

section
variable (ns : List String) (vs : List Core) (E : Env)

/-- The names of a group of indices. -/
def gnames (g : List Nat) : List String := g.map fun i => ns[i]?.getD ""

/-- The enclosing binders after the split, `acc` being the groups in scope, innermost first. -/
def frames : List (List Nat) → Env
  | [] => E
  | g :: acc => .letF (g.map fun i => ren (phi ns ((g :: acc).map (gnames ns))) (vs[i]?.getD default)) :: frames acc

/-- The references allowed when the groups `acc` are in scope. -/
def OkIn (acc : List (List Nat)) : Var → Prop
  | .free x => x ∉ ns
  | .bound 0 i _ => i < ns.length ∧ ∃ g ∈ acc, i ∈ g
  | .bound (_ + 1) _ _ => True

/-- Each group only refers to itself and the groups around it. -/
def DepClosed : List (List Nat) → Prop
  | [] => True
  | g :: acc => (∀ i ∈ g, i < ns.length ∧ AllOk (OkIn ns (g :: acc)) (vs[i]?.getD default)) ∧ DepClosed acc

inductive Base : EnvRel
  | mk {acc} : DepClosed ns vs acc → Base (.letF vs :: E) (frames ns vs E acc) (phi ns (acc.map (gnames ns))) (OkIn ns acc)

end

theorem frames_lamCount (ns : List String) (vs : List Core) (E : Env) (acc : List (List Nat)) :
    lamCount (frames ns vs E acc) = lamCount E := by
  induction acc with
  | nil => rfl
  | cons g acc ih => simp [frames, lamCount, ih]

theorem frames_up (ns : List String) (vs : List Core) (E : Env) (acc : List (List Nat)) (s i : Nat) (n : Option String) :
    look (frames ns vs E acc) (.bound (s + acc.length) i n) = look E (.bound s i n) := by
  induction acc with
  | nil => rfl
  | cons g acc ih =>
    rw [← ih]
    exact look_up_one _ _ (.bound (s + acc.length) i n)

theorem position_gnames {ns : List String} (hn : ns.Nodup) {g : List Nat} (hg : ∀ i ∈ g, i < ns.length) {i j : Nat}
    (hi : i < ns.length) (h : position (gnames ns g) (ns[i]?.getD "") = some j) : g[j]? = some i := by
  have h := position_some h
  simp only [gnames, List.getElem?_map, Option.map_eq_some_iff] at h
  obtain ⟨k, hk, he⟩ := h
  have hkl := hg k (List.mem_of_getElem? hk)
  rw [List.getElem?_eq_getElem hkl, List.getElem?_eq_getElem hi] at he
  simp only [Option.getD_some] at he
  have := (List.getElem?_inj (i := k) (j := i) hkl hn).mp
    (by rw [List.getElem?_eq_getElem hkl, List.getElem?_eq_getElem hi, he])
  rw [hk, this]

theorem look_find {ns : List String} {vs : List Core} {E : Env} (hn : ns.Nodup) {acc : List (List Nat)}
    (hd : DepClosed ns vs acc) {i : Nat} (hi : i < ns.length) (hm : ∃ g ∈ acc, i ∈ g) :
    ∃ k j acc', findG (acc.map (gnames ns)) (ns[i]?.getD "") = some (k, j) ∧ DepClosed ns vs acc' ∧
      AllOk (OkIn ns acc') (vs[i]?.getD default) ∧
      ∀ n, look (frames ns vs E acc) (.bound k j n) =
        .val (frames ns vs E acc') (ren (phi ns (acc'.map (gnames ns))) (vs[i]?.getD default)) := by
  induction acc with
  | nil => obtain ⟨g, hg, _⟩ := hm; cases hg
  | cons g acc ih =>
    have hd' := hd
    simp only [DepClosed] at hd
    simp only [List.map_cons, findG]
    cases hp : position (gnames ns g) (ns[i]?.getD "") with
    | some j =>
      have hj := position_gnames hn (fun i hi => (hd.1 i hi).1) hi hp
      refine ⟨0, j, g :: acc, rfl, hd', (hd.1 i (List.mem_of_getElem? hj)).2, ?_⟩
      intro n
      simp only [frames, look, List.drop_zero, List.getElem?_map, hj, Option.map_some]
    | none =>
      have hng : i ∉ g := by
        intro hc
        refine position_none.mp hp ?_
        exact List.mem_map.mpr ⟨i, hc, rfl⟩
      have hm' : ∃ g ∈ acc, i ∈ g := by
        obtain ⟨g', hg', hig⟩ := hm
        rcases List.mem_cons.mp hg' with rfl | hg'
        · exact absurd hig hng
        · exact ⟨g', hg', hig⟩
      obtain ⟨k, j, acc', h1, h2, h3, h4⟩ := ih hd.2 hm'
      refine ⟨k + 1, j, acc', by rw [h1]; rfl, h2, h3, ?_⟩
      intro n
      rw [← h4 n]
      exact look_up_one _ _ (.bound k j n)

theorem Base.closed {ns : List String} {vs : List Core} {E : Env} (hn : ns.Nodup) (hl : ns.length = vs.length) :
    Closed (Base ns vs E) := by
  intro E1 E2 φ Ok h
  cases h with
  | @mk acc hd =>
    refine ⟨by rw [frames_lamCount]; rfl, ?_⟩
    intro v hv
    match v, hv with
    | .free x, _ => exact RefRel_refl _ _
    | .bound 0 i n, hv =>
      obtain ⟨k, j, acc', h1, h2, h3, h4⟩ := look_find (E := E) hn hd hv.1 hv.2
      simp only [phi, h1, h4]
      have hi : i < vs.length := hl ▸ hv.1
      simp only [look, List.drop_zero, List.getElem?_eq_getElem hi, RefRel]
      rw [List.getElem?_eq_getElem hi] at h3 h4
      exact Or.inr ⟨_, _, .mk h2, h3, rfl⟩
    | .bound (s + 1) i n, _ =>
      have : look (.letF vs :: E) (.bound (s + 1) i n) = look E (.bound s i n) := look_up_one _ _ (.bound s i n)
      have h2 := frames_up ns vs E acc s i n
      simp only [phi, List.length_map]
      rw [this, h2]
      exact RefRel_refl _ _

/-- The nested groups refer to the same things as the single one. -/
theorem unfold_nest {ns : List String} {vs : List Core} {b : Core} (E : Env) (n : Nat)
    (hsub : ∀ v ∈ vs, AllOk (FitsOne ns) v) (hb : AllOk (FitsOne ns) b) (gs : List (List Nat))
    (acc : List (List Nat)) (hg : ∀ g ∈ acc ++ gs, ∀ i ∈ g, i < ns.length) (hl : ns.length = vs.length) :
    unfold n (frames ns vs E acc)
      (nest (gnames ns) (fun i => (vs.map (opn ns 0))[i]?.getD default) (opn ns 0 b) (acc.map (gnames ns)) gs) =
    unfold n (frames ns vs E (gs.reverse ++ acc)) (ren (phi ns ((gs.reverse ++ acc).map (gnames ns))) b) := by
  have hmem : ∀ (acc : List (List Nat)), (∀ g ∈ acc, ∀ i ∈ g, i < ns.length) →
      ∀ g ∈ acc.map (gnames ns), ∀ x ∈ g, x ∈ ns := by
    intro acc hacc g hg x hx
    obtain ⟨g', hg', rfl⟩ := List.mem_map.mp hg
    obtain ⟨i, hi, rfl⟩ := List.mem_map.mp hx
    rw [List.getElem?_eq_getElem (hacc g' hg' i hi)]
    exact List.getElem_mem _
  induction gs generalizing acc with
  | nil =>
    simp only [nest, List.reverse_nil, List.nil_append]
    rw [seq_phi (hmem acc fun g h => hg g (by simp [h])) hb]
  | cons g gs ih =>
    simp only [nest, List.reverse_cons, List.append_assoc, List.cons_append, List.nil_append]
    rw [unfold_let]
    have := ih (g :: acc) (fun g' h i hi => hg g' (by simp at h ⊢; grind) i hi)
    simp only [List.map_cons] at this
    rw [← this]
    simp only [frames, List.map_cons]
    congr 3
    refine List.map_congr_left fun i hi => ?_
    have hil : i < vs.length := hl ▸ hg g (by simp) i hi
    rw [List.getElem?_map, List.getElem?_eq_getElem hil]
    simp only [Option.map_some, Option.getD_some]
    exact seq_phi (hmem (g :: acc) fun g' h => hg g' (by simp at h ⊢; grind)) (hsub _ (List.getElem_mem _))

/-! ## Fitting and binders -/

theorem gnames_nodup {ns : List String} (hn : ns.Nodup) {g : List Nat} (hg : ∀ i ∈ g, i < ns.length)
    (hgn : g.Nodup) : (gnames ns g).Nodup := by
  unfold gnames List.Nodup
  rw [List.pairwise_map]
  refine List.Pairwise.imp_of_mem ?_ hgn
  intro a b ha hb hab he
  rw [List.getElem?_eq_getElem (hg a ha), List.getElem?_eq_getElem (hg b hb)] at he
  simp only [Option.getD_some] at he
  exact hab ((List.getElem?_inj (i := a) (j := b) (hg a ha) hn).mp
    (by rw [List.getElem?_eq_getElem (hg a ha), List.getElem?_eq_getElem (hg b hb), he]))

theorem findG_some {acc : List (List String)} {x : String} {k j : Nat} (h : findG acc x = some (k, j)) :
    ∃ g, acc[k]? = some g ∧ g[j]? = some x := by
  induction acc generalizing k with
  | nil => cases h
  | cons g gs ih =>
    simp only [findG] at h
    cases hp : position g x with
    | some i =>
      rw [hp] at h
      cases h
      exact ⟨g, rfl, position_some hp⟩
    | none =>
      rw [hp] at h
      cases hf : findG gs x with
      | none => simp [hf] at h
      | some p =>
        simp only [hf, Option.map_some, Option.some.injEq, Prod.mk.injEq] at h
        obtain ⟨h1, h2⟩ := h
        subst h1 h2
        obtain ⟨g', h3, h4⟩ := ih hf
        exact ⟨g', by simpa using h3, h4⟩

theorem findG_mem {acc : List (List String)} {x : String} (h : ∃ g ∈ acc, x ∈ g) : ∃ p, findG acc x = some p := by
  induction acc with
  | nil => obtain ⟨g, hg, _⟩ := h; cases hg
  | cons g gs ih =>
    simp only [findG]
    cases hp : position g x with
    | some i => exact ⟨_, rfl⟩
    | none =>
      obtain ⟨g', hg', hx⟩ := h
      rcases List.mem_cons.mp hg' with rfl | hg'
      · exact absurd hx (position_none.mp hp)
      · obtain ⟨p, hp⟩ := ih ⟨g', hg', hx⟩
        exact ⟨_, by rw [hp]; rfl⟩

theorem Fit_phi {ns : List String} {Γ : List (Option (List String))} {acc : List (List Nat)}
    (hg : ∀ g ∈ acc, ∀ i ∈ g, i < ns.length) {e : Core} (he : AllOk (OkIn ns acc) e)
    (h : Fit (some ns :: Γ) e) : Fit (acc.map (fun g => some (gnames ns g)) ++ Γ) (ren (phi ns (acc.map (gnames ns))) e) := by
  refine Fit_mapVars (Γ := some ns :: Γ) (Γ' := acc.map (fun g => some (gnames ns g)) ++ Γ) (Ok := liftOk (OkIn ns acc))
    ?_ [] he h
  intro Δ v ho hv
  have hsub : ∀ g ∈ acc, ∀ x ∈ gnames ns g, x ∈ ns := by
    intro g hga x hx
    obtain ⟨i, hi, rfl⟩ := List.mem_map.mp hx
    rw [List.getElem?_eq_getElem (hg g hga i hi)]
    exact List.getElem_mem _
  cases v with
  | free x =>
    simp only [liftV, phi, Var.up]
    intro m hm
    simp only [List.mem_append, List.mem_map, Option.some.injEq] at hm
    rcases hm with hm | ⟨g, hga, rfl⟩ | hm
    · exact hv m (by simp [hm])
    · exact fun hx => hv ns (by simp) (hsub g hga x hx)
    · exact hv m (by simp [hm])
  | bound s i n =>
    simp only [liftV, liftOk] at ho ⊢
    by_cases h1 : s < Δ.length
    · rw [if_pos h1]
      intro m hm
      rw [List.getElem?_append_left h1] at hm
      exact hv m (by rw [List.getElem?_append_left h1]; exact hm)
    · rw [if_neg h1] at ho ⊢
      cases hd : s - Δ.length with
      | zero =>
        rw [hd] at ho
        obtain ⟨hi, g, hga, hig⟩ := ho
        obtain ⟨p, hp⟩ := findG_mem (acc := acc.map (gnames ns)) (x := ns[i]?.getD "")
          ⟨gnames ns g, List.mem_map.mpr ⟨g, hga, rfl⟩, List.mem_map.mpr ⟨i, hig, rfl⟩⟩
        obtain ⟨k, j⟩ := p
        obtain ⟨g', hg1, hg2⟩ := findG_some hp
        simp only [phi, hp, Var.up]
        intro m hm
        have hk : k < acc.length := by
          have := (List.getElem?_eq_some_iff.mp hg1).1
          simpa using this
        rw [List.getElem?_append_right (by omega), List.getElem?_append_left (by simp; omega),
          show k + Δ.length - Δ.length = k by omega] at hm
        rw [List.getElem?_map] at hm hg1
        cases hak : acc[k]? with
        | none => simp [hak] at hm
        | some a =>
          simp only [hak, Option.map_some, Option.some.injEq] at hm hg1
          rw [← hm, hg1]
          exact (List.getElem?_eq_some_iff.mp hg2).1
      | succ t =>
        simp only [phi, Var.up, List.length_map]
        intro m hm
        refine hv m ?_
        rw [List.getElem?_append_right (by omega), List.getElem?_append_right (by simp <;> omega)] at hm
        simp only [List.length_map] at hm
        rw [List.getElem?_append_right (by omega), hd, List.getElem?_cons_succ]
        rw [show t + acc.length + Δ.length - Δ.length - acc.length = t by omega] at hm
        exact hm

theorem Fit_nest {ns : List String} {vs : List Core} {b : Core} {Γ : List (Option (List String))} (hn : ns.Nodup)
    (hl : ns.length = vs.length) (hv : ∀ v ∈ vs, Fit (some ns :: Γ) v) (hb : Fit (some ns :: Γ) b)
    (gs : List (List Nat)) (acc : List (List Nat)) (hg : ∀ g ∈ acc ++ gs, g.Nodup ∧ ∀ i ∈ g, i < ns.length)
    (hd : DepClosed ns vs (gs.reverse ++ acc)) (hok : AllOk (OkIn ns (gs.reverse ++ acc)) b) :
    Fit (acc.map (fun g => some (gnames ns g)) ++ Γ)
      (nest (gnames ns) (fun i => (vs.map (opn ns 0))[i]?.getD default) (opn ns 0 b) (acc.map (gnames ns)) gs) := by
  have hmem : ∀ (acc : List (List Nat)), (∀ g ∈ acc, ∀ i ∈ g, i < ns.length) →
      ∀ g ∈ acc.map (gnames ns), ∀ x ∈ g, x ∈ ns := by
    intro acc hacc g hg x hx
    obtain ⟨g', hg', rfl⟩ := List.mem_map.mp hg
    obtain ⟨i, hi, rfl⟩ := List.mem_map.mp hx
    rw [List.getElem?_eq_getElem (hacc g' hg' i hi)]
    exact List.getElem_mem _
  have hone : ∀ e, Fit (some ns :: Γ) e → AllOk (FitsOne ns) e := fun e he => Fit_one [] he
  have hdrop : ∀ (xs ys : List (List Nat)), DepClosed ns vs (xs ++ ys) → DepClosed ns vs ys := by
    intro xs ys h
    induction xs with
    | nil => exact h
    | cons x xs ih => exact ih h.2
  induction gs generalizing acc with
  | nil =>
    simp only [nest]
    rw [seq_phi (hmem acc fun g h => (hg g (by simp [h])).2) (hone b hb)]
    exact Fit_phi (fun g h => (hg g (by simp [h])).2) (by simpa using hok) hb
  | cons g gs ih =>
    simp only [nest, Fit, FitL_iff, List.length_map]
    have hgg := hg g (by simp)
    simp only [List.reverse_cons, List.append_assoc, List.cons_append, List.nil_append] at hd hok
    refine ⟨gnames_nodup hn hgg.2 hgg.1, by simp [gnames], ?_, ?_⟩
    · intro x hx
      obtain ⟨i, hi, rfl⟩ := List.mem_map.mp hx
      have hil : i < vs.length := hl ▸ hgg.2 i hi
      simp only [List.getElem?_map, List.getElem?_eq_getElem hil, Option.map_some, Option.getD_some]
      have hvi := hv _ (List.getElem_mem hil)
      have h1 := seq_phi (hmem (g :: acc) fun g' h => (hg g' (by simp at h ⊢; grind)).2) (hone _ hvi)
      simp only [List.map_cons] at h1
      rw [h1]
      have hdc := (hdrop gs.reverse (g :: acc) hd).1 i hi
      rw [List.getElem?_eq_getElem hil] at hdc
      have := Fit_phi (fun g' h => (hg g' (by simp at h ⊢; grind)).2) hdc.2 hvi
      exact this
    · exact ih (g :: acc) (fun g' h => hg g' (by simp at h ⊢; grind)) hd hok

theorem binders_nest (names : List Nat → List String) (val : Nat → Core) (ob : Core) (gs : List (List Nat))
    (acc : List (List String)) :
    (binders (nest names val ob acc gs)).Perm
      (gs.flatMap names ++ gs.flatten.flatMap (fun i => binders (val i)) ++ binders ob) := by
  induction gs generalizing acc with
  | nil => simp [nest, seqClose_eq, binders_mapVars]
  | cons g gs ih =>
    simp only [nest, binders, bindersL_eq, seqClose_eq, List.flatMap_map, binders_mapVars, List.flatMap_cons,
      List.flatten_cons, List.flatMap_append]
    refine ((List.Perm.append_left _ (ih _))).trans ?_
    simp only [List.append_assoc]
    refine List.Perm.append_left _ ?_
    simp only [← List.append_assoc]
    refine List.Perm.append_right _ ?_
    refine List.Perm.append_right _ ?_
    exact List.perm_append_comm

end Verif.Split

namespace Verif.Split

open Verif.Core

theorem lastIndex_some {ns : List String} {x : String} {i : Nat} (h : lastIndex ns x = some i) :
    ns[i]? = some x := by
  induction ns generalizing i with
  | nil => cases h
  | cons n ns ih =>
    simp only [lastIndex] at h
    cases hl : lastIndex ns x with
    | some k =>
      rw [hl] at h
      cases h
      simpa using ih hl
    | none =>
      rw [hl] at h
      by_cases hx : n = x
      · simp [hx] at h; subst h; simp [hx]
      · simp [hx] at h

theorem lastIndex_none {ns : List String} {x : String} (h : lastIndex ns x = none) : x ∉ ns := by
  induction ns with
  | nil => simp
  | cons n ns ih =>
    simp only [lastIndex] at h
    cases hl : lastIndex ns x with
    | some k => rw [hl] at h; cases h
    | none =>
      rw [hl] at h
      by_cases hx : n = x
      · simp [hx] at h
      · simp only [List.mem_cons, not_or]
        exact ⟨fun e => hx e.symm, ih hl⟩

theorem lastIndex_nodup {ns : List String} (hn : ns.Nodup) {i : Nat} {x : String} (h : ns[i]? = some x) :
    lastIndex ns x = some i := by
  cases hl : lastIndex ns x with
  | none => exact absurd (List.mem_of_getElem? h) (lastIndex_none hl)
  | some k =>
    have := lastIndex_some hl
    have hk := (List.getElem?_eq_some_iff.mp this).1
    rw [(List.getElem?_inj (i := k) (j := i) hk hn).mp (by rw [this, h])]

/-- The order of the names may be any. -/
def AnyOrder (ord : List Nat → List String → List String) : Prop := ∀ p l x, x ∈ ord p l ↔ x ∈ l

theorem deps_all {ord : List Nat → List String → List String} (ho : AnyOrder ord) {path : List Nat} {ns : List String}
    (hn : ns.Nodup) {vs : List Core} {i : Nat} (hi : i < vs.length) {ok : Nat → Prop}
    (hok : ∀ j ∈ depsOf ord path ns (vs.map (opn ns 0)) i, ok j) (hf : AllOk (FitsOne ns) vs[i]) :
    AllOk (fun v => FitsOne ns v ∧ ∀ k n, v = .bound 0 k n → ok k) vs[i] := by
  have h1 : (opn ns 0 vs[i]).All (fun _ v => ∀ x, v = .free x → x ∈ (opn ns 0 vs[i]).freeVars) 0 :=
    All_free.mpr fun x hx => hx
  unfold opn at h1
  rw [All_mapVars] at h1
  refine All.imp (fun d v hv => ?_) (All.and hf h1)
  obtain ⟨h2, h3⟩ := hv
  cases v with
  | free x => exact ⟨h2, fun k n e => by cases e⟩
  | bound s k n =>
    simp only [liftOk] at h2 ⊢
    split
    · trivial
    · next hs =>
      rw [if_neg hs] at h2
      refine ⟨h2, ?_⟩
      intro k' n' e
      simp only [Var.bound.injEq] at e
      obtain ⟨e1, rfl, rfl⟩ := e
      have hsd : s = d := by omega
      rw [e1] at h2
      have hk : k < ns.length := h2
      subst hsd
      have hfree := h3 (ns[k]) (by simp [openVar, List.getElem?_eq_getElem hk])
      refine hok k ?_
      unfold depsOf
      refine List.mem_filterMap.mpr ⟨ns[k], ?_, lastIndex_nodup hn (List.getElem?_eq_getElem hk)⟩
      rw [ho, List.getElem?_map, List.getElem?_eq_getElem hi]
      exact hfree

theorem mem_flatten_getElem? {gs : List (List Nat)} {x : Nat} (h : x ∈ gs.flatten) :
    ∃ (j : Nat) (g : List Nat), gs[j]? = some g ∧ x ∈ g := by
  obtain ⟨g, hg, hx⟩ := List.mem_flatten.mp h
  obtain ⟨j, hj⟩ := List.mem_iff_getElem?.mp hg
  exact ⟨j, g, hj, hx⟩

theorem splitScope_ok {ord : List Nat → List String → List String} (ho : AnyOrder ord) (path : List Nat)
    {ns : List String} {vs : List Core} {b : Core} {Γ : List (Option (List String))}
    (h : Fit Γ (.letE ns vs b .other)) :
    ∃ e', splitScope ord path ns vs b = some e' ∧ Same (.letE ns vs b .other) e' ∧ Fit Γ e' ∧
      (binders e').Perm (binders (.letE ns vs b .other)) := by
  have h' := h
  simp only [Fit, FitL_iff] at h
  obtain ⟨hn, hl, hv, hb⟩ := h
  have hone : ∀ e, Fit (some ns :: Γ) e → AllOk (FitsOne ns) e := fun e he => Fit_one [] he
  have hdeps : ∀ v, v < vs.length → ∀ w ∈ depsOf ord path ns (vs.map (opn ns 0)) v, w < vs.length := by
    intro v _ w hw
    obtain ⟨x, _, hx⟩ := List.mem_filterMap.mp hw
    have := (List.getElem?_eq_some_iff.mp (lastIndex_some hx)).1
    omega
  obtain ⟨gs, hgs, hperm, _, htopo, _⟩ := Tarjan.tarjan_correct vs.length _ hdeps
  simp only [splitScope, openLet, hgs]
  split
  · exact ⟨_, rfl, Same.refl _, h', List.Perm.refl _⟩
  · refine ⟨_, rfl, ?_⟩
    have hmemlt : ∀ g ∈ gs, ∀ i ∈ g, i < ns.length := by
      intro g hg i hi
      have := (hperm.mem_iff (a := i)).mp (List.mem_flatten.mpr ⟨g, hg, hi⟩)
      rw [List.mem_range] at this
      omega
    have hnd : gs.flatten.Nodup := hperm.nodup_iff.mpr List.nodup_range
    have hgn : ∀ g ∈ gs, g.Nodup := fun g hg => (List.pairwise_flatten.mp hnd).1 g hg
    -- groups refer to themselves and the groups before
    have hdc : ∀ gs1 gs2, gs = gs1 ++ gs2 → DepClosed ns vs gs1.reverse := by
      intro gs1
      induction h : gs1.length generalizing gs1 with
      | zero =>
        intro gs2 _
        have : gs1 = [] := List.length_eq_zero_iff.mp h
        subst this
        trivial
      | succ m ih =>
        intro gs2 he
        obtain ⟨gs1', g, rfl⟩ : ∃ gs1' g, gs1 = gs1' ++ [g] := by
          refine ⟨gs1.dropLast, gs1.getLast (by intro e; simp [e] at h), ?_⟩
          exact (List.dropLast_concat_getLast _).symm
        rw [List.reverse_append]
        simp only [List.reverse_cons, List.reverse_nil, List.nil_append, List.cons_append]
        refine ⟨?_, ih gs1' (by simpa using h) (g :: gs2) (by rw [he]; simp)⟩
        intro i hi
        have hg : gs[gs1'.length]? = some g := by rw [he]; simp
        have hil := hmemlt g (List.mem_of_getElem? hg) i hi
        refine ⟨hil, ?_⟩
        have hil' : i < vs.length := hl ▸ hil
        rw [List.getElem?_eq_getElem hil', Option.getD_some]
        refine All.imp (fun d v hv => ?_) (deps_all ho (path := path) hn hil'
          (ok := fun j => ∃ g' ∈ g :: gs1'.reverse, j ∈ g') ?_ (hone _ (hv _ (List.getElem_mem hil'))))
        · cases v with
          | free x => exact hv.1
          | bound s k n =>
            simp only [liftOk] at hv ⊢
            by_cases hs : s < d
            · rw [if_pos hs]; trivial
            · rw [if_neg hs] at hv ⊢
              obtain ⟨h1, h2⟩ := hv
              cases hsd : s - d with
              | zero => rw [hsd] at h1 h2; exact ⟨h1, h2 k n rfl⟩
              | succ t => trivial
        · intro j hj
          have hjl := hdeps i hil' j hj
          obtain ⟨k, g', hk, hjg⟩ := mem_flatten_getElem? ((hperm.mem_iff (a := j)).mpr (List.mem_range.mpr hjl))
          have hle := htopo gs1'.length k g g' hg hk i hi j hjg hj
          refine ⟨g', ?_, hjg⟩
          rw [he, List.append_assoc] at hk
          by_cases hlt : k < gs1'.length
          · rw [List.getElem?_append_left hlt] at hk
            simp [List.mem_of_getElem? hk]
          · have : k = gs1'.length := by omega
            subst this
            simp at hk
            simp [hk]
    have hd := hdc gs [] (by simp)
    have hok : AllOk (OkIn ns gs.reverse) b := by
      refine All.imp (fun d v hv => ?_) (hone b hb)
      cases v with
      | free x => exact hv
      | bound s k n =>
        simp only [liftOk] at hv ⊢
        by_cases hs : s < d
        · rw [if_pos hs]; trivial
        · rw [if_neg hs] at hv ⊢
          cases hsd : s - d with
          | zero =>
            rw [hsd] at hv
            have hk : k < ns.length := hv
            obtain ⟨g, hg, hkg⟩ := List.mem_flatten.mp ((hperm.mem_iff (a := k)).mpr (List.mem_range.mpr (hl ▸ hk)))
            exact ⟨hk, g, by simp [hg], hkg⟩
          | succ t => trivial
    have hfold := foldr_nest ns (vs.map (opn ns 0)) (opn ns 0 b) gs
    refine ⟨?_, ?_, ?_⟩
    · intro n E
      rw [hfold, unfold_let]
      have h1 := unfold_nest E n (fun v h => hone v (hv v h)) (hone b hb) gs [] (by simpa using hmemlt) hl
      simp only [List.map_nil, List.append_nil, frames] at h1
      have h2 := unfold_ren (Base.closed (E := E) hn hl) n (Push.base (Base.mk hd)) hok
      exact h2.trans h1.symm
    · rw [hfold]
      have := Fit_nest hn hl hv hb gs [] (by
        intro g hg
        simp only [List.nil_append] at hg
        exact ⟨hgn g hg, hmemlt g hg⟩) (by simpa using hd) (by simpa using hok)
      exact this
    · rw [hfold]
      refine (binders_nest _ _ _ _ _).trans ?_
      have hopn : binders (opn ns 0 b) = binders b := binders_mapVars _ _ _
      rw [hopn]
      simp only [binders, bindersL_eq]
      refine List.Perm.append_right _ ?_
      have h1 : (gs.flatMap fun g => g.map fun i => ns[i]?.getD "").Perm ns := by
        have : (gs.flatMap fun g => g.map fun i => ns[i]?.getD "") = gs.flatten.map fun i => ns[i]?.getD "" := by
          simp [List.flatMap, List.map_flatten]
        rw [this]
        refine (hperm.map _).trans ?_
        have : (List.range vs.length).map (fun i => ns[i]?.getD "") = ns := by
          refine List.ext_getElem (by simp [hl]) ?_
          intro k h1 h2
          simp [List.getElem?_eq_getElem h2]
        rw [this]
      have h2 : (gs.flatten.flatMap fun i => binders ((vs.map (opn ns 0))[i]?.getD default)).Perm (vs.flatMap binders) := by
        refine (hperm.flatMap_right _).trans ?_
        have : (List.range vs.length).flatMap (fun i => binders ((vs.map (opn ns 0))[i]?.getD default)) =
            vs.flatMap binders := by
          simp only [List.flatMap]
          congr 1
          refine List.ext_getElem (by simp) ?_
          intro k h1 h2
          have hk : k < vs.length := by simpa using h2
          simp only [List.getElem_map, List.getElem_range, List.getElem?_map, List.getElem?_eq_getElem hk,
            Option.map_some, Option.getD_some]
          exact binders_mapVars _ _ _
        rw [this]
      exact h1.append h2

end Verif.Split
