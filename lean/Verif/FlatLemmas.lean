import Verif.FlatModel
import Verif.SplitLemmas

/-! Helper lemmas about flattening. -/

namespace Verif.Flat

open Verif.Core

theorem walkL_eq (xs : List Core) : walkL xs = xs.map walk := by
  induction xs with
  | nil => simp [walkL]
  | cons x xs ih => simp [walkL, ih]

theorem FitL_iff {S : String → Prop} {Γ : List (Option Nat)} {xs : List Core} : FitL S Γ xs ↔ ∀ x ∈ xs, Fit S Γ x := by
  induction xs with
  | nil => simp [FitL]
  | cons x xs ih => simp [FitL, ih]

theorem chainNames_mapVars (f : Nat → Var → Var) (d : Nat) (e : Core) : chainNames (e.mapVars f d) = chainNames e := by
  induction e using chainNames.induct generalizing d with
  | case1 ns vs b ih => simp [Core.mapVars, chainNames, ih]
  | case2 e h =>
    cases e with
    | letE ns vs b t => cases t <;> simp_all [Core.mapVars, chainNames]
    | _ => simp [Core.mapVars, chainNames]

theorem Fit_mapVars {S : String → Prop} {f : Nat → Var → Var} {Γ Γ' : List (Option Nat)}
    (h : ∀ (Δ : List (Option Nat)) v, Fits S (Δ ++ Γ) v → Fits S (Δ ++ Γ') (f Δ.length v))
    (Δ : List (Option Nat)) {e : Core} (hw : Fit S (Δ ++ Γ) e) : Fit S (Δ ++ Γ') (e.mapVars f Δ.length) := by
  induction e using Core.ind generalizing Δ with
  | hv v => exact h Δ v hw
  | hlet ns vs b t ihv ihb =>
    simp only [Fit, Core.mapVars, mapVarsL_eq, FitL_iff, List.length_map] at hw ⊢
    refine ⟨hw.1, hw.2.1, ?_, ?_, ?_⟩
    · rw [chainNames_mapVars]; exact hw.2.2.1
    · intro x hx
      obtain ⟨v, hv, rfl⟩ := List.mem_map.mp hx
      exact ihv v hv (some vs.length :: Δ) (hw.2.2.2.1 v hv)
    · exact ihb (some vs.length :: Δ) hw.2.2.2.2
  | hlam ps b ih =>
    simp only [Fit, Core.mapVars] at hw ⊢
    exact ih (none :: Δ) hw
  | hn k xs ih =>
    simp only [Fit, Core.mapVars, mapVarsL_eq, FitL_iff] at hw ⊢
    intro x hx
    obtain ⟨v, hv, rfl⟩ := List.mem_map.mp hx
    exact ih v hv Δ (hw v hv)

/-! ## Chains -/

/-- The groups of a chain, outermost first. -/
def groups : Core → List (List String × List Core)
  | .letE ns vs b .other => (ns, vs) :: groups b
  | _ => []

/-- What is inside the chain. -/
def inner : Core → Core
  | .letE _ _ b .other => inner b
  | e => e

theorem chainNames_groups (e : Core) : chainNames e = (groups e).flatMap (·.1) := by
  induction e using chainNames.induct with
  | case1 ns vs b ih => simp [chainNames, groups, ih]
  | case2 e h =>
    rw [chainNames, groups]
    · rfl
    · exact h
    · exact h

def seqOpen : Nat → List (List String) → Core → Core
  | _, [], e => e
  | d, g :: gs, e => opn g d (seqOpen (d + 1) gs e)

theorem seqOpen_snoc (d : Nat) (gs : List (List String)) (h : List String) (e : Core) :
    seqOpen d (gs ++ [h]) e = seqOpen d gs (opn h (d + gs.length) e) := by
  induction gs generalizing d with
  | nil => simp [seqOpen]
  | cons g gs ih =>
    simp only [List.cons_append, seqOpen, ih, List.length_cons]
    rw [show d + 1 + gs.length = d + (gs.length + 1) by omega]

theorem groups_mapVars (f : Nat → Var → Var) (d : Nat) (e : Core) :
    groups (e.mapVars f d) = (groups e).mapIdx fun k p => (p.1, p.2.map (Core.mapVars f (d + k + 1))) := by
  induction e using chainNames.induct generalizing d with
  | case1 ns vs b ih =>
    simp only [Core.mapVars, groups, ih, mapVarsL_eq, List.mapIdx_cons, Nat.add_zero]
    congr 1
    have : ∀ k, d + 1 + k + 1 = d + (k + 1) + 1 := fun k => by omega
    simp only [this]
  | case2 e h =>
    cases e with
    | letE ns vs b t => cases t <;> simp_all [Core.mapVars, groups]
    | _ => simp [Core.mapVars, groups]

theorem inner_mapVars (f : Nat → Var → Var) (d : Nat) (e : Core) :
    inner (e.mapVars f d) = (inner e).mapVars f (d + (groups e).length) := by
  induction e using chainNames.induct generalizing d with
  | case1 ns vs b ih =>
    simp only [Core.mapVars, inner, groups, List.length_cons, ih]
    rw [show d + 1 + (groups b).length = d + ((groups b).length + 1) by omega]
  | case2 e h =>
    cases e with
    | letE ns vs b t => cases t <;> simp_all [Core.mapVars, groups, inner]
    | _ => simp [Core.mapVars, groups, inner]

/-- The opened bindings of a chain, `acc` being the names of the groups outside. -/
def opened : List (List String) → List (List String × List Core) → List (String × Core)
  | _, [] => []
  | acc, (ns, vs) :: rest => ns.zip (vs.map (seqOpen 0 (ns :: acc))) ++ opened (ns :: acc) rest

theorem opened_open (h : List String) (acc : List (List String)) (gs : List (List String × List Core)) :
    opened acc (gs.mapIdx fun k p => (p.1, p.2.map (opn h (acc.length + k + 1)))) = opened (acc ++ [h]) gs := by
  induction gs generalizing acc with
  | nil => rfl
  | cons g gs ih =>
    obtain ⟨ns, vs⟩ := g
    simp only [List.mapIdx_cons, opened, Nat.add_zero, List.map_map]
    have := ih (ns :: acc)
    simp only [List.length_cons, List.cons_append] at this
    have he : ∀ k, acc.length + (k + 1) + 1 = acc.length + 1 + k + 1 := fun k => by omega
    simp only [he]
    rw [this]
    congr 2
    refine List.map_congr_left fun v _ => ?_
    have := seqOpen_snoc 0 (ns :: acc) h v
    simp only [Nat.zero_add, List.length_cons, List.cons_append] at this
    rw [this]
    rfl

theorem opn_let (ns : List String) (d : Nat) (ns2 vs2 b2 t) :
    opn ns d (.letE ns2 vs2 b2 t) = .letE ns2 (vs2.map (opn ns (d + 1))) (opn ns (d + 1) b2) t := by
  simp only [opn, Core.mapVars, mapVarsL_eq]
  rfl

theorem collectChain_let (ns : List String) (vs : List Core) (ns2 vs2 b2) :
    collectChain ns vs (.letE ns2 vs2 b2 .other) =
      (ns.zip (vs.map (opn ns 0)) ++ (collectChain ns2 (vs2.map (opn ns 1)) (opn ns 1 b2)).1,
        (collectChain ns2 (vs2.map (opn ns 1)) (opn ns 1 b2)).2) := by
  rw [collectChain]
  simp only [openLet]
  split
  · next he => rw [opn_let] at he; cases he; rfl
  · next hne => exact absurd (opn_let ..) (hne _ _ _)

theorem collectChain_end (ns : List String) (vs : List Core) {b : Core} (h : mergeable b = false) :
    collectChain ns vs b = (ns.zip (vs.map (opn ns 0)), opn ns 0 b) := by
  rw [collectChain]
  simp only [openLet]
  split
  · next ns2 vs2 b2 he =>
    exfalso
    cases b with
    | letE ns3 vs3 b3 t3 => rw [opn_let] at he; cases he; simp [mergeable] at h
    | _ => simp [opn, Core.mapVars] at he
  · rfl

theorem groups_end {b : Core} (h : mergeable b = false) : groups b = [] := by
  cases b with
  | letE ns vs b t => cases t <;> simp_all [mergeable, groups]
  | _ => simp [groups]
theorem inner_end {b : Core} (h : mergeable b = false) : inner b = b := by
  cases b with
  | letE ns vs b t => cases t <;> simp_all [mergeable, inner]
  | _ => simp [inner]
theorem chainNames_end {b : Core} (h : mergeable b = false) : chainNames b = [] := by
  rw [chainNames_groups, groups_end h]; rfl

theorem groups_opn (ns : List String) (d : Nat) (e : Core) :
    groups (opn ns d e) = (groups e).mapIdx fun k p => (p.1, p.2.map (opn ns (d + k + 1))) :=
  groups_mapVars (openVar ns) d e
theorem inner_opn (ns : List String) (d : Nat) (e : Core) :
    inner (opn ns d e) = opn ns (d + (groups e).length) (inner e) := inner_mapVars (openVar ns) d e

theorem collectChain_eq (ns : List String) (vs : List Core) (b : Core) :
    collectChain ns vs b =
      (opened [] ((ns, vs) :: groups b), seqOpen 0 ((((ns, vs) :: groups b).map (·.1)).reverse) (inner b)) := by
  induction hl : chainLen b using Nat.strongRecOn generalizing ns vs b with
  | _ m ih =>
    cases hm : mergeable b with
    | false =>
      rw [collectChain_end ns vs hm, groups_end hm, inner_end hm]
      simp only [opened, List.append_nil, List.map_cons, List.map_nil, List.reverse_cons, List.reverse_nil,
        List.nil_append, seqOpen]
    | true =>
      obtain ⟨ns2, vs2, b2, rfl⟩ : ∃ ns2 vs2 b2, b = .letE ns2 vs2 b2 .other := by
        cases b with
        | letE ns vs b t => cases t <;> simp_all [mergeable]
        | _ => simp [mergeable] at hm
      have hlen : chainLen (opn ns 1 b2) < m := by
        have := chainLen_mapVars (openVar ns) 1 b2
        unfold opn
        simp only [chainLen] at hl
        omega
      rw [collectChain_let, ih _ hlen ns2 _ (opn ns 1 b2) rfl]
      have ho := opened_open ns [] ((ns2, vs2) :: groups b2)
      simp only [List.length_nil, Nat.zero_add, List.nil_append, List.mapIdx_cons] at ho
      have hg := groups_opn ns 1 b2
      have he : ∀ k, 1 + k + 1 = k + 1 + 1 := fun k => by omega
      simp only [he] at hg
      simp only [groups, opened, inner] at ho ⊢
      rw [hg, ho]
      refine Prod.ext rfl ?_
      simp only [inner_opn, List.map_cons, List.reverse_cons, seqOpen_snoc]
      have hm : ((groups b2).mapIdx fun k p => (p.1, p.2.map (opn ns (k + 1 + 1)))).map (·.1) = (groups b2).map (·.1) := by
        refine List.ext_getElem (by simp) ?_
        intro k h1 h2
        simp
      rw [hm]
      simp only [List.length_append, List.length_reverse, List.length_map, List.length_cons, List.length_nil, Nat.zero_add]
      rw [Nat.add_comm 1]

/-! ## Opening several groups and closing them together, as one renaming -/

def seqOpenVar (acc : List (List String)) (d : Nat) : Var → Var
  | .free x => .free x
  | .bound s i n =>
    if s < d then .bound s i n else
      match acc[s - d]? with
      | some ns => .free ((ns[i]?.or n).getD "_")
      | none => .bound (s - acc.length) i n

theorem seqOpen_eq (acc : List (List String)) (d : Nat) (e : Core) :
    seqOpen d acc e = e.mapVars (seqOpenVar acc) d := by
  induction acc generalizing d e with
  | nil =>
    simp only [seqOpen]
    conv => lhs; rw [← mapVars_id d e]
    refine mapVars_congr (All_of (fun d v => ?_) d e)
    cases v <;> simp [seqOpenVar]
  | cons g gs ih =>
    simp only [seqOpen, ih]
    unfold opn
    have h1 : ∀ x : Core, x.mapVars (seqOpenVar gs) (d + 1) = x.mapVars (fun d => seqOpenVar gs (d + 1)) d := fun x => by
      have := mapVars_shift (seqOpenVar gs) 1 d x
      exact this
    rw [h1, mapVars_comp]
    refine mapVars_congr (All_of (fun d v => ?_) d e)
    cases v with
    | free x => rfl
    | bound s i n =>
      simp only [seqOpenVar]
      by_cases h1 : s < d
      · rw [if_pos (by omega), if_pos h1]
        simp only [openVar]
        rw [if_neg (by omega), if_neg (by omega)]
      · rw [if_neg h1]
        by_cases h2 : s = d
        · subst h2
          rw [if_pos (by omega), Nat.sub_self]
          simp [openVar]
        · rw [if_neg (by omega), show s - d = s - (d + 1) + 1 by omega, List.getElem?_cons_succ]
          cases hg : gs[s - (d + 1)]? with
          | some ns => rfl
          | none =>
            have := List.getElem?_eq_none_iff.mp hg
            simp only [openVar, List.length_cons]
            rw [if_neg (by omega), if_pos (by omega)]
            congr 1

def psi (all : List String) (acc : List (List String)) : Var → Var
  | .free x => .free x
  | .bound s i n =>
    match acc[s]? with
    | some ns =>
      match position all ((ns[i]?.or n).getD "_") with
      | some p => .bound 0 p (some ((ns[i]?.or n).getD "_"))
      | none => .free ((ns[i]?.or n).getD "_")
    | none => .bound (s - acc.length + 1) i n

/-- The references allowed: those to a group of the chain are to one of its bindings. -/
def OkF (all : List String) (acc : List (List String)) : Var → Prop
  | .free x => x ∉ all
  | .bound s i _ => ∀ ns, acc[s]? = some ns → i < ns.length

theorem close_seqOpen {all : List String} {acc : List (List String)} {e : Core} (h : AllOk (OkF all acc) e) :
    close all 0 (seqOpen 0 acc e) = ren (psi all acc) e := by
  rw [seqOpen_eq]
  unfold close
  rw [mapVars_comp, ren]
  refine mapVars_congr (All.imp (fun d v hv => ?_) h)
  cases v with
  | free x =>
    simp only [seqOpenVar, closeVar, liftV, psi, Var.up]
    rw [position_none.mpr hv]
  | bound s i n =>
    simp only [seqOpenVar, liftV]
    by_cases h1 : s < d
    · rw [if_pos h1, if_pos h1]
      simp only [closeVar]
      rw [if_neg (by omega)]
    · rw [if_neg h1, if_neg h1]
      simp only [psi]
      cases hg : acc[s - d]? with
      | some ns =>
        dsimp only
        simp only [closeVar]
        cases position all ((ns[i]?.or n).getD "_") with
        | some p => simp [Var.up]
        | none => rfl
      | none =>
        have := List.getElem?_eq_none_iff.mp hg
        simp only [closeVar, Var.up]
        rw [if_pos (by omega)]
        congr 1; omega

/-! ## The semantics of the flattened group -/

/-- The values of the flattened group. -/
def allVals (all : List String) : List (List String) → List (List String × List Core) → List Core
  | _, [] => []
  | acc, (ns, vs) :: rest => vs.map (ren (psi all (ns :: acc))) ++ allVals all (ns :: acc) rest

theorem allVals_append (all : List String) (acc : List (List String)) (a b : List (List String × List Core)) :
    allVals all acc (a ++ b) = allVals all acc a ++ allVals all ((a.map (·.1)).reverse ++ acc) b := by
  induction a generalizing acc with
  | nil => rfl
  | cons g a ih =>
    obtain ⟨ns, vs⟩ := g
    simp [allVals, ih]

theorem allVals_length {all : List String} {acc : List (List String)} {gs : List (List String × List Core)}
    (h : ∀ g ∈ gs, g.1.length = g.2.length) : (allVals all acc gs).length = (gs.flatMap (·.1)).length := by
  induction gs generalizing acc with
  | nil => rfl
  | cons g gs ih =>
    obtain ⟨ns, vs⟩ := g
    have h1 := h (ns, vs) (by simp)
    simp only [allVals, List.length_append, List.length_map, List.flatMap_cons]
    rw [ih fun g hg => h g (by simp [hg])]
    simp only at h1
    omega

def letFrames (r : List (List String × List Core)) : Env := r.map fun g => Frame.letF g.2

/-- Every group refers to itself and to the groups around it. -/
def GroupsOk (all : List String) (ch : List (List String × List Core)) : Prop :=
  ∀ (r : List (List String × List Core)) (g : List String × List Core) (rest : List (List String × List Core)),
    ch = r.reverse ++ g :: rest → g.1.length = g.2.length ∧ ∀ v ∈ g.2, AllOk (OkF all (g.1 :: r.map (·.1))) v

section
variable (ch : List (List String × List Core)) (E : Env)
inductive Base : EnvRel
  | mk {r rest} : ch = r.reverse ++ rest →
      Base (letFrames r ++ E) (.letF (allVals (ch.flatMap (·.1)) [] ch) :: E)
        (psi (ch.flatMap (·.1)) (r.map (·.1))) (OkF (ch.flatMap (·.1)) (r.map (·.1)))
end

theorem lamCount_letFrames (r : List (List String × List Core)) (E : Env) :
    lamCount (letFrames r ++ E) = lamCount E := by
  induction r with
  | nil => rfl
  | cons g r ih => simpa [letFrames, lamCount] using ih

theorem Base.closed {ch : List (List String × List Core)} {E : Env} (hn : (ch.flatMap (·.1)).Nodup)
    (hok : GroupsOk (ch.flatMap (·.1)) ch) : Closed (Base ch E) := by
  intro E1 E2 φ Ok h
  cases h with
  | @mk r rest hch =>
    refine ⟨by rw [lamCount_letFrames]; rfl, ?_⟩
    intro v hv
    cases v with
    | free x => exact RefRel_refl _ _
    | bound s i n =>
      by_cases hs : s < r.length
      · -- into the chain
        obtain ⟨r1, g, r2, hr, hlen⟩ : ∃ r1 g r2, r = r1 ++ g :: r2 ∧ r1.length = s := by
          refine ⟨r.take s, r[s], r.drop (s + 1), ?_, by simp; omega⟩
          rw [← List.drop_eq_getElem_cons hs, List.take_append_drop]
        have hsplit : ch = r2.reverse ++ g :: (r1.reverse ++ rest) := by rw [hch, hr]; simp
        obtain ⟨hgl, hgv⟩ := hok r2 g _ hsplit
        have hget : (r.map (·.1))[s]? = some g.1 := by
          rw [hr, ← hlen]; simp
        have hi : i < g.1.length := hv g.1 hget
        have hiv : i < g.2.length := by omega
        have hall : ∀ g ∈ ch, g.1.length = g.2.length := by
          intro g' hg'
          obtain ⟨a, b, hab⟩ := List.append_of_mem hg'
          exact (hok a.reverse g' b (by simpa using hab)).1
        have hlook1 : look (letFrames r ++ E) (.bound s i n) = .val (letFrames (g :: r2) ++ E) g.2[i] := by
          simp only [look]
          have : (letFrames r ++ E).drop s = letFrames (g :: r2) ++ E := by
            rw [hr, ← hlen]
            simp [letFrames]
          rw [this]
          simp only [letFrames, List.map_cons, List.cons_append, List.getElem?_eq_getElem hiv]
        have hpos : position (ch.flatMap (·.1)) g.1[i] = some ((r2.reverse.flatMap (·.1)).length + i) := by
          refine position_nodup hn ?_
          rw [hsplit]
          simp only [List.flatMap_append, List.flatMap_cons]
          rw [List.getElem?_append_right (by omega), List.getElem?_append_left (by omega)]
          simp [List.getElem?_eq_getElem hi]
        have hval : (allVals (ch.flatMap (·.1)) [] ch)[(r2.reverse.flatMap (·.1)).length + i]? =
            some (ren (psi (ch.flatMap (·.1)) (g.1 :: r2.map (·.1))) g.2[i]) := by
          have hl2 : (allVals (ch.flatMap (·.1)) [] r2.reverse).length = (r2.reverse.flatMap (·.1)).length :=
            allVals_length fun g' hg' => hall g' (by rw [hsplit]; exact List.mem_append_left _ hg')
          generalize ch.flatMap (·.1) = all at hl2 ⊢
          rw [hsplit, allVals_append, List.getElem?_append_right (by omega)]
          simp only [allVals]
          rw [hl2, List.getElem?_append_left (by rw [List.length_map]; omega)]
          simp [List.getElem?_eq_getElem hiv]
        rw [hlook1]
        simp only [psi, hget, List.getElem?_eq_getElem hi, Option.some_or, Option.getD_some, hpos]
        simp only [look, List.drop_zero, hval, RefRel]
        refine Or.inr ⟨_, _, Base.mk (r := g :: r2) (rest := r1.reverse ++ rest) (by rw [hsplit]; simp), ?_, rfl⟩
        exact hgv _ (List.getElem_mem hiv)
      · -- outside
        have hget : (r.map (·.1))[s]? = none := by simp; omega
        simp only [psi, hget, List.length_map]
        have h1 : look (letFrames r ++ E) (.bound s i n) = look E (.bound (s - r.length) i n) := by
          have := look_up (letFrames r) E (.bound (s - r.length) i n)
          simp only [Var.up, letFrames, List.length_map] at this
          rw [show s - r.length + r.length = s by omega] at this
          exact this
        have h2 := look_up_one (.letF (allVals (ch.flatMap (·.1)) [] ch)) E (.bound (s - r.length) i n)
        simp only [Var.up] at h2
        rw [h1, h2]
        exact RefRel_refl _ _

theorem unfold_chain (n : Nat) (E : Env) (e : Core) :
    unfold n E e = unfold n (letFrames (groups e).reverse ++ E) (inner e) := by
  induction e using chainNames.induct generalizing E with
  | case1 ns vs b ih =>
    rw [unfold_let, ih]
    simp [groups, inner, letFrames]
  | case2 e h =>
    rw [groups, inner]
    · rfl
    · exact h
    · exact h

theorem opened_names {acc : List (List String)} {gs : List (List String × List Core)}
    (h : ∀ g ∈ gs, g.1.length = g.2.length) : (opened acc gs).map (·.1) = gs.flatMap (·.1) := by
  induction gs generalizing acc with
  | nil => rfl
  | cons g gs ih =>
    obtain ⟨ns, vs⟩ := g
    have h1 := h (ns, vs) (by simp)
    simp only at h1
    simp only [opened, List.map_append, List.flatMap_cons]
    rw [ih fun g hg => h g (by simp [hg]), List.map_fst_zip (by simp; omega)]

theorem opened_vals {all : List String} {r : List (List String × List Core)} {gs ch : List (List String × List Core)}
    (hch : ch = r.reverse ++ gs) (hok : GroupsOk all ch) :
    (opened (r.map (·.1)) gs).map (fun p => close all 0 p.2) = allVals all (r.map (·.1)) gs := by
  induction gs generalizing r with
  | nil => rfl
  | cons g gs ih =>
    obtain ⟨ns, vs⟩ := g
    obtain ⟨h1, h2⟩ := hok r (ns, vs) gs hch
    simp only at h1 h2
    simp only [opened, allVals, List.map_append]
    have := ih (r := (ns, vs) :: r) (by simp [hch])
    simp only [List.map_cons] at this
    rw [this]
    congr 1
    have hz : (ns.zip (vs.map (seqOpen 0 (ns :: r.map (·.1))))).map (fun p => close all 0 p.2) =
        ((ns.zip (vs.map (seqOpen 0 (ns :: r.map (·.1))))).map (·.2)).map (close all 0) := by
      rw [List.map_map]; rfl
    rw [hz, List.map_snd_zip (by simp; omega), List.map_map]
    exact List.map_congr_left fun v hv => close_seqOpen (h2 v hv)

theorem closeAll_eq {ch : List (List String × List Core)} {b : Core} (hok : GroupsOk (ch.flatMap (·.1)) ch)
    (hb : AllOk (OkF (ch.flatMap (·.1)) (ch.map (·.1)).reverse) b) :
    closeAll (opened [] ch) (seqOpen 0 (ch.map (·.1)).reverse b) =
      .letE (ch.flatMap (·.1)) (allVals (ch.flatMap (·.1)) [] ch)
        (ren (psi (ch.flatMap (·.1)) (ch.map (·.1)).reverse) b) .other := by
  have hall : ∀ g ∈ ch, g.1.length = g.2.length := by
    intro g' hg'
    obtain ⟨a, b, hab⟩ := List.append_of_mem hg'
    exact (hok a.reverse g' b (by simpa using hab)).1
  unfold closeAll
  simp only [opened_names hall, close_seqOpen hb]
  have := opened_vals (r := []) (gs := ch) rfl hok
  simp only [List.map_nil] at this
  rw [this]

theorem same_flat {e : Core} (hn : (chainNames e).Nodup) (hok : GroupsOk (chainNames e) (groups e))
    (hb : AllOk (OkF (chainNames e) ((groups e).map (·.1)).reverse) (inner e)) :
    Same e (closeAll (opened [] (groups e)) (seqOpen 0 ((groups e).map (·.1)).reverse (inner e))) := by
  rw [chainNames_groups] at hn hok hb
  intro n E
  rw [closeAll_eq hok hb, unfold_let, unfold_chain]
  have hB := Base.closed (E := E) hn hok
  have hp := Push.base (Base.mk (E := E) (ch := groups e) (r := (groups e).reverse) (rest := []) (by simp))
  rw [List.map_reverse] at hp
  exact unfold_ren hB n hp hb

end Verif.Flat
