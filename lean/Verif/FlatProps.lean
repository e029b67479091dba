import Verif.FlatLemmas

/-!
# Flattening chains of binding groups keeps what names refer to (C09)
-/

namespace Verif.Flat

open Verif.Core

abbrev Groups := List (List String × List Core)

theorem Fit_all {S : String → Prop} {P : Nat → Var → Prop} {Γ : List (Option Nat)}
    (h : ∀ (Δ : List (Option Nat)) v, Fits S (Δ ++ Γ) v → P Δ.length v) (Δ : List (Option Nat)) {e : Core}
    (hw : Fit S (Δ ++ Γ) e) : e.All P Δ.length := by
  induction e using Core.ind generalizing Δ with
  | hv v => exact h Δ v hw
  | hlet ns vs b t ihv ihb =>
    simp only [Fit, FitL_iff] at hw
    rw [All_let]
    exact ⟨fun v hv => ihv v hv (some vs.length :: Δ) (hw.2.2.2.1 v hv), ihb (some vs.length :: Δ) hw.2.2.2.2⟩
  | hlam ps b ih => exact ih (none :: Δ) hw
  | hn k xs ih =>
    simp only [Fit, FitL_iff] at hw
    rw [All_node]
    exact fun x hx => ih x hx Δ (hw x hx)

/-- The binders of groups, innermost first. -/
def lens (r : Groups) : List (Option Nat) := r.map fun g => some g.2.length

theorem Fit_groups {S : String → Prop} {e : Core} {Γ : List (Option Nat)} (h : Fit S Γ e) {r : Groups}
    {g : List String × List Core} {rest : Groups} (hg : groups e = r.reverse ++ g :: rest) :
    g.1.length = g.2.length ∧ (∀ x ∈ g.1, ¬ S x) ∧ ∀ v ∈ g.2, Fit S (lens (g :: r) ++ Γ) v := by
  induction e using chainNames.induct generalizing Γ r with
  | case1 ns vs b ih =>
    simp only [groups] at hg
    simp only [Fit, FitL_iff] at h
    rcases List.eq_nil_or_concat r with rfl | ⟨r', y, rfl⟩
    · simp only [List.reverse_nil, List.nil_append, List.cons.injEq] at hg
      obtain ⟨rfl, _⟩ := hg
      exact ⟨h.1, h.2.1, h.2.2.2.1⟩
    · simp only [List.concat_eq_append, List.reverse_append, List.reverse_cons, List.reverse_nil, List.nil_append,
        List.cons_append, List.cons.injEq] at hg
      obtain ⟨rfl, hg⟩ := hg
      have := ih h.2.2.2.2 hg
      simpa [lens] using this
  | case2 e hne =>
    rw [groups] at hg
    · simp at hg
    · exact hne

theorem Fit_inner {S : String → Prop} {e : Core} {Γ : List (Option Nat)} (h : Fit S Γ e) :
    Fit S (lens (groups e).reverse ++ Γ) (inner e) := by
  induction e using chainNames.induct generalizing Γ with
  | case1 ns vs b ih =>
    simp only [Fit] at h
    have := ih h.2.2.2.2
    simpa [groups, inner, lens] using this
  | case2 e hne =>
    rw [groups, inner]
    · exact h
    · exact hne
    · exact hne

theorem Fit_OkF {S : String → Prop} {all : List String} (hS : ∀ x ∈ all, ¬ S x) {r : Groups}
    (hr : ∀ g ∈ r, g.1.length = g.2.length) {Γ : List (Option Nat)} {e : Core} (h : Fit S (lens r ++ Γ) e) :
    AllOk (OkF all (r.map (·.1))) e := by
  refine Fit_all (Γ := lens r ++ Γ) (P := liftOk (OkF all (r.map (·.1)))) ?_ [] h
  intro Δ v hv
  cases v with
  | free x => exact fun hx => hS x hx hv
  | bound s i n =>
    simp only [liftOk]
    split
    · trivial
    · next hs =>
      intro ns hns
      simp only [List.getElem?_map, Option.map_eq_some_iff] at hns
      obtain ⟨g, hg, rfl⟩ := hns
      rw [hr g (List.mem_of_getElem? hg)]
      refine hv _ ?_
      have hlt := (List.getElem?_eq_some_iff.mp hg).1
      rw [List.getElem?_append_right (by omega), List.getElem?_append_left (by simp [lens]; omega)]
      simp [lens, hg]

theorem Fit_psi {S : String → Prop} {all : List String} {r : Groups} (hr : ∀ g ∈ r, g.1.length = g.2.length)
    (hsub : ∀ g ∈ r, ∀ x ∈ g.1, x ∈ all) {Γ : List (Option Nat)} {e : Core} (h : Fit S (lens r ++ Γ) e) :
    Fit S (some all.length :: Γ) (ren (psi all (r.map (·.1))) e) := by
  refine Fit_mapVars (Γ := lens r ++ Γ) (Γ' := some all.length :: Γ) ?_ [] h
  intro Δ v hv
  cases v with
  | free x => exact hv
  | bound s i n =>
    simp only [liftV]
    by_cases hs : s < Δ.length
    · rw [if_pos hs]
      intro m hm
      rw [List.getElem?_append_left hs] at hm
      exact hv m (by rw [List.getElem?_append_left hs]; exact hm)
    · rw [if_neg hs]
      simp only [psi, List.getElem?_map]
      cases hg : r[s - Δ.length]? with
      | some g =>
        have hgm := List.mem_of_getElem? hg
        have hlt := (List.getElem?_eq_some_iff.mp hg).1
        have hi : i < g.1.length := by
          rw [hr g hgm]
          refine hv _ ?_
          rw [List.getElem?_append_right (by omega), List.getElem?_append_left (by simp [lens]; omega)]
          simp [lens, hg]
        simp only [Option.map_some, List.getElem?_eq_getElem hi, Option.some_or, Option.getD_some]
        obtain ⟨p, hp⟩ := position_mem (hsub g hgm _ (List.getElem_mem hi))
        rw [hp]
        simp only [Var.up]
        intro m hm
        rw [List.getElem?_append_right (by omega)] at hm
        simp at hm
        rw [← hm]
        exact (List.getElem?_eq_some_iff.mp (position_some hp)).1
      | none =>
        have := List.getElem?_eq_none_iff.mp hg
        simp only [Option.map_none, Var.up, List.length_map]
        intro m hm
        refine hv m ?_
        rw [List.getElem?_append_right (by omega), List.getElem?_append_right (by simp [lens]; omega)]
        rw [List.getElem?_append_right (by omega)] at hm
        rw [show s - Δ.length - r.length + 1 + Δ.length - Δ.length = (s - Δ.length - r.length) + 1 by omega,
          List.getElem?_cons_succ] at hm
        simpa [lens] using hm

theorem binders_allVals (all : List String) (acc : List (List String)) (gs : Groups) :
    (allVals all acc gs).flatMap Split.binders = gs.flatMap fun g => g.2.flatMap Split.binders := by
  induction gs generalizing acc with
  | nil => rfl
  | cons g gs ih =>
    obtain ⟨ns, vs⟩ := g
    simp only [allVals, List.flatMap_append, List.flatMap_cons, ih, List.flatMap_map]
    congr 1
    simp only [List.flatMap, ren, Split.binders_mapVars]

theorem binders_chain (e : Core) :
    (Split.binders e).Perm (chainNames e ++ (groups e).flatMap (fun g => g.2.flatMap Split.binders) ++
      Split.binders (inner e)) := by
  induction e using chainNames.induct with
  | case1 ns vs b ih =>
    simp only [Split.binders, Split.bindersL_eq, chainNames, groups, inner, List.flatMap_cons]
    refine (List.Perm.append_left _ ih).trans ?_
    simp only [List.append_assoc]
    refine List.Perm.append_left _ ?_
    simp only [← List.append_assoc]
    refine List.Perm.append_right _ ?_
    refine List.Perm.append_right _ ?_
    exact List.perm_append_comm
  | case2 e hne =>
    rw [chainNames, groups, inner]
    · simp
    all_goals exact hne

/-- What the pass does to one expression. -/
def Good (S : String → Prop) (Γ : List (Option Nat)) (e e' : Core) : Prop :=
  Same e e' ∧ Fit S Γ e' ∧ chainNames e' = chainNames e ∧ (Split.binders e').Perm (Split.binders e)

theorem inner_mergeable (e : Core) : mergeable (inner e) = false := by
  induction e using chainNames.induct with
  | case1 ns vs b ih => simpa [inner] using ih
  | case2 e hne =>
    rw [inner]
    · cases e with
      | letE ns vs b t =>
        cases t <;> try rfl
        exact absurd rfl (hne ns vs b)
      | _ => rfl
    · exact hne

theorem mergeable_mapVars (f : Nat → Var → Var) (d : Nat) (e : Core) : mergeable (e.mapVars f d) = mergeable e := by
  cases e with
  | letE ns vs b t => cases t <;> simp [Core.mapVars, mergeable]
  | _ => simp [Core.mapVars, mergeable]

theorem flattenChain_good {S : String → Prop} {Γ : List (Option Nat)} {ns : List String} {vs : List Core} {b : Core}
    (h : Fit S Γ (.letE ns vs b .other)) :
    Good S Γ (.letE ns vs b .other) (flattenChain (.letE ns vs b .other)) := by
  have hsame : Good S Γ (.letE ns vs b .other) (.letE ns vs b .other) := ⟨.refl _, h, rfl, .refl _⟩
  unfold flattenChain
  dsimp only
  split
  case isFalse => exact hsame
  case isTrue hm =>
  split
  case isTrue => exact hsame
  case isFalse =>
  rw [collectChain_eq]
  -- what is known of the chain
  generalize he : Core.letE ns vs b .other = e at *
  have hgr : (ns, vs) :: groups b = groups e := by rw [← he]; rfl
  have hin : inner b = inner e := by rw [← he]; rfl
  have hn : (chainNames e).Nodup := by
    rw [← he] at h ⊢
    simp only [Fit] at h
    exact h.2.2.1 trivial
  rw [hgr, hin]
  have hall : ∀ g ∈ groups e, g.1.length = g.2.length := by
    intro g hg
    obtain ⟨a, b, hab⟩ := List.append_of_mem hg
    exact (Fit_groups h (r := a.reverse) (by simpa using hab)).1
  have hS : ∀ x ∈ chainNames e, ¬ S x := by
    intro x hx
    rw [chainNames_groups, List.mem_flatMap] at hx
    obtain ⟨g, hg, hx⟩ := hx
    obtain ⟨a, b, hab⟩ := List.append_of_mem hg
    exact (Fit_groups h (r := a.reverse) (by simpa using hab)).2.1 x hx
  have hok : GroupsOk (chainNames e) (groups e) := by
    intro r g rest hg
    obtain ⟨h1, _, h3⟩ := Fit_groups h hg
    refine ⟨h1, fun v hv => ?_⟩
    refine Fit_OkF hS (r := g :: r) ?_ (h3 v hv)
    intro g' hg'
    refine hall g' ?_
    rw [hg]
    simp at hg' ⊢
    grind
  have hb : AllOk (OkF (chainNames e) ((groups e).map (·.1)).reverse) (inner e) := by
    rw [← List.map_reverse]
    exact Fit_OkF hS (fun g hg => hall g (by simpa using hg)) (Fit_inner h)
  have hce := closeAll_eq (ch := groups e) (b := inner e) (by rw [← chainNames_groups]; exact hok)
    (by rw [← chainNames_groups]; exact hb)
  rw [← chainNames_groups] at hce
  have hend : ∀ φ, chainNames (ren φ (inner e)) = [] := fun φ =>
    chainNames_end (by rw [ren, mergeable_mapVars]; exact inner_mergeable e)
  refine ⟨same_flat hn hok hb, ?_, ?_, ?_⟩
  · rw [hce]
    have hlen : (allVals (chainNames e) [] (groups e)).length = (chainNames e).length := by
      rw [allVals_length hall, ← chainNames_groups]
    simp only [Fit, FitL_iff, hlen]
    refine ⟨trivial, hS, fun _ => ?_, ?_, ?_⟩
    · rw [hend, List.append_nil]
      exact hn
    · -- the values
      have hvals : ∀ (gs r : Groups), groups e = r.reverse ++ gs →
          ∀ x ∈ allVals (chainNames e) (r.map (·.1)) gs, Fit S (some (chainNames e).length :: Γ) x := by
        intro gs
        induction gs with
        | nil => intro r _ x hx; cases hx
        | cons g gs ih =>
          intro r hr x hx
          obtain ⟨ns', vs'⟩ := g
          simp only [allVals, List.mem_append, List.mem_map] at hx
          rcases hx with ⟨v, hv, rfl⟩ | hx
          · obtain ⟨_, _, h3⟩ := Fit_groups h hr
            have hmem : ∀ g' ∈ (ns', vs') :: r, g' ∈ groups e := by
              intro g' hg'
              rw [hr]
              simp at hg' ⊢
              grind
            refine Fit_psi (r := (ns', vs') :: r) (fun g' hg' => hall g' (hmem g' hg')) ?_ (h3 v hv)
            intro g' hg' x hx
            rw [chainNames_groups]
            exact List.mem_flatMap.mpr ⟨g', hmem g' hg', hx⟩
          · exact ih ((ns', vs') :: r) (by rw [hr]; simp) x hx
      exact hvals (groups e) [] rfl
    · rw [← List.map_reverse]
      refine Fit_psi (fun g hg => hall g (by simpa using hg)) ?_ (Fit_inner h)
      intro g hg x hx
      rw [chainNames_groups]
      exact List.mem_flatMap.mpr ⟨g, by simpa using hg, hx⟩
  · rw [hce]
    simp only [chainNames]
    rw [hend, List.append_nil]
  · rw [hce]
    simp only [Split.binders, Split.bindersL_eq, binders_allVals]
    rw [ren, Split.binders_mapVars]
    exact (binders_chain e).symm

theorem flatMap_perm {f g : Core → List String} {xs : List Core} (h : ∀ x ∈ xs, (f x).Perm (g x)) :
    (xs.flatMap f).Perm (xs.flatMap g) := by
  induction xs with
  | nil => exact .refl _
  | cons x xs ih =>
    simp only [List.flatMap_cons]
    exact (h x (by simp)).append (ih fun y hy => h y (by simp [hy]))

theorem walk_good {S : String → Prop} (e : Core) : ∀ Γ, Fit S Γ e → Good S Γ e (walk e) := by
  induction e using Core.ind with
  | hv v => intro Γ h; exact ⟨.refl _, h, rfl, .refl _⟩
  | hlet ns vs b t ihv ihb =>
    intro Γ h
    simp only [Fit, FitL_iff] at h
    obtain ⟨hl, hS, hn, hv, hb⟩ := h
    have gb := ihb _ hb
    have gv := fun v hm => ihv v hm _ (hv v hm)
    have hg : Good S Γ (.letE ns vs b t) (.letE ns (vs.map walk) (walk b) t) := by
      refine ⟨Same.letE (by simp) (Same.map fun x hx => (gv x hx).1) gb.1, ?_, ?_, ?_⟩
      · simp only [Fit, FitL_iff, List.length_map]
        refine ⟨hl, hS, ?_, ?_, gb.2.1⟩
        · rw [gb.2.2.1]; exact hn
        · intro x hx
          obtain ⟨v, hm, rfl⟩ := List.mem_map.mp hx
          exact (gv v hm).2.1
      · cases t <;> simp [chainNames, gb.2.2.1]
      · simp only [Split.binders, Split.bindersL_eq, List.flatMap_map]
        refine (List.Perm.append_left _ ?_).append gb.2.2.2
        exact flatMap_perm fun v hm => (gv v hm).2.2.2
    simp only [walk, walkL_eq]
    split
    · exact hg
    · next ht =>
      have : t = .other := by cases t <;> simp at ht ⊢
      subst this
      have hf := flattenChain_good hg.2.1
      exact ⟨hg.1.trans hf.1, hf.2.1, hf.2.2.1.trans hg.2.2.1, hf.2.2.2.trans hg.2.2.2⟩
  | hlam ps b ih =>
    intro Γ h
    have g := ih _ h
    exact ⟨Same.lam rfl g.1, g.2.1, rfl, g.2.2.2⟩
  | hn k xs ih =>
    intro Γ h
    simp only [Fit, FitL_iff] at h
    have g := fun x hx => ih x hx Γ (h x hx)
    simp only [walk, walkL_eq]
    refine ⟨Same.node fun x hx => (g x hx).1, ?_, rfl, ?_⟩
    · simp only [Fit, FitL_iff]
      intro x hx
      obtain ⟨v, hm, rfl⟩ := List.mem_map.mp hx
      exact (g v hm).2.1
    · simp only [Split.binders, Split.bindersL_eq, List.flatMap_map]
      exact flatMap_perm fun v hm => (g v hm).2.2.2

/-- **Flattening keeps what every name refers to**, if the names bound along each chain of groups are
different from each other, bound names are different from free ones (`S` being the free names), and
references are to existing bindings (`Fit`).  The bindings are the same, each as many times.  What is
missing for all programs is false: see `reflatten_shadow`. -/
theorem reflatten_preserves_partial {S : String → Prop} {e : Core} (h : Fit S [] e) :
    Same e (reflatten e) ∧ (Split.binders (reflatten e)).Perm (Split.binders e) ∧ Fit S [] (reflatten e) := by
  obtain ⟨h1, h2, _, h4⟩ := walk_good e [] h
  exact ⟨h1, h4, h2⟩

/-- `{ x: 1 z: x }.({ x: 2 }.[x, z])` -/
def wShadow : Core :=
  .letE ["x", "z"] [.node (.literal "1") [], .var (.bound 0 0 (some "x"))]
    (.letE ["x"] [.node (.literal "2") []]
      (.node .list [.var (.bound 0 0 (some "x")), .var (.bound 1 1 (some "z"))]) .other) .other

/-- Where an inner group binds a name again, flattening changes the program: the reference to the inner
binding becomes one to the outer binding.  The expression is well scoped, has no free names, and the
names of each group are distinct. -/
theorem reflatten_shadow :
    wShadow.WS [] ∧ wShadow.freeVars = [] ∧
    unfold 3 [] wShadow = .node .list [.node (.literal "2") [], .node (.literal "1") []] ∧
    unfold 3 [] (reflatten wShadow) = .node .list [.node (.literal "1") [], .node (.literal "1") []] := by
  have h : reflatten wShadow = .letE ["x", "z", "x"]
      [.node (.literal "1") [], .var (.bound 0 0 (some "x")), .node (.literal "2") []]
      (.node .list [.var (.bound 0 0 (some "x")), .var (.bound 0 1 (some "z"))]) .other := by
    unfold reflatten wShadow
    simp [walk, walkL, flattenChain, mergeable, collectChain_eq, groups, inner, opened, seqOpen_eq, closeAll,
      close, Core.mapVars, mapVarsL, seqOpenVar, closeVar, position, List.findIdx?, List.findIdx?.go]
  refine ⟨by simp [wShadow, Core.WS, WSL, Var.InScope], rfl, rfl, ?_⟩
  rw [h]
  rfl

/-- So flattening does not keep the references of all programs. -/
theorem reflatten_preserves_false : ¬ ∀ e : Core, e.WS [] → Same e (reflatten e) := by
  intro h
  have h1 := h wShadow reflatten_shadow.1 3 []
  rw [reflatten_shadow.2.2.1, reflatten_shadow.2.2.2] at h1
  simp at h1

section
/-- Three groups inside each other, with a lambda and a free name. -/
def wFlat : Core :=
  .letE ["a", "f"] [.node (.literal "1") [], .lam ["p"] (.node .app [.var (.free "+"), .var (.bound 0 0 (some "p")),
      .var (.bound 1 0 (some "a"))])]
    (.letE ["b"] [.node .app [.var (.bound 1 1 (some "f")), .var (.bound 1 0 (some "a"))]]
      (.letE ["c"] [.node .list [.var (.bound 1 0 (some "b")), .var (.bound 2 0 (some "a"))]]
        (.node .list [.var (.bound 0 0 (some "c")), .var (.bound 2 1 (some "f"))]) .other) .other) .other

example : Fit (· = "+") [] wFlat := by
  simp [wFlat, Fit, FitL, Fits, chainNames]

example : reflatten wFlat = .letE ["a", "f", "b", "c"]
    [.node (.literal "1") [], .lam ["p"] (.node .app [.var (.free "+"), .var (.bound 0 0 (some "p")),
      .var (.bound 1 0 (some "a"))]),
     .node .app [.var (.bound 0 1 (some "f")), .var (.bound 0 0 (some "a"))],
     .node .list [.var (.bound 0 2 (some "b")), .var (.bound 0 0 (some "a"))]]
    (.node .list [.var (.bound 0 3 (some "c")), .var (.bound 0 1 (some "f"))]) .other := by
  unfold reflatten wFlat
  simp [walk, walkL, flattenChain, mergeable, collectChain_eq, groups, inner, opened, seqOpen_eq, closeAll,
    close, Core.mapVars, mapVarsL, seqOpenVar, closeVar, position, List.findIdx?, List.findIdx?.go]
end

end Verif.Flat
