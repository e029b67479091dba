import Verif.PruneLive

/-!
# Pruning (C48)
-/

namespace Verif.Prune

open Verif.Core Verif.Dce

/-- **Pruning ends, and never panics on a well scoped program.** -/
theorem prune_total {e : Core} (hw : e.WS []) : ∃ e', prune e = some e' ∧ e'.WS [] := by
  obtain ⟨st, h1, _⟩ := marking hw
  exact ⟨_, by unfold prune; rw [h1]; rfl, blank_ws e _ _ _ hw⟩

/-- **Pruning keeps what the program stands for**, references being followed and lookups carried out to any depth.

Partial: a lookup that has its own object as fallback is excluded, see `self_fallback_pruned`. -/
theorem prune_preserves_partial {e e' : Core} (hw : e.WS []) (hs : NoSelf e) (h : prune e = some e') (n : Nat) :
    see n [] e = see n [] e' := by
  obtain ⟨st, h1, h2⟩ := marking hw
  unfold prune at h
  rw [h1] at h
  simp only [Option.map_some, Option.some.injEq] at h
  subst h
  exact see_ends hs h2 n (p := []) rfl (fun h => h) h2.ends .nil

/-- No binding that pruning blanks is referred to from what is left. -/
theorem prune_live {e e' : Core} (hw : e.WS []) (hn : NoElim e) (h : prune e = some e') : Live [] e' := by
  obtain ⟨st, h1, h2⟩ := marking hw
  unfold prune at h
  rw [h1] at h
  simp only [Option.map_some, Option.some.injEq] at h
  subst h
  exact live_ends hw hn h2 (p := []) rfl (fun h => h) h2.ends .nil

/-! ## Elimination: pruning, then removing what is blank -/

/-- **Elimination never fails**: the internal error for a reference to an eliminated binding is never raised. -/
theorem eliminate_total {e : Core} (hw : e.WS []) (hn : NoElim e) : ∃ e', eliminate e = some e' ∧ e'.WS [] := by
  obtain ⟨e1, h1, h2⟩ := prune_total hw
  obtain ⟨e2, h3⟩ := (compress_total h2).mpr (prune_live hw hn h1)
  exact ⟨e2, by unfold eliminate; rw [h1]; exact h3, compress_ws h2 h3⟩

/-- **Elimination keeps what the program stands for.**  Partial as `prune_preserves_partial`. -/
theorem eliminate_preserves_partial {e e' : Core} (hw : e.WS []) (hs : NoSelf e) (h : eliminate e = some e') (n : Nat) :
    see n [] e = see n [] e' := by
  obtain ⟨e1, h1, h2⟩ := prune_total hw
  unfold eliminate at h
  rw [h1] at h
  rw [prune_preserves_partial hw hs h1 n]
  unfold see
  rw [compress_preserves h2 h n []]

/-! ### It can be done again -/

mutual
/-- Eliminated expressions occur as values of bindings only. -/
def ElimB : Core → Prop
  | .var _ => True
  | .letE _ vs b _ => ElimBV vs ∧ ElimB b
  | .lam _ b => ElimB b
  | .node k xs => k ≠ .errEliminated ∧ ElimBL xs
def ElimBV : List Core → Prop
  | [] => True
  | x :: xs => (isElim x = true ∨ ElimB x) ∧ ElimBV xs
def ElimBL : List Core → Prop
  | [] => True
  | x :: xs => ElimB x ∧ ElimBL xs
end

theorem ElimBV_iff {xs : List Core} : ElimBV xs ↔ ∀ x ∈ xs, isElim x = true ∨ ElimB x := by
  induction xs with
  | nil => simp [ElimBV]
  | cons x xs ih => simp [ElimBV, ih]

theorem ElimBL_iff {xs : List Core} : ElimBL xs ↔ ∀ x ∈ xs, ElimB x := by
  induction xs with
  | nil => simp [ElimBL]
  | cons x xs ih => simp [ElimBL, ih]

theorem NoElimL_iff {xs : List Core} : NoElimL xs ↔ ∀ x ∈ xs, NoElim x := by
  induction xs with
  | nil => simp [NoElimL]
  | cons x xs ih => simp [NoElimL, ih]

theorem blank_elimB {st : St} (e : Core) : ∀ (f : Filter) (p : Path), NoElim e → ElimB (blankW st f p e) := by
  induction e using Core.ind with
  | hv v => intro f p h; exact trivial
  | hlet ns vs b t ihv ihb =>
    intro f p h
    simp only [blankW, ElimB, ElimBV_iff]
    refine ⟨?_, ihb _ _ h.2⟩
    intro w hw
    obtain ⟨j, v, h1, rfl⟩ := mem_blankB hw
    unfold blankV
    split
    · exact .inl rfl
    · exact .inr (ihv v (List.mem_of_getElem? h1) _ _ (NoElimL_get h.1 h1))
  | hlam ps b ih => intro f p h; exact ih _ _ h
  | hn k xs ih =>
    intro f p h
    by_cases hk : ∃ m, k = .lookup m
    · obtain ⟨m, rfl⟩ := hk
      have h2 := NoElimL_iff.1 h.2
      simp only [blankW, ElimB, ElimBL_iff]
      refine ⟨by simp, ?_⟩
      intro w hw
      rcases mem_blankO hw with ⟨o, fs, rfl, rfl⟩ | ⟨o, g, fs, rfl, rfl⟩
      · exact ih o (by simp) _ _ (h2 o (by simp))
      · exact ih g (by simp) _ _ (h2 g (by simp))
    · obtain ⟨k', ys, h1, h3⟩ := blank_node_shape st f p k xs
      rw [h1]
      simp only [ElimB, ElimBL_iff]
      refine ⟨fun he => h.1 (h3 he), ?_⟩
      intro w hw
      obtain ⟨j, v, h2, rfl⟩ := mem_blank_node (fun m hm => hk ⟨m, hm⟩) h1 hw
      exact ih v (List.mem_of_getElem? h2) _ _ (NoElimL_get h.2 h2)

theorem mapVars_noElim (g : Nat → Var → Var) (e : Core) : ∀ d, NoElim e → NoElim (e.mapVars g d) := by
  induction e using Core.ind with
  | hv v => intro d _; exact trivial
  | hlet ns vs b t ihv ihb =>
    intro d h
    simp only [Core.mapVars, NoElim, NoElimL_iff, mapVarsL_eq] at *
    refine ⟨?_, ihb _ h.2⟩
    intro x hx
    obtain ⟨v, hv, rfl⟩ := List.mem_map.1 hx
    exact ihv v hv _ (h.1 v hv)
  | hlam ps b ih => intro d h; exact ih _ h
  | hn k xs ih =>
    intro d h
    simp only [Core.mapVars, NoElim, NoElimL_iff, mapVarsL_eq] at *
    refine ⟨h.1, ?_⟩
    intro x hx
    obtain ⟨v, hv, rfl⟩ := List.mem_map.1 hx
    exact ih v hv _ (h.2 v hv)

theorem compress_noElim {e e' : Core} : ∀ {P : List Perm}, ElimB e → compress P e = some e' → NoElim e' := by
  induction e using Core.ind generalizing e' with
  | hv v =>
    intro P _ h
    simp only [compress, Option.map_eq_some_iff] at h
    obtain ⟨w, _, rfl⟩ := h
    exact trivial
  | hlet ns vs b t ihv ihb =>
    intro P he h
    simp only [compress, Option.bind_eq_bind, Option.bind_eq_some_iff, Option.pure_def] at h
    obtain ⟨r, h1, b', h2, h3⟩ := h
    have hb := ihb he.2 h2
    split at h3
    · simp only [Option.some.injEq] at h3
      subst h3
      refine ⟨NoElimL_iff.2 ?_, hb⟩
      have key : ∀ {ns vs r}, (∀ v ∈ vs, ∀ {e' : Core} {P : List Perm}, ElimB v → compress P v = some e' → NoElim e') →
          (∀ v ∈ vs, isElim v = true ∨ ElimB v) → ∀ {P}, compressVals P ns vs = some r → ∀ w ∈ r.2, NoElim w := by
        intro ns vs
        induction vs generalizing ns with
        | nil => intro r _ _ P h; cases ns <;> (simp [compressVals] at h; subst h; simp)
        | cons v vs ih =>
          intro r hv hx P h
          cases ns with
          | nil => simp [compressVals] at h; subst h; simp
          | cons n ns =>
            simp only [compressVals] at h
            split at h
            · exact ih (fun w hw => hv w (by simp [hw])) (fun w hw => hx w (by simp [hw])) h
            · simp only [Option.bind_eq_bind, Option.bind_eq_some_iff, Option.pure_def, Option.some.injEq] at h
              obtain ⟨v', g1, r', g2, rfl⟩ := h
              intro w hw
              rcases List.mem_cons.1 hw with rfl | hw
              · rcases hx v (by simp) with hx | hx
                · contradiction
                · exact hv v (by simp) hx g1
              · exact ih (fun w hw => hv w (by simp [hw])) (fun w hw => hx w (by simp [hw])) g2 w hw
      exact key (fun v hv => ihv v hv) (ElimBV_iff.1 he.1) h1
    · simp only [Option.some.injEq] at h3
      subst h3
      exact mapVars_noElim _ _ _ hb
  | hlam ps b ih =>
    intro P he h
    simp only [compress, Option.bind_eq_bind, Option.bind_eq_some_iff, Option.pure_def, Option.some.injEq] at h
    obtain ⟨b', h2, rfl⟩ := h
    have hb : NoElim b' := ih he h2
    exact hb
  | hn k xs ih =>
    intro P he h
    simp only [compress, Option.bind_eq_bind, Option.bind_eq_some_iff, Option.pure_def, Option.some.injEq] at h
    obtain ⟨xs', h2, rfl⟩ := h
    obtain ⟨hl, hx⟩ := compressL_some h2
    have hE := ElimBL_iff.1 he.2
    refine ⟨he.1, NoElimL_iff.2 ?_⟩
    intro x' hx'
    obtain ⟨i, hi2, hxi⟩ := List.getElem_of_mem hx'
    have hi3 : i < xs.length := by omega
    exact ih _ (List.getElem_mem hi3) (hE _ (List.getElem_mem hi3))
      (hx i xs[i] x' (List.getElem?_eq_getElem hi3) (by rw [List.getElem?_eq_getElem hi2, hxi]))

/-- **Nothing eliminated is left**, so that elimination can be repeated after other passes. -/
theorem eliminate_clean {e e' : Core} (hw : e.WS []) (hn : NoElim e) (h : eliminate e = some e') : NoElim e' := by
  obtain ⟨st, h1, _⟩ := marking hw
  unfold eliminate prune at h
  rw [h1] at h
  exact compress_noElim (blank_elimB e _ _ hn) h

/-! ## Examples -/

def lit (s : String) : Core := .node (.literal s) []
def ref (s i : Nat) : Core := .var (.bound s i none)

/-- `ns: {a: 1  b: 2  c: a}  dead: ns  used: ns.a` and the result `used`. -/
def sample : Core :=
  .letE ["ns", "dead", "used"]
    [.letE ["a", "b", "c"] [lit "1", lit "2", ref 0 0] (.node (.block ["a", "b", "c"]) [ref 0 0, ref 0 1, ref 0 2]) .default,
     ref 0 0, .node (.lookup "a") [ref 0 0]]
    (ref 0 2) .other

/-! A measure to tell trees apart. -/

mutual
def treeWeight : Tree → Nat
  | .lam _ b => treeWeight b + 1
  | .node _ xs => treeWeightL xs + 1
  | _ => 1
def treeWeightL : List Tree → Nat
  | [] => 0
  | x :: xs => treeWeight x + treeWeightL xs
end

mutual
/-- The same expression. -/
def eqB : Core → Core → Bool
  | .var v, .var w => decide (v = w)
  | .letE ns vs b t, .letE ns' vs' b' t' => decide (ns = ns') && eqBL vs vs' && eqB b b' && decide (t = t')
  | .lam ps b, .lam ps' b' => decide (ps = ps') && eqB b b'
  | .node k xs, .node k' xs' => decide (k = k') && eqBL xs xs'
  | _, _ => false
def eqBL : List Core → List Core → Bool
  | [], [] => true
  | x :: xs, y :: ys => eqB x y && eqBL xs ys
  | _, _ => false
end

example : sample.WS [] := by
  simp [sample, Core.WS, WSL, lit, ref, Var.InScope]

example : NoSelf sample ∧ NoElim sample := by
  simp [sample, NoSelf, NoSelfL, NoSelfO, NoElim, NoElimL, lit, ref]

/-- The binding that is not used is gone, and so are the members that are not looked up. -/
def sampleAfter : Core :=
  .letE ["ns", "used"]
    [.letE ["a", "b", "c"] [lit "1", lit "2", ref 0 0] (.node (.block ["a"]) [ref 0 0]) .default,
     .node (.lookup "a") [ref 0 0]]
    (ref 0 1) .other

example : (eliminate sample).any (eqB sampleAfter) = true := by decide +kernel

/-! ## Where it goes wrong -/

/-- `ns: {a: 1 b: 2}`, looked up `ns` in `ns` itself, falling back to `ns`. -/
def selfLookup : Core :=
  .letE ["ns"]
    [.letE ["a", "b"] [lit "1", lit "2"] (.node (.block ["a", "b"]) [ref 0 0, ref 0 1]) .default]
    (.node (.lookup "ns") [ref 0 0, ref 0 0]) .other

theorem selfLookup_ws : selfLookup.WS [] := by
  simp [selfLookup, Core.WS, WSL, lit, ref, Var.InScope]

/-- **Negation**: if the fallback of a lookup is its object, members of the result are lost. -/
theorem self_fallback_pruned : ∃ e' n, prune selfLookup = some e' ∧ see n [] selfLookup ≠ see n [] e' := by
  obtain ⟨e', h, _⟩ := prune_total selfLookup_ws
  refine ⟨e', 3, h, ?_⟩
  intro he
  have hw : (prune selfLookup).map (fun e => treeWeight (see 3 [] e)) ≠ some (treeWeight (see 3 [] selfLookup)) := by
    decide +kernel
  rw [h] at hw
  exact hw (by rw [Option.map_some, he])

end Verif.Prune
