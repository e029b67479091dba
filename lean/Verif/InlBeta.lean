import Verif.InlFresh
import Verif.InlShow

/-!
# Applying functions early keeps what a program shows

Proofs only.
-/

namespace Verif.Inl
open Verif.Comp
variable {K : Type}

/-! ## Marked functions -/

mutual
/-- Only functions with flat bodies are marked. -/
def marks : Exp K → Prop
  | .let_ _ bs b => marksB bs ∧ marks b
  | .lam true ps b => flat ps.length b = true ∧ ps.Nodup ∧ ps ≠ []
  | .lam false _ b => marks b
  | .app f xs => marks f ∧ marksL xs
  | .metaOf x m => marks x ∧ marks m
  | .node _ xs => marksL xs
  | _ => True
def marksL : Exps K → Prop
  | .nil => True
  | .cons x xs => marks x ∧ marksL xs
def marksB : Binds K → Prop
  | .nil => True
  | .cons _ x rest => marks x ∧ marksB rest
end

theorem Closed.marks {e : Exp K} (h : Closed e) : marks e := by
  cases h with
  | lam h1 h2 h3 => exact ⟨h1, h2, h3⟩
  | intrinsic => trivial

theorem sVar_marks {Γ : List (Fr K)} (hc : Cl Γ) (d : Nat) (v : Var) : marks (sVar Γ d v) := by
  cases v with
  | free n => simp [sVar, marks]
  | bound s i h =>
    simp only [sVar]
    split
    · trivial
    · cases hi : inlAt Γ (s - d) i with
      | none => trivial
      | some e => exact (hc _ _ _ hi).marks

mutual
theorem s_marks {Γ : List (Fr K)} (hc : Cl Γ) {G : Names} (x : Exp K) (d : Nat) (hx : tame G x = true) : marks (x.trav (sVar Γ) d) := by
  match x with
  | .var v => exact sVar_marks hc d v
  | .let_ t bs b =>
    simp only [tame, Bool.and_eq_true] at hx
    exact ⟨s_marksB hc bs (d + 1) hx.1.2, s_marks hc b (d + 1) hx.2⟩
  | .lam true ps b =>
    have hcl : Closed (.lam true ps b) := tame_closed hx rfl
    rw [hcl.trav (fun d i h => by simp [sVar])]
    exact hcl.marks
  | .lam false ps b => exact s_marks hc b (d + 1) (by simpa [tame] using hx)
  | .app e xs =>
    simp only [tame, Bool.and_eq_true] at hx
    exact ⟨s_marks hc e d hx.1, s_marksL hc xs d hx.2⟩
  | .lit p => trivial
  | .intrinsic n => trivial
  | .metaOf x m =>
    simp only [tame, Bool.and_eq_true] at hx
    exact ⟨s_marks hc x d hx.1, s_marks hc m d hx.2⟩
  | .node k xs => exact s_marksL hc xs d (by simpa [tame] using hx)
theorem s_marksL {Γ : List (Fr K)} (hc : Cl Γ) {G : Names} (xs : Exps K) (d : Nat) (hx : tameL G xs = true) : marksL (xs.trav (sVar Γ) d) := by
  match xs with
  | .nil => trivial
  | .cons x xs =>
    simp only [tameL, Bool.and_eq_true] at hx
    exact ⟨s_marks hc x d hx.1, s_marksL hc xs d hx.2⟩
theorem s_marksB {Γ : List (Fr K)} (hc : Cl Γ) {G : Names} (xs : Binds K) (d : Nat) (hx : tameB G xs = true) : marksB (xs.trav (sVar Γ) d) := by
  match xs with
  | .nil => trivial
  | .cons n x xs =>
    simp only [tameB, Bool.and_eq_true] at hx
    exact ⟨s_marks hc x d hx.1.2, s_marksB hc xs d hx.2⟩
end

mutual
theorem D_marks {Γ : List (Fr K)} (hc : Cl Γ) {G : Names} (x : Exp K) (hx : tame G x = true) : marks (D Γ x) := by
  match x with
  | .var v => rw [D]; exact sVar_marks hc 0 v
  | .let_ t bs b =>
    have hx' := hx
    simp only [tame, Bool.and_eq_true] at hx
    unfold D
    split
    · exact s_marks hc (.let_ t bs b) 0 hx'
    · have hc' : Cl (.opened bs.names (inlsOf Γ bs) :: Γ) := hc.opened fun i e hi => inls_closed hc hx.1.2 i e hi
      exact ⟨D_marksB hc' bs hx.1.2, D_marks hc' b hx.2⟩
  | .lam true ps b =>
    have hcl : Closed (.lam true ps b) := tame_closed hx rfl
    rw [D]
    exact hcl.marks
  | .lam false ps b => rw [D]; exact D_marks hc.lam b (by simpa [tame] using hx)
  | .app e xs =>
    simp only [tame, Bool.and_eq_true] at hx
    rw [D]
    exact ⟨D_marks hc e hx.1, D_marksL hc xs hx.2⟩
  | .lit p => rw [D]; trivial
  | .intrinsic n => rw [D]; trivial
  | .metaOf x m =>
    simp only [tame, Bool.and_eq_true] at hx
    rw [D]
    exact ⟨D_marks hc x hx.1, D_marks hc m hx.2⟩
  | .node k xs => rw [D]; exact D_marksL hc xs (by simpa [tame] using hx)
theorem D_marksL {Γ : List (Fr K)} (hc : Cl Γ) {G : Names} (xs : Exps K) (hx : tameL G xs = true) : marksL (DL Γ xs) := by
  match xs with
  | .nil => rw [DL]; trivial
  | .cons x xs =>
    simp only [tameL, Bool.and_eq_true] at hx
    rw [DL]
    exact ⟨D_marks hc x hx.1, D_marksL hc xs hx.2⟩
theorem D_marksB {Γ : List (Fr K)} (hc : Cl Γ) {G : Names} (xs : Binds K) (hx : tameB G xs = true) : marksB (DB Γ xs) := by
  match xs with
  | .nil => rw [DB]; trivial
  | .cons n x xs =>
    simp only [tameB, Bool.and_eq_true] at hx
    rw [DB]
    exact ⟨D_marks hc x hx.1.2, D_marksB hc xs hx.2⟩
end

/-! ## Renaming scopes -/

def renVar (r : Nat → Nat) (d : Nat) : Var → Exp K
  | .free n => .var (.free n)
  | .bound s i h => if s < d then .var (.bound s i h) else .var (.bound (d + r (s - d)) i h)

def lift (r : Nat → Nat) : Nat → Nat
  | 0 => 0
  | s + 1 => r s + 1

theorem ren_under (r : Nat → Nat) (d : Nat) (v : Var) : renVar (K := K) r (d + 1) v = renVar (lift r) d v := by
  cases v with
  | free n => rfl
  | bound s i h =>
    simp only [renVar]
    by_cases h1 : s < d
    · rw [if_pos h1, if_pos (by omega)]
    · rw [if_neg h1]
      by_cases h2 : s = d
      · subst h2
        rw [if_pos (by omega), Nat.sub_self]
        rfl
      · rw [if_neg (by omega)]
        have : s - d = (s - (d + 1)) + 1 := by omega
        rw [this]
        simp only [lift]
        congr 2
        omega

/-- Bound within `n` scopes, and not to one of these names. -/
def Below (n : Nat) (d : Nat) : Var → Prop
  | .free _ => True
  | .bound s _ _ => s < n + d

def Avoids (ns : List String) (_ : Nat) : Var → Prop
  | .free n => n ∉ ns
  | .bound .. => True

mutual
theorem frees_avoid (ns : List String) (x : Exp K) (d : Nat) (h : ∀ n ∈ ns, n ∉ frees x) : Occ (Avoids ns) d x := by
  match x with
  | .var (.free n) => exact fun hm => h n hm (by simp [frees])
  | .var (.bound ..) => trivial
  | .let_ t bs b =>
    simp only [frees, List.mem_append, not_or] at h
    exact ⟨freesB_avoid ns bs _ fun n hn => (h n hn).1, frees_avoid ns b _ fun n hn => (h n hn).2⟩
  | .lam i ps b => exact frees_avoid ns b (d + 1) h
  | .app f xs =>
    simp only [frees, List.mem_append, not_or] at h
    exact ⟨frees_avoid ns f _ fun n hn => (h n hn).1, freesL_avoid ns xs _ fun n hn => (h n hn).2⟩
  | .lit p => trivial
  | .intrinsic n => trivial
  | .metaOf x m =>
    simp only [frees, List.mem_append, not_or] at h
    exact ⟨frees_avoid ns x _ fun n hn => (h n hn).1, frees_avoid ns m _ fun n hn => (h n hn).2⟩
  | .node k xs => exact freesL_avoid ns xs d h
theorem freesL_avoid (ns : List String) (xs : Exps K) (d : Nat) (h : ∀ n ∈ ns, n ∉ freesL xs) : OccL (Avoids ns) d xs := by
  match xs with
  | .nil => trivial
  | .cons x xs =>
    simp only [freesL, List.mem_append, not_or] at h
    exact ⟨frees_avoid ns x _ fun n hn => (h n hn).1, freesL_avoid ns xs _ fun n hn => (h n hn).2⟩
theorem freesB_avoid (ns : List String) (xs : Binds K) (d : Nat) (h : ∀ n ∈ ns, n ∉ freesB xs) : OccB (Avoids ns) d xs := by
  match xs with
  | .nil => trivial
  | .cons _ x xs =>
    simp only [freesB, List.mem_append, not_or] at h
    exact ⟨frees_avoid ns x _ fun n hn => (h n hn).1, freesB_avoid ns xs _ fun n hn => (h n hn).2⟩
end

/-- Closing over names that do not occur, and renaming, is to rename past the new scope. -/
theorem close_ren {ns : List String} (r : Nat → Nat) (x : Exp K) (h : ∀ n ∈ ns, n ∉ frees x) :
    (x.trav (closeVar ns) 0).trav (renVar r) 1 = x.trav (renVar fun s => r s + 1) 0 := by
  refine trav_trav (k := 1) (P := Avoids ns) ?_ x 0 (frees_avoid ns x 0 h)
  intro d v hv
  cases v with
  | free n =>
    have : ns.findIdx? (· == n) = none := findIdx_not (by simpa [Avoids] using hv)
    simp only [closeVar, this]
    rfl
  | bound s i h =>
    simp only [closeVar]
    by_cases hs : d ≤ s
    · rw [if_pos hs]
      simp only [Exp.trav, renVar]
      rw [if_neg (by omega), if_neg (by omega)]
      have : s + 1 - (d + 1) = s - d := by omega
      rw [this]
      congr 2
      omega
    · rw [if_neg hs]
      simp only [Exp.trav, renVar]
      rw [if_pos (by omega), if_pos (by omega)]

/-! ## Flat bodies -/

mutual
theorem inst_T {n : Nat} {Φ : Ctx K} {xs : List (Comp.Exp K)} {g : Nat → Exp K}
    (H : ∀ i < n, ∃ e, xs[i]? = some e ∧ T Φ e (erase (g i))) (x : Exp K) (hx : flat n x = true) :
    T (.leftArgs xs :: Φ) (erase x) (erase (inst g x)) := by
  match x with
  | .var (.bound s i h) =>
    simp only [flat, Bool.and_eq_true, beq_iff_eq, decide_eq_true_eq] at hx
    obtain ⟨e, h1, h2⟩ := H i hx.2
    rw [hx.1]
    exact .unfold (.hereArgs h1) h2
  | .app f ys =>
    simp only [flat, Bool.and_eq_true] at hx
    simp only [inst, erase]
    exact .head (.app (inst_T H f hx.1) (inst_Ts H ys hx.2))
  | .lit p => exact .head .lit
  | .intrinsic _ => exact .head .intrinsic
theorem inst_Ts {n : Nat} {Φ : Ctx K} {xs : List (Comp.Exp K)} {g : Nat → Exp K}
    (H : ∀ i < n, ∃ e, xs[i]? = some e ∧ T Φ e (erase (g i))) (ys : Exps K) (hx : flatL n ys = true) :
    Ts (.leftArgs xs :: Φ) (eraseL ys) (eraseL (instL g ys)) := by
  match ys with
  | .nil => exact .nil
  | .cons y ys =>
    simp only [flatL, Bool.and_eq_true] at hx
    simp only [instL, eraseL]
    exact .cons (inst_T H y hx.1) (inst_Ts H ys hx.2)
end

mutual
theorem flat_beta {n : Nat} (x : Exp K) (hx : flat n x = true) : beta x = x := by
  match x with
  | .var (.bound s i h) => rfl
  | .app f ys =>
    simp only [flat, Bool.and_eq_true] at hx
    have h1 := flat_beta f hx.1
    have h2 := flatL_beta ys hx.2
    cases f with
    | lam i ps b => simp [flat] at hx
    | _ => simp only [beta] at h1 ⊢; simp only [h1, h2]
  | .lit p => rfl
  | .intrinsic _ => rfl
theorem flatL_beta {n : Nat} (ys : Exps K) (hx : flatL n ys = true) : betaL ys = ys := by
  match ys with
  | .nil => rfl
  | .cons y ys =>
    simp only [flatL, Bool.and_eq_true] at hx
    simp only [betaL, flat_beta y hx.1, flatL_beta ys hx.2]
end

theorem betaL_list (xs : Exps K) : (betaL xs).list = xs.list.map beta := by
  match xs with
  | .nil => rfl
  | .cons x xs => simp only [betaL, Exps.list, List.map_cons, betaL_list xs]

theorem exps_erase (xs : Exps K) : exps (eraseL xs) = xs.list.map erase := by
  match xs with
  | .nil => rfl
  | .cons x xs => simp only [eraseL, exps, Exps.list, List.map_cons, exps_erase xs]

/-- The body of a flat function with things put in for its parameters. -/
theorem substs_flat {ps : List String} {b : Exp K} (hb : flat ps.length b = true) (hn : ps.Nodup) {m : List (String × Exp K)}
    (hm : m.map (·.1) = ps) : substsDepth m (openLam ps b) = inst (fun i => (m[i]?.map (·.2)).getD (.lit .null)) b := by
  unfold openLam substsDepth
  rw [trav_flat (g := fun i => .var (.free (ps[i]?.getD "_"))) 0 ?_ b hb]
  · refine trav_inst 0 ?_ b hb
    intro i hi
    have h1 : ps[i]? = some ps[i] := List.getElem?_eq_getElem hi
    have h2 : findName m ps[i] = m[i]?.map (·.2) := by
      subst hm
      have hl : i < m.length := by simpa using hi
      have hp : m[i]? = some m[i] := List.getElem?_eq_getElem hl
      have h3 := find_filterMap (g := fun x => some x) hn hp
      rw [hp]
      simpa [findName] using h3
    have hl : i < m.length := by
      have := congrArg List.length hm
      simp at this; omega
    simp only [h1, Option.getD_some, Exp.trav, h2]
    rw [List.getElem?_eq_getElem hl]
    rfl
  · intro i h hi
    simp only [openVar, if_true]
    rw [List.getElem?_eq_getElem hi]
    rfl

/-- What `plan` gives for a function applied to as many arguments as it has parameters. -/
theorem plan_at {occ : List String} {ps : List String} {xs : List (Exp K)} {avoid : List String} (hl : ps.length = xs.length)
    {m sh : List (String × Exp K)} (hp : plan occ (ps.zip xs) avoid = (m, sh)) :
    m.map (·.1) = ps ∧ (∀ i < ps.length, ∃ x y, xs[i]? = some x ∧ (m[i]?.map (·.2)).getD (.lit .null) = y ∧
      (y = x ∨ ∃ (k : Nat) (n : String), y = Exp.var (.free n) ∧ sh[k]? = some (n, x))) ∧
    (sh.map (·.1)).Nodup ∧ (∀ n ∈ sh.map (·.1), n ∉ avoid) ∧ ∀ q ∈ sh, q.2 ∈ xs := by
  obtain ⟨h1, h2, h3, h4, h5⟩ := plan_spec occ (ps.zip xs) avoid
  rw [hp] at h1 h2 h3 h4 h5
  rw [List.map_fst_zip (by omega)] at h1
  rw [List.map_snd_zip (by omega)] at h5
  refine ⟨h1, ?_, h3, h4, h5⟩
  intro i hi
  have e1 : ps[i]? = some ps[i] := List.getElem?_eq_getElem hi
  have hi' : i < xs.length := by omega
  have e2 : xs[i]? = some xs[i] := List.getElem?_eq_getElem hi'
  obtain ⟨y, h6, h7⟩ := h2 i ps[i] xs[i] (by simp [List.getElem?_zip_eq_some, e1, e2])
  exact ⟨xs[i], y, e2, by rw [h6]; rfl, h7⟩

theorem Binds.list_of (l : List (String × Exp K)) : (Binds.of l).list = l := by
  induction l with
  | nil => rfl
  | cons p l ih => obtain ⟨n, x⟩ := p; simp only [Binds.of, Binds.list, ih]

/-- Applying a flat function early. -/
theorem early_T {n : Nat} {Φ : Ctx K} {r : Nat → Nat} {ps : List String} {b : Exp K} {xs : Exps K}
    (hb : flat ps.length b = true) (hn : ps.Nodup) (hne : ps ≠ []) (hl : ps.length = xs.list.length)
    (H : ∀ (Φ : Ctx K) (r : Nat → Nat), (∀ s < n, Same Φ s (r s)) → ∀ (i : Nat) (x : Exp K), xs.list[i]? = some x →
      T Φ (erase x) (erase ((beta x).trav (renVar r) 0)))
    (hr : ∀ s < n, Same Φ s (r s)) :
    T Φ (erase (.app (.lam true ps b) xs)) (erase ((applyEarly ps b (betaL xs).list).trav (renVar r) 0)) := by
  obtain ⟨k, hk⟩ : ∃ k, ps.length = k + 1 := by
    cases ps with
    | nil => exact absurd rfl hne
    | cons p ps => exact ⟨ps.length, rfl⟩
  have hlen : (exps (eraseL xs)).length = k + 1 := by rw [exps_erase]; simp; omega
  have hl' : ps.length = (betaL xs).list.length := by rw [betaL_list]; simpa using hl
  cases hp : plan (frees (openLam ps b)) (ps.zip (betaL xs).list) (frees (openLam ps b) ++ (betaL xs).list.flatMap frees) with
  | mk m sh =>
    obtain ⟨h1, h2, h3, h4, h5⟩ := plan_at hl' hp
    have hbody := substs_flat hb hn h1
    simp only [applyEarly, hp, hbody]
    have arg : ∀ (i : Nat) (x : Exp K), (betaL xs).list[i]? = some x → ∃ z, xs.list[i]? = some z ∧ x = beta z := by
      intro i x hx
      rw [betaL_list, List.getElem?_map] at hx
      cases hz : xs.list[i]? with
      | none => rw [hz] at hx; simp at hx
      | some z => rw [hz] at hx; simp only [Option.map_some, Option.some.injEq] at hx; exact ⟨z, rfl, hx.symm⟩
    cases sh with
    | nil =>
      simp only [List.isEmpty_nil, if_true]
      rw [trav_inst (n := ps.length) 0 (fun _ _ => rfl) b hb]
      simp only [erase, hk]
      refine .beta hlen ?_
      refine inst_T (n := ps.length) ?_ b hb
      intro i hi
      obtain ⟨x, y, h6, h7, h8⟩ := h2 i hi
      obtain ⟨z, h9, rfl⟩ := arg i x h6
      refine ⟨erase z, by rw [exps_erase, List.getElem?_map, h9]; rfl, ?_⟩
      rcases h8 with h8 | ⟨k, n, _, h8⟩
      · rw [h7, h8]
        exact H Φ r hr i z h9
      · simp at h8
    | cons q sh =>
      simp only [List.isEmpty_cons, Bool.false_eq_true, if_false]
      generalize hsh : q :: sh = sh' at *
      have hav : ∀ x ∈ (betaL xs).list, ∀ n ∈ sh'.map (·.1), n ∉ frees x := by
        intro x hx n hn' hf
        exact h4 n hn' (List.mem_append_right _ (List.mem_flatMap.2 ⟨x, hx, hf⟩))
      simp only [closeLet, Exp.trav, erase, hk, Nat.zero_add]
      rw [trav_inst (n := ps.length) 0 (fun _ _ => rfl) b hb, trav_inst (n := ps.length) 1 (fun _ _ => rfl) b hb]
      refine .share ?_
      refine .beta hlen ?_
      refine inst_T (n := ps.length) ?_ b hb
      intro i hi
      obtain ⟨x, y, h6, h7, h8⟩ := h2 i hi
      have hxm : x ∈ (betaL xs).list := List.mem_of_getElem? h6
      obtain ⟨z, h9, rfl⟩ := arg i x h6
      refine ⟨erase z, by rw [exps_erase, List.getElem?_map, h9]; rfl, ?_⟩
      have direct : T (.rightLet (eraseB ((Binds.of (sh'.map fun p => (p.1, p.2.trav (closeVar (sh'.map (·.1))) 0))).trav (renVar r) 1)) :: Φ)
          (erase z) (erase (((beta z).trav (closeVar (sh'.map (·.1))) 0).trav (renVar r) 1)) := by
        rw [close_ren r (beta z) (hav _ hxm)]
        exact H _ _ (fun s hs => .rightLet (hr s hs)) i z h9
      rcases h8 with h8 | ⟨j, n, h8, h10⟩
      · rw [h7, h8]
        exact direct
      · rw [h7, h8]
        have hix : (sh'.map (·.1)).findIdx? (· == n) = some j := findIdx_nodup h3 (by rw [List.getElem?_map, h10]; rfl)
        simp only [Exp.trav, closeVar, hix, renVar, Nat.lt_add_one, if_true, erase]
        refine .shared (.here ?_) direct
        rw [bindings_erase, Binds.list_trav, Binds.list_of, List.getElem?_map, List.getElem?_map, h10]
        rfl

theorem ren_same {Φ : Ctx K} {n : Nat} {r : Nat → Nat} (hr : ∀ s < n, Same Φ s (r s)) : ∀ s < n + 1, Same (.lam :: Φ) s (lift r s) := by
  intro s hs
  cases s with
  | zero => exact .hereLam
  | succ s => exact .lam (hr s (by omega))

theorem ren_both {Φ : Ctx K} {n : Nat} {r : Nat → Nat} (hr : ∀ s < n, Same Φ s (r s)) (bs bs') :
    ∀ s < n + 1, Same (.both bs bs' :: Φ) s (lift r s) := by
  intro s hs
  cases s with
  | zero => exact .hereBoth
  | succ s => exact .both (hr s (by omega))

theorem below_one {n : Nat} (d : Nat) (v : Var) (h : Below n (d + 1) v) : Below (n + 1) d v := by
  cases v with
  | free _ => trivial
  | bound s i h' => simp only [Below] at *; omega

mutual
theorem occ_unshift {P Q : Nat → Var → Prop} (H : ∀ d v, P (d + 1) v → Q d v) (x : Exp K) (d : Nat) (hx : Occ P (d + 1) x) : Occ Q d x := by
  match x with
  | .var v => exact H d v hx
  | .let_ t bs b => exact ⟨occB_unshift H bs _ hx.1, occ_unshift H b _ hx.2⟩
  | .lam i ps b => exact occ_unshift H b (d + 1) hx
  | .app g xs => exact ⟨occ_unshift H g d hx.1, occL_unshift H xs d hx.2⟩
  | .lit p => trivial
  | .intrinsic n => trivial
  | .metaOf x m => exact ⟨occ_unshift H x d hx.1, occ_unshift H m d hx.2⟩
  | .node k xs => exact occL_unshift H xs d hx
theorem occL_unshift {P Q : Nat → Var → Prop} (H : ∀ d v, P (d + 1) v → Q d v) (xs : Exps K) (d : Nat) (hx : OccL P (d + 1) xs) :
    OccL Q d xs := by
  match xs with
  | .nil => trivial
  | .cons x xs => exact ⟨occ_unshift H x d hx.1, occL_unshift H xs d hx.2⟩
theorem occB_unshift {P Q : Nat → Var → Prop} (H : ∀ d v, P (d + 1) v → Q d v) (xs : Binds K) (d : Nat) (hx : OccB P (d + 1) xs) :
    OccB Q d xs := by
  match xs with
  | .nil => trivial
  | .cons _ x xs => exact ⟨occ_unshift H x d hx.1, occB_unshift H xs d hx.2⟩
end

theorem Ts_at {Φ : Ctx K} {xs : Exps K} {r : Nat → Nat} (h : Ts Φ (eraseL xs) (eraseL ((betaL xs).trav (renVar r) 0))) {i : Nat} {x : Exp K}
    (hi : xs.list[i]? = some x) : T Φ (erase x) (erase ((beta x).trav (renVar r) 0)) := by
  match xs with
  | .nil => simp [Exps.list] at hi
  | .cons y xs =>
    simp only [eraseL, betaL, Exps.trav] at h
    cases h with
    | cons h1 h2 =>
      cases i with
      | zero => simp only [Exps.list, List.getElem?_cons_zero, Option.some.injEq] at hi; subst hi; exact h1
      | succ i => exact Ts_at h2 (by simpa [Exps.list] using hi)

mutual
/-- **Applying early relates a program to the one it gives.** -/
theorem beta_T {n : Nat} (x : Exp K) (hm : marks x) (hx : Occ (Below n) 0 x) {Φ : Ctx K} {r : Nat → Nat}
    (hr : ∀ s < n, Same Φ s (r s)) : T Φ (erase x) (erase ((beta x).trav (renVar r) 0)) := by
  match x with
  | .var (.free n) => exact .head .free
  | .var (.bound s i h) =>
    simp only [beta, Exp.trav, renVar, Nat.not_lt_zero, if_false, Nat.sub_zero, Nat.zero_add, erase]
    exact .head (.var (hr s (by simpa [Occ, Below] using hx)))
  | .let_ t bs b =>
    simp only [beta, Exp.trav, Nat.zero_add, trav_shift (ren_under r) _ 0, travB_shift (ren_under r) _ 0, erase]
    exact .head (.let_ (beta_Tb bs hm.1 (occB_unshift below_one bs 0 hx.1) (ren_both hr _ _)) (beta_T b hm.2 (occ_unshift below_one b 0 hx.2) (ren_both hr _ _)))
  | .lam true ps b =>
    have hcl : Closed (.lam true ps b) := .lam hm.1 hm.2.1 hm.2.2
    rw [beta, flat_beta b hm.1, hcl.trav (fun d i h => by simp [renVar])]
    exact hcl.T Φ
  | .lam false ps b =>
    simp only [beta, Exp.trav, Nat.zero_add, trav_shift (ren_under r) _ 0, erase]
    exact .head (.lam (beta_T b hm (occ_unshift below_one b 0 hx) (ren_same hr)))
  | .app f xs =>
    have ihx : ∀ (Φ : Ctx K) (r : Nat → Nat), (∀ s < n, Same Φ s (r s)) → Ts Φ (eraseL xs) (eraseL ((betaL xs).trav (renVar r) 0)) :=
      fun Φ r hr => beta_Ts xs hm.2 hx.2 hr
    have ihf := beta_T f hm.1 hx.1 hr
    have walk : T Φ (erase (.app f xs)) (erase ((Exp.app (beta f) (betaL xs)).trav (renVar r) 0)) := .head (.app ihf (ihx Φ r hr))
    cases f with
    | lam i ps b =>
      cases i with
      | false => simpa only [beta] using walk
      | true =>
        simp only [beta]
        split
        case isTrue hl =>
          refine early_T hm.1.1 hm.1.2.1 hm.1.2.2 hl ?_ hr
          intro Φ r hr i x hi
          exact Ts_at (ihx Φ r hr) hi
        case isFalse => simpa only [beta] using walk
    | _ => simpa only [beta] using walk
  | .lit p => exact .head .lit
  | .intrinsic n => exact .head .intrinsic
  | .metaOf x m => exact .head (.metaOf (beta_T x hm.1 hx.1 hr) (beta_T m hm.2 hx.2 hr))
  | .node k xs => exact nodeOf_T k (beta_Ts xs hm hx hr)
theorem beta_Ts {n : Nat} (xs : Exps K) (hm : marksL xs) (hx : OccL (Below n) 0 xs) {Φ : Ctx K} {r : Nat → Nat}
    (hr : ∀ s < n, Same Φ s (r s)) : Ts Φ (eraseL xs) (eraseL ((betaL xs).trav (renVar r) 0)) := by
  match xs with
  | .nil => exact .nil
  | .cons x xs => exact .cons (beta_T x hm.1 hx.1 hr) (beta_Ts xs hm.2 hx.2 hr)
theorem beta_Tb {n : Nat} (xs : Binds K) (hm : marksB xs) (hx : OccB (Below n) 0 xs) {Φ : Ctx K} {r : Nat → Nat}
    (hr : ∀ s < n, Same Φ s (r s)) : Tb Φ (eraseB xs) (eraseB ((betaB xs).trav (renVar r) 0)) := by
  match xs with
  | .nil => exact .nil
  | .cons _ x xs => exact .cons (beta_T x hm.1 hx.1 hr) (beta_Tb xs hm.2 hx.2 hr)
end

theorem beta_shows {P : World K} (x : Exp K) (hm : marks x) (hx : Occ (Below 0) 0 x) (p : List Nat) (s : Sem.Seen K) :
    Shows P (erase x) p s ↔ Shows P (erase (beta x)) p s := by
  have h := beta_T x hm hx (Φ := []) (r := id) (by simp)
  rw [trav_id] at h
  · exact shows_same h p s
  · intro d v
    cases v with
    | free n => rfl
    | bound s i h =>
      simp only [renVar, id]
      split
      · rfl
      · congr 2; omega

theorem good_below (d : Nat) (v : Var) (h : Good [] d v) : Below 0 d v := by
  cases v with
  | free n => trivial
  | bound s i h' =>
    simp only [Below]
    rcases h with h | h
    · omega
    · simp [goodVar] at h

/-- **Inlining relates.** -/
theorem pass_shows {P : World K} (x : Exp K) (hx : tame [] x = true) (p : List Nat) (s : Sem.Seen K) :
    Shows P (erase x) p s ↔ Shows P (erase (beta (D [] x))) p s :=
  (D_shows x hx p s).trans (beta_shows _ (D_marks .nil x hx) (occ_mono good_below _ _ (D_occ .nil x hx)) p s)

end Verif.Inl
