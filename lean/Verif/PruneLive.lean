import Verif.PruneSem
import Verif.CompressProps

/-! Helper lemmas about pruning: nothing eliminated is referred to. -/

namespace Verif.Prune

open Verif.Core Verif.Dce

variable {root : Core} {st : St}

theorem blankB_length {pl : Bool} {p : Path} {vs : List Core} : ∀ {i : Nat}, (blankB st pl p i vs).length = vs.length := by
  induction vs with
  | nil => intro i; rfl
  | cons v vs ih => intro i; simp [blankB, ih]

theorem mem_blankB {pl : Bool} {p : Path} {vs : List Core} {i : Nat} {w : Core} (h : w ∈ blankB st pl p i vs) :
    ∃ j v, vs[j]? = some v ∧ w = blankV st pl (.bind (i + j) :: p) v := by
  obtain ⟨j, hj⟩ := List.getElem?_of_mem h
  rw [blankB_get] at hj
  simp only [Option.map_eq_some_iff] at hj
  obtain ⟨v, h1, h2⟩ := hj
  exact ⟨j, v, h1, h2.symm⟩

theorem mem_blankL {p : Path} {vs : List Core} {i : Nat} {w : Core} (h : w ∈ blankL st p i vs) :
    ∃ j v, vs[j]? = some v ∧ w = blankW st .none (.part (i + j) :: p) v := by
  obtain ⟨j, hj⟩ := List.getElem?_of_mem h
  rw [blankL_get] at hj
  simp only [Option.map_eq_some_iff] at hj
  obtain ⟨v, h1, h2⟩ := hj
  exact ⟨j, v, h1, h2.symm⟩

theorem mem_blankF {ms : List String} {p : Path} : ∀ {ks : List String} {vs : List Core} {i : Nat} {w : Core},
    w ∈ blankF st ms p i ks vs → ∃ j v, vs[j]? = some v ∧ w = blankW st .none (.part (i + j) :: p) v := by
  intro ks
  induction ks with
  | nil => intro vs i w h; simp [blankF] at h
  | cons k ks ih =>
    intro vs i w h
    cases vs with
    | nil => simp [blankF] at h
    | cons v vs =>
      have next : w ∈ blankF st ms p (i + 1) ks vs → ∃ j u, (v :: vs)[j]? = some u ∧ w = blankW st .none (.part (i + j) :: p) u := by
        intro h
        obtain ⟨j, u, h1, h2⟩ := ih h
        exact ⟨j + 1, u, by simpa using h1, by rw [h2, show i + 1 + j = i + (j + 1) by omega]⟩
      simp only [blankF] at h
      split at h
      · rcases List.mem_cons.1 h with rfl | h
        · exact ⟨0, v, rfl, rfl⟩
        · exact next h
      · exact next h

/-- The parts of a node that is neither a binder nor a lookup. -/
theorem mem_blank_node {p : Path} {f : Filter} {k k' : Kind} {xs ys : List Core} (hk : ∀ m, k ≠ .lookup m)
    (h : blankW st f p (.node k xs) = .node k' ys) {w : Core} (hw : w ∈ ys) :
    ∃ j v, xs[j]? = some v ∧ w = blankW st .none (.part j :: p) v := by
  have key : ∀ {zs}, .node k zs = Core.node k' ys → zs = blankL st p 0 xs → ∃ j v, xs[j]? = some v ∧
      w = blankW st .none (.part j :: p) v := by
    intro zs h1 h2
    simp only [Core.node.injEq] at h1
    obtain ⟨_, rfl⟩ := h1
    subst h2
    simpa using mem_blankL hw
  cases k
  case lookup m => exact absurd rfl (hk m)
  case block ks =>
    cases f with
    | body ms =>
      simp only [blankW, Core.node.injEq] at h
      obtain ⟨_, rfl⟩ := h
      simpa using mem_blankF hw
    | none => exact key h rfl
    | value ms => exact key h rfl
  all_goals exact key h rfl

theorem mem_blankO {p : Path} {xs : List Core} {w : Core} (h : w ∈ blankO st p xs) :
    (∃ o fs, xs = o :: fs ∧ w = blankW st .none (.obj :: p) o) ∨
    ∃ o f fs, xs = o :: f :: fs ∧ w = blankW st .none (.fb :: p) f := by
  cases xs with
  | nil => simp [blankO] at h
  | cons o fs =>
    simp only [blankO, List.mem_cons] at h
    rcases h with rfl | h
    · exact .inl ⟨o, fs, rfl, rfl⟩
    · cases fs with
      | nil => simp [blankFb] at h
      | cons f fs => simp only [blankFb, List.mem_singleton] at h; exact .inr ⟨o, f, fs, rfl, h⟩

/-- What a node that is not a binder is made into. -/
theorem blank_node_shape (st : St) (f : Filter) (p : Path) (k : Kind) (xs : List Core) :
    ∃ k' ys, blankW st f p (.node k xs) = .node k' ys ∧ (k' = .errEliminated → k = .errEliminated) := by
  cases k
  case block ks =>
    cases f <;> exact ⟨_, _, rfl, by simp⟩
  all_goals exact ⟨_, _, rfl, by simp⟩

theorem not_elim {f : Filter} {p : Path} {v : Core} (hv : NoElim v) (parts : List Core) :
    blankW st f p v ≠ .node .errEliminated parts := by
  cases v with
  | node k xs =>
    obtain ⟨k', ys, h1, h2⟩ := blank_node_shape st f p k xs
    rw [h1]
    intro he
    simp only [Core.node.injEq] at he
    exact hv.1 (h2 he.1)
  | _ => simp [blankW]

/-! ## Scoping -/

theorem blank_ws (e : Core) : ∀ (f : Filter) (p : Path) (Γ : List Nat), e.WS Γ → (blankW st f p e).WS Γ := by
  induction e using Core.ind with
  | hv v => intro f p Γ h; exact h
  | hlet ns vs b t ihv ihb =>
    intro f p Γ h
    simp only [Core.WS, WSL_iff] at h
    simp only [blankW, Core.WS, WSL_iff, blankB_length]
    refine ⟨h.1, ?_, ihb _ _ _ h.2.2⟩
    intro w hw
    obtain ⟨j, v, h1, rfl⟩ := mem_blankB hw
    unfold blankV
    split
    · simp [Core.WS, WSL]
    · exact ihv v (List.mem_of_getElem? h1) _ _ _ (h.2.1 v (List.mem_of_getElem? h1))
  | hlam ps b ih => intro f p Γ h; exact ih _ _ _ h
  | hn k xs ih =>
    intro f p Γ h
    simp only [Core.WS, WSL_iff] at h
    by_cases hk : ∃ m, k = .lookup m
    · obtain ⟨m, rfl⟩ := hk
      simp only [blankW, Core.WS, WSL_iff]
      intro w hw
      rcases mem_blankO hw with ⟨o, fs, rfl, rfl⟩ | ⟨o, g, fs, rfl, rfl⟩
      · exact ih o (by simp) _ _ _ (h o (by simp))
      · exact ih g (by simp) _ _ _ (h g (by simp))
    · obtain ⟨k', ys, h1, _⟩ := blank_node_shape st f p k xs
      rw [h1]
      simp only [Core.WS, WSL_iff]
      intro w hw
      obtain ⟨j, v, h2, rfl⟩ := mem_blank_node (fun m hm => hk ⟨m, hm⟩) h1 hw
      exact ih v (List.mem_of_getElem? h2) _ _ _ (h v (List.mem_of_getElem? h2))

/-! ## Liveness -/

/-- The binders around a node of the result. -/
inductive SRel (st : St) : List Scope → List Slots → Prop where
  | nil : SRel st [] []
  | lam {sc Γ} (n : Nat) : SRel st sc Γ → SRel st (.lam n :: sc) (lamSlots n :: Γ)
  | letS {sc Γ} (q : Path) (vs : List Core) (pl : Bool) : SRel st sc Γ →
      SRel st (.letS q vs :: sc) (letSlots (blankB st pl q 0 vs) :: Γ)

theorem SRel.live (hn : NoElim root) {p : Path} {sc : List Scope} {e : Core} (hsub : subAt root p = some (sc, e))
    {Γ : List Slots} (h : SRel st sc Γ) {s i : Nat} {n : Option String}
    (hw : (Var.bound s i n).InScope (sc.map Scope.size))
    (ht : ∀ t, target sc s i = some (some t) → st.seen t ≠ .unseen) : LiveRef Γ (.bound s i n) := by
  have hv : ∀ q vals, sc[s]? = some (.letS q vals) → ∀ v, vals[i]? = some v → NoElim v := by
    intro q vals hs v hv
    obtain ⟨_, ns, b, t, hl⟩ := scope_at hsub hs
    exact NoElimL_get (subAt_noElim hn hl).1 hv
  clear hsub
  obtain ⟨m, h1, h2⟩ := hw
  unfold LiveRef
  unfold target at ht
  induction h generalizing s with
  | nil => simp at h1
  | @lam sc Γ k h ih =>
    cases s with
    | zero =>
      simp [Scope.size] at h1
      subst h1
      exact ⟨_, rfl, h2, trivial⟩
    | succ s => exact ih (by simpa using ht) (by simpa using hv) (by simpa using h1)
  | @letS sc Γ q vs pl h ih =>
    cases s with
    | zero =>
      simp [Scope.size] at h1
      subst h1
      refine ⟨_, rfl, by simpa [letSlots, blankB_length] using h2, ?_⟩
      intro parts he
      rw [blankB_get, List.getElem?_eq_getElem h2] at he
      simp only [Option.map_some, Option.some.injEq, Nat.zero_add] at he
      have hs := ht (.bind i :: q) (by simp [h2])
      rw [blankV, if_neg hs] at he
      exact not_elim (hv q vs rfl vs[i] (by simp [h2])) parts he
    | succ s => exact ih (by simpa using ht) (by simpa using hv) (by simpa using h1)

theorem live_rel (hws : root.WS []) (hn : NoElim root) (e : Core) :
    ∀ (f : Filter) p sc Γ, subAt root p = some (sc, e) → CoveredAt root st p →
      (∀ s i n t, e = .var (.bound s i n) → target sc s i = some (some t) → st.seen t ≠ .unseen) → SRel st sc Γ →
      Live Γ (blankW st f p e) := by
  induction e using Core.ind with
  | hv v =>
    intro f p sc Γ h hc hx hS
    cases v with
    | free x => exact trivial
    | bound s i n => exact hS.live hn h (subAt_ws hws h) fun t ht => hx s i n t rfl ht
  | hlet ns vs b t ihv ihb =>
    intro f p sc Γ h hc _ hS
    have hws' := subAt_ws hws h
    simp only [blankW, Live, blankB_length, LiveB_iff]
    have bare : ∀ {s x}, childOf s p (sc, .letE ns vs b t) = some x →
        ∀ s' i n t', x.2 = .var (.bound s' i n) → target x.1 s' i = some (some t') → st.seen t' ≠ .unseen := by
      intro s x hx s' i n t' he ht
      have hsx : subAt root (s :: p) = some (x.1, .var (.bound s' i n)) := by rw [subAt_cons h, hx, ← he]
      refine ((hc _ (List.suffix_cons s p)).bare _ _ _ _ _ hsx ?_ ht).1
      intro hex
      cases s <;> simp [childOf, Exempt] at hx hex
    refine ⟨hws'.1, ?_, ?_⟩
    · intro w hw hel
      obtain ⟨j, v, h1, rfl⟩ := mem_blankB hw
      unfold blankV at hel ⊢
      split
      · rename_i hu; rw [if_pos hu] at hel; simp [isElim] at hel
      · have hch : childOf (.bind (0 + j)) p (sc, .letE ns vs b t) = some (.letS p vs :: sc, v) := by
          simp [childOf, h1]
        exact ihv v (List.mem_of_getElem? h1) _ _ _ _ (by rw [subAt_cons h, hch]) (hc.sub (List.suffix_cons _ _))
          (bare hch) (.letS _ _ _ hS)
    · exact ihb _ _ _ _ (by rw [subAt_cons h]; rfl) (hc.sub (List.suffix_cons _ _)) (bare (s := .body) rfl)
        (.letS _ _ _ hS)
  | hlam ps b ih =>
    intro f p sc Γ h hc _ hS
    simp only [blankW, Live]
    have hb : subAt root (.body :: p) = some (.lam ps.length :: sc, b) := by rw [subAt_cons h]; rfl
    refine ih _ _ _ _ hb (hc.sub (List.suffix_cons _ _)) ?_ (.lam _ hS)
    rintro s i n t rfl ht
    exact ((hc _ (List.suffix_cons _ p)).bare _ _ _ _ _ hb (fun h => h) ht).1
  | hn k xs ih =>
    intro f p sc Γ h hc _ hS
    by_cases hk : ∃ m, k = .lookup m
    · obtain ⟨m, rfl⟩ := hk
      simp only [blankW, Live, LiveL_iff]
      intro w hw
      rcases mem_blankO hw with ⟨o, fs, rfl, rfl⟩ | ⟨o, g, fs, rfl, rfl⟩
      · have ho : subAt root (.obj :: p) = some (sc, o) := by rw [subAt_cons h]; rfl
        refine ih o (by simp) _ _ _ _ ho (hc.sub (List.suffix_cons _ _)) ?_ hS
        rintro s i n t rfl ht
        exact ((hc _ (List.suffix_refl _)).look _ _ _ _ s i t h rfl ht).1
      · have hg : subAt root (.fb :: p) = some (sc, g) := by rw [subAt_cons h]; rfl
        refine ih g (by simp) _ _ _ _ hg (hc.sub (List.suffix_cons _ _)) ?_ hS
        rintro s i n t rfl ht
        by_cases hex : Exempt root (.fb :: p)
        · simp only [Exempt, h, selfFallback] at hex
          obtain ⟨r, h1, h2⟩ := hex
          simp only [boundVar, Option.some.injEq] at h2
          subst h2
          exact ((hc _ (List.suffix_refl _)).look _ _ _ _ s i t h h1 ht).1
        · exact ((hc _ (List.suffix_cons _ p)).bare _ _ _ _ _ hg hex ht).1
    · have hk' : ∀ m, k ≠ .lookup m := fun m hm => hk ⟨m, hm⟩
      obtain ⟨k', ys, h1, _⟩ := blank_node_shape st f p k xs
      rw [h1]
      simp only [Live, LiveL_iff]
      intro w hw
      obtain ⟨j, v, h2, rfl⟩ := mem_blank_node hk' h1 hw
      have hv : subAt root (.part j :: p) = some (sc, v) := by rw [subAt_cons h, childOf_part hk', h2]; rfl
      refine ih v (List.mem_of_getElem? h2) _ _ _ _ hv (hc.sub (List.suffix_cons _ _)) ?_ hS
      rintro s i n t rfl ht
      exact ((hc _ (List.suffix_cons _ p)).bare _ _ _ _ _ hv (fun h => h) ht).1

theorem live_bindings (hws : root.WS []) (hn : NoElim root) (hd : Done root st) {p : Path} {sc : List Scope}
    {ns : List String} {vs : List Core} {b : Core} {t : LetType} (h : subAt root p = some (sc, .letE ns vs b t))
    {Γ : List Slots} (hS : SRel st sc Γ) {pl : Bool} :
    LiveB (letSlots (blankB st pl p 0 vs) :: Γ) (blankB st pl p 0 vs) := by
  rw [LiveB_iff]
  intro w hw hel
  obtain ⟨j, v, h1, rfl⟩ := mem_blankB hw
  unfold blankV at hel ⊢
  split
  · rename_i hu; rw [if_pos hu] at hel; simp [isElim] at hel
  · rename_i hu
    rw [Nat.zero_add] at *
    have hv : subAt root (.bind j :: p) = some (.letS p vs :: sc, v) := by rw [subAt_cons h]; simp [childOf, h1]
    have hc := hd.bound _ _ hu
    refine live_rel hws hn v _ _ _ _ hv hc ?_ (.letS _ _ _ hS)
    rintro s i n t' rfl ht
    exact ((hc _ (List.suffix_refl _)).bare _ _ _ _ _ hv (fun h => h) ht).1

theorem live_ends (hws : root.WS []) (hn : NoElim root) (hd : Done root st) : ∀ {e : Core} {p : Path} {sc : List Scope}
    {Γ : List Slots}, subAt root p = some (sc, e) → ¬ Exempt root p → Ends st p e → SRel st sc Γ →
    Live Γ (blankW st .none p e) := by
  intro e p
  induction p, e using Ends.induct with
  | case1 p ns vs b t ih =>
    intro sc Γ h _ he hS
    rw [Ends] at he
    have hws' := subAt_ws hws h
    simp only [blankW, Live, blankB_length, Filter.toBody]
    exact ⟨hws'.1, live_bindings hws hn hd h hS, ih (by rw [subAt_cons h]; rfl) (fun h => h) he (.letS _ _ _ hS)⟩
  | case2 p e m ih =>
    intro sc Γ h _ he hS
    rw [Ends] at he
    have h1 : subAt root (.part 1 :: p) = some (sc, m) := by rw [subAt_cons h]; rfl
    have hc := hd.closed _ he.1
    simp only [blankW, blankL, Live, LiveL, and_true]
    refine ⟨ih (by rw [subAt_cons h]; rfl) (fun h => h) he.2 hS, live_rel hws hn m _ _ _ _ h1 hc ?_ hS⟩
    rintro s i n t rfl ht
    exact ((hc _ (List.suffix_refl _)).bare _ _ _ _ _ h1 (fun h => h) ht).1
  | case3 e p h1 h2 =>
    intro sc Γ h hx he hS
    have he' : Active st p := by rw [Ends] at he <;> assumption
    have hc := hd.closed _ he'
    refine live_rel hws hn e _ _ _ _ h hc ?_ hS
    rintro s i n t rfl ht
    exact ((hc _ (List.suffix_refl _)).bare _ _ _ _ _ h hx ht).1

end Verif.Prune
