import Verif.PruneModel
import Verif.PruneSpec
import Verif.CoreLemmas

/-! Helper lemmas about pruning: the marks. -/

namespace Verif.Prune

open Verif.Core

/-! ## Nodes -/

def Scope.size : Scope → Nat
  | .lam n => n
  | .letS _ vs => vs.length

/-- The part of a node that a step leads to, with the scopes around it. -/
def childOf (s : Step) (p : Path) : List Scope × Core → Option (List Scope × Core)
  | (sc, .letE _ vs b _) =>
    match s with
    | .bind i => vs[i]?.map fun v => (.letS p vs :: sc, v)
    | .body => some (.letS p vs :: sc, b)
    | _ => none
  | (sc, .lam ps b) => if s = .body then some (.lam ps.length :: sc, b) else none
  | (sc, .node (.lookup _) xs) =>
    match s with
    | .obj => xs[0]?.map fun x => (sc, x)
    | .fb => xs[1]?.map fun x => (sc, x)
    | _ => none
  | (sc, .node _ xs) =>
    match s with
    | .part i => xs[i]?.map fun x => (sc, x)
    | _ => none
  | (_, .var _) => none

/-- The node at a path. -/
def subAt (root : Core) : Path → Option (List Scope × Core)
  | [] => some ([], root)
  | s :: p => (subAt root p).bind (childOf s p)

theorem subAt_cons {root : Core} {p : Path} {s : Step} {x : List Scope × Core} (h : subAt root p = some x) :
    subAt root (s :: p) = childOf s p x := by simp [subAt, h]

/-- Parts of nodes that are not lookups. -/
theorem childOf_part {k : Kind} (hk : ∀ m, k ≠ .lookup m) (i : Nat) (p : Path) (sc : List Scope) (xs : List Core) :
    childOf (.part i) p (sc, .node k xs) = xs[i]?.map fun x => (sc, x) := by
  cases k <;> first | rfl | exact absurd rfl (hk _)

/-- The scopes around a node are those of the `let`s on the way to it. -/
theorem scope_at {root : Core} : ∀ {p : Path} {sc : List Scope} {e : Core}, subAt root p = some (sc, e) →
    ∀ {s : Nat} {q : Path} {vals : List Core}, sc[s]? = some (.letS q vals) →
      q <:+ p ∧ ∃ ns b t, subAt root q = some (sc.drop (s + 1), .letE ns vals b t) := by
  intro p
  induction p with
  | nil =>
    intro sc e h s q vals hs
    simp only [subAt, Option.some.injEq, Prod.mk.injEq] at h
    obtain ⟨rfl, rfl⟩ := h
    simp at hs
  | cons st p ih =>
    intro sc e h s q vals hs
    simp only [subAt, Option.bind_eq_some_iff] at h
    obtain ⟨⟨sc', e'⟩, h1, h2⟩ := h
    have same : sc = sc' → q <:+ st :: p ∧ ∃ ns b t, subAt root q = some (sc.drop (s + 1), .letE ns vals b t) := by
      rintro rfl
      obtain ⟨g1, g2⟩ := ih h1 hs
      exact ⟨g1.trans (List.suffix_cons _ _), g2⟩
    have more : ∀ a, sc = a :: sc' → (s = 0 → a = .letS q vals → q = p ∧ ∃ ns b t, e' = .letE ns vals b t) →
        q <:+ st :: p ∧ ∃ ns b t, subAt root q = some (sc.drop (s + 1), .letE ns vals b t) := by
      rintro a rfl ha
      cases s with
      | zero =>
        simp only [List.getElem?_cons_zero, Option.some.injEq] at hs
        obtain ⟨rfl, ns, b, t, rfl⟩ := ha rfl hs
        exact ⟨List.suffix_cons _ _, ns, b, t, by simpa using h1⟩
      | succ s =>
        obtain ⟨g1, g2⟩ := ih h1 (by simpa using hs)
        exact ⟨g1.trans (List.suffix_cons _ _), by simpa using g2⟩
    cases e' with
    | var v => simp [childOf] at h2
    | letE ns vs b t =>
      cases st <;> simp only [childOf, Option.map_eq_some_iff, Option.some.injEq, Prod.mk.injEq] at h2
      · obtain ⟨v, _, rfl, rfl⟩ := h2
        refine more _ rfl ?_
        rintro _ he
        injection he with he1 he2
        subst he1 he2
        exact ⟨rfl, ns, b, t, rfl⟩
      · obtain ⟨rfl, rfl⟩ := h2
        refine more _ rfl ?_
        rintro _ he
        injection he with he1 he2
        subst he1 he2
        exact ⟨rfl, ns, _, t, rfl⟩
      all_goals cases h2
    | lam ps b =>
      simp only [childOf] at h2
      split at h2
      · simp only [Option.some.injEq, Prod.mk.injEq] at h2
        obtain ⟨rfl, rfl⟩ := h2
        refine more _ rfl ?_
        intro _ he
        cases he
      · cases h2
    | node k xs =>
      have : sc = sc' := by
        unfold childOf at h2
        split at h2
        all_goals first
          | (simp_all; done)
          | (split at h2 <;> simp_all; done)
      exact same this

theorem WSL_get {Γ : List Nat} {xs : List Core} (h : WSL Γ xs) {i : Nat} {x : Core} (hx : xs[i]? = some x) : x.WS Γ := by
  induction xs generalizing i with
  | nil => simp at hx
  | cons y ys ih =>
    cases i with
    | zero => simp at hx; subst hx; exact h.1
    | succ i => exact ih h.2 (by simpa using hx)

theorem NoSelfL_get {xs : List Core} (h : NoSelfL xs) {i : Nat} {x : Core} (hx : xs[i]? = some x) : NoSelf x := by
  induction xs generalizing i with
  | nil => simp at hx
  | cons y ys ih =>
    cases i with
    | zero => simp at hx; subst hx; exact h.1
    | succ i => exact ih h.2 (by simpa using hx)

theorem NoElimL_get {xs : List Core} (h : NoElimL xs) {i : Nat} {x : Core} (hx : xs[i]? = some x) : NoElim x := by
  induction xs generalizing i with
  | nil => simp at hx
  | cons y ys ih =>
    cases i with
    | zero => simp at hx; subst hx; exact h.1
    | succ i => exact ih h.2 (by simpa using hx)

/-- What holds of the root and passes to parts holds at every node. -/
theorem subAt_ind {root : Core} {P : List Scope → Core → Prop} (h0 : P [] root)
    (hlet : ∀ p sc ns vs b t, P sc (.letE ns vs b t) →
      (∀ (i : Nat) v, vs[i]? = some v → P (.letS p vs :: sc) v) ∧ P (.letS p vs :: sc) b)
    (hlam : ∀ sc ps b, P sc (.lam ps b) → P (.lam ps.length :: sc) b)
    (hnode : ∀ sc k xs, P sc (.node k xs) → ∀ (i : Nat) x, xs[i]? = some x → P sc x) :
    ∀ {p : Path} {sc : List Scope} {e : Core}, subAt root p = some (sc, e) → P sc e := by
  intro p
  induction p with
  | nil =>
    intro sc e h
    simp only [subAt, Option.some.injEq, Prod.mk.injEq] at h
    obtain ⟨rfl, rfl⟩ := h
    exact h0
  | cons st p ih =>
    intro sc e h
    simp only [subAt, Option.bind_eq_some_iff] at h
    obtain ⟨⟨sc', e'⟩, h1, h2⟩ := h
    have hp := ih h1
    cases e' with
    | var v => simp [childOf] at h2
    | letE ns vs b t =>
      have hl := hlet p _ _ _ _ _ hp
      cases st <;> simp only [childOf, Option.map_eq_some_iff, Option.some.injEq, Prod.mk.injEq] at h2
      · obtain ⟨v, hv, rfl, rfl⟩ := h2; exact hl.1 _ _ hv
      · obtain ⟨rfl, rfl⟩ := h2; exact hl.2
      all_goals cases h2
    | lam ps b =>
      simp only [childOf] at h2
      split at h2
      · simp only [Option.some.injEq, Prod.mk.injEq] at h2
        obtain ⟨rfl, rfl⟩ := h2
        exact hlam _ _ _ hp
      · cases h2
    | node k xs =>
      have : ∃ i : Nat, xs[i]? = some e ∧ sc = sc' := by
        cases k
        case lookup m =>
          cases st <;> simp only [childOf, Option.map_eq_some_iff, Prod.mk.injEq] at h2
          case obj => obtain ⟨v, hv, rfl, rfl⟩ := h2; exact ⟨_, hv, rfl⟩
          case fb => obtain ⟨v, hv, rfl, rfl⟩ := h2; exact ⟨_, hv, rfl⟩
          all_goals cases h2
        all_goals
          cases st <;> simp only [childOf, Option.map_eq_some_iff, Prod.mk.injEq] at h2
          case part i => obtain ⟨v, hv, rfl, rfl⟩ := h2; exact ⟨_, hv, rfl⟩
          all_goals cases h2
      obtain ⟨i, hi, rfl⟩ := this
      exact hnode _ _ _ hp i _ hi

theorem subAt_ws {root : Core} (hw : root.WS []) {p : Path} {sc : List Scope} {e : Core}
    (h : subAt root p = some (sc, e)) : e.WS (sc.map Scope.size) :=
  subAt_ind (P := fun sc e => e.WS (sc.map Scope.size)) hw
    (fun _ _ _ _ _ _ h => ⟨fun _ _ hv => WSL_get h.2.1 hv, h.2.2⟩) (fun _ _ _ h => h) (fun _ _ _ h _ _ hx => WSL_get h hx) h

theorem subAt_noSelf {root : Core} (hw : NoSelf root) {p : Path} {sc : List Scope} {e : Core}
    (h : subAt root p = some (sc, e)) : NoSelf e := by
  refine subAt_ind (P := fun _ e => NoSelf e) hw (fun _ _ _ _ _ _ h => ⟨fun _ _ hv => NoSelfL_get h.1 hv, h.2⟩)
    (fun _ _ _ h => h) ?_ h
  intro _ k xs h _ _ hx
  have : NoSelfL xs := by cases k <;> first | exact h.2 | exact h
  exact NoSelfL_get this hx

theorem subAt_noElim {root : Core} (hw : NoElim root) {p : Path} {sc : List Scope} {e : Core}
    (h : subAt root p = some (sc, e)) : NoElim e :=
  subAt_ind (P := fun _ e => NoElim e) hw (fun _ _ _ _ _ _ h => ⟨fun _ _ hv => NoElimL_get h.1 hv, h.2⟩)
    (fun _ _ _ h => h) (fun _ _ _ h _ _ hx => NoElimL_get h.2 hx) h

/-! ### The list of nodes -/

theorem nodes_self (p : Path) (e : Core) : p ∈ nodes p e := by
  cases e with
  | node k xs => cases k <;> simp [nodes]
  | _ => simp [nodes]

theorem nodesB_get {p : Path} {vs : List Core} : ∀ {i j : Nat} {v : Core}, vs[j]? = some v →
    ∀ x ∈ nodes (.bind (i + j) :: p) v, x ∈ nodesB p i vs := by
  induction vs with
  | nil => intro i j v h; simp at h
  | cons w ws ih =>
    intro i j v h x hx
    simp only [nodesB, List.mem_append]
    cases j with
    | zero => simp at h; subst h; exact .inl hx
    | succ j => exact .inr (ih (i := i + 1) (by simpa using h) x (by rw [show i + 1 + j = i + (j + 1) by omega]; exact hx))

theorem nodesL_get {p : Path} {vs : List Core} : ∀ {i j : Nat} {v : Core}, vs[j]? = some v →
    ∀ x ∈ nodes (.part (i + j) :: p) v, x ∈ nodesL p i vs := by
  induction vs with
  | nil => intro i j v h; simp at h
  | cons w ws ih =>
    intro i j v h x hx
    simp only [nodesL, List.mem_append]
    cases j with
    | zero => simp at h; subst h; exact .inl hx
    | succ j => exact .inr (ih (i := i + 1) (by simpa using h) x (by rw [show i + 1 + j = i + (j + 1) by omega]; exact hx))

theorem nodes_child {p : Path} {s : Step} {sc sc' : List Scope} {e e' : Core}
    (h : childOf s p (sc, e) = some (sc', e')) : ∀ x ∈ nodes (s :: p) e', x ∈ nodes p e := by
  intro x hx
  cases e with
  | var v => simp [childOf] at h
  | letE ns vs b t =>
    cases s <;> simp only [childOf, Option.map_eq_some_iff, Option.some.injEq, Prod.mk.injEq] at h
    · obtain ⟨v, hv, _, rfl⟩ := h
      have := nodesB_get (p := p) (i := 0) hv x (by simpa using hx)
      simp [nodes, this]
    · obtain ⟨_, rfl⟩ := h
      simp [nodes, hx]
    all_goals cases h
  | lam ps b =>
    simp only [childOf] at h
    split at h
    · rename_i hs
      subst hs
      simp only [Option.some.injEq, Prod.mk.injEq] at h
      obtain ⟨_, rfl⟩ := h
      simp [nodes, hx]
    · cases h
  | node k xs =>
    cases k
    case lookup m =>
      cases s <;> simp only [childOf, Option.map_eq_some_iff, Prod.mk.injEq] at h
      case obj =>
        obtain ⟨v, hv, _, rfl⟩ := h
        cases xs with
        | nil => simp at hv
        | cons o fs => simp at hv; subst hv; simp [nodes, nodesO, hx]
      case fb =>
        obtain ⟨v, hv, _, rfl⟩ := h
        cases xs with
        | nil => simp at hv
        | cons o fs =>
          cases fs with
          | nil => simp at hv
          | cons f fs => simp at hv; subst hv; simp [nodes, nodesO, nodesF, hx]
      all_goals cases h
    all_goals
      cases s <;> simp only [childOf, Option.map_eq_some_iff, Prod.mk.injEq] at h
      case part i =>
        obtain ⟨v, hv, _, rfl⟩ := h
        have := nodesL_get (p := p) (i := 0) hv x (by simpa using hx)
        simp [nodes, this]
      all_goals cases h

theorem nodes_sub {root : Core} : ∀ {p : Path} {sc : List Scope} {e : Core}, subAt root p = some (sc, e) →
    ∀ x ∈ nodes p e, x ∈ nodes [] root := by
  intro p
  induction p with
  | nil =>
    intro sc e h
    simp only [subAt, Option.some.injEq, Prod.mk.injEq] at h
    obtain ⟨rfl, rfl⟩ := h
    exact fun x hx => hx
  | cons s p ih =>
    intro sc e h x hx
    simp only [subAt, Option.bind_eq_some_iff] at h
    obtain ⟨⟨sc', e'⟩, h1, h2⟩ := h
    exact ih h1 x (nodes_child h2 x hx)

theorem node_mem {root : Core} {p : Path} {x : List Scope × Core} (h : subAt root p = some x) : p ∈ nodes [] root :=
  nodes_sub h p (nodes_self p x.2)

end Verif.Prune
