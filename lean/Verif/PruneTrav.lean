import Verif.PruneMark

/-! Helper lemmas about pruning: one traversal. -/

namespace Verif.Prune

open Verif.Core

theorem suffix_step {p q : Path} (h : p <:+ q) : q = p ∨ ∃ s, s :: p <:+ q := by
  induction q with
  | nil => exact .inl (List.suffix_nil.1 h).symm
  | cons a q ih =>
    rcases List.suffix_cons_iff.1 h with rfl | h
    · exact .inl rfl
    · rcases ih h with rfl | ⟨s, hs⟩
      · exact .inr ⟨a, List.suffix_refl _⟩
      · exact .inr ⟨s, hs.trans (List.suffix_cons _ _)⟩

theorem subAt_none {root : Core} {p q : Path} (h : p <:+ q) (hp : subAt root p = none) : subAt root q = none := by
  obtain ⟨t, rfl⟩ := h
  induction t with
  | nil => exact hp
  | cons a t ih => simp [subAt, ih]

theorem covered_none {root : Core} {st : St} {p : Path} (hp : subAt root p = none) : CoveredAt root st p := by
  intro q hq
  have := subAt_none hq hp
  constructor <;> intros <;> simp_all

theorem covered_intro {root : Core} {st : St} {p : Path} {x : List Scope × Core} (h : subAt root p = some x)
    (hl : Handled root st p) (hc : ∀ s y, childOf s p x = some y → CoveredAt root st (s :: p)) : CoveredAt root st p := by
  intro q hq
  rcases suffix_step hq with rfl | ⟨s, hs⟩
  · exact hl
  · cases hy : childOf s p x with
    | some y => exact hc s y hy q hs
    | none => exact covered_none (by rw [subAt_cons h, hy]) q hs

/-- Nodes that are neither variables nor lookups refer to nothing. -/
theorem handled_other {root : Core} {st : St} {p : Path} {sc : List Scope} {e : Core} (h : subAt root p = some (sc, e))
    (h1 : ∀ v, e ≠ .var v) (h2 : ∀ m xs, e ≠ .node (.lookup m) xs) : Handled root st p := by
  constructor
  · intro sc s i n t h'
    rw [h] at h'
    simp only [Option.some.injEq, Prod.mk.injEq] at h'
    exact absurd h'.2 (h1 _)
  · intro sc m o fs s i t h'
    rw [h] at h'
    simp only [Option.some.injEq, Prod.mk.injEq] at h'
    exact absurd h'.2 (h2 _ _)

theorem covered_var {root : Core} {st : St} {p : Path} {sc : List Scope} {v : Var} (h : subAt root p = some (sc, .var v))
    (hb : ∀ s i n t, v = .bound s i n → ¬ Exempt root p → target sc s i = some (some t) →
      st.seen t ≠ .unseen ∧ st.disq t = true) : CoveredAt root st p := by
  refine covered_intro h ?_ (fun s y hy => by simp [childOf] at hy)
  constructor
  · intro sc' s i n t h'
    rw [h] at h'
    simp only [Option.some.injEq, Prod.mk.injEq, Core.var.injEq] at h'
    obtain ⟨rfl, hv⟩ := h'
    exact hb s i n t hv
  · intro sc m o fs s i t h'
    rw [h] at h'
    simp at h'

/-- The bindings of the enclosing `let`s are registered. -/
def Reg (st : St) (sc : List Scope) : Prop := ∀ (s : Nat) q vals, sc[s]? = some (Scope.letS q vals) → ∀ (i : Nat) v, vals[i]? = some v →
  isDefaultLet v = true → st.cand (.bind i :: q) = true ∨ st.disq (.bind i :: q) = true

theorem Reg.mono {st st' : St} (h : Mono st st') {sc : List Scope} (hr : Reg st sc) : Reg st' sc :=
  fun s q vals h1 i v h2 h3 => h.reg _ (hr s q vals h1 i v h2 h3)

/-- Traversing a reachable node. -/
def Within (st : St) (r : Bool) (p : Path) : Prop := r = true → ∃ a, a <:+ p ∧ Active st a

theorem Within.mono {st st' : St} (h : Mono st st') {r : Bool} {p : Path} (hw : Within st r p) : Within st' r p :=
  fun hr => let ⟨a, h1, h2⟩ := hw hr; ⟨a, h1, h.active _ h2⟩

theorem Within.down {st : St} {r : Bool} {p q : Path} (h : p <:+ q) (hw : Within st r p) : Within st r q :=
  fun hr => let ⟨a, h1, h2⟩ := hw hr; ⟨a, h1.trans h, h2⟩

/-- What a traversal achieves. -/
def Out (root : Core) (st : St) (r : Bool) (p : Path) (o : Option St) : Prop :=
  ∃ st', o = some st' ∧ Good root st st' ∧ (r = true → CoveredAt root st' p) ∧
    ∀ q, p <:+ q → Active st q → CoveredAt root st' q

/-- The same, for the parts of a node. -/
def OutC (root : Core) (st : St) (r : Bool) (p : Path) (o : Option St) : Prop :=
  ∃ st', o = some st' ∧ Good root st st' ∧ (r = true → CoveredAt root st' p) ∧
    ∀ s q, s :: p <:+ q → Active st q → CoveredAt root st' q

theorem active_soft {st : St} {p : Path} (h : Active st p) : st.seen p ≠ .soft ∧ st.seen p ≠ .unseen := by
  rcases h with h | h <;> simp [h]

theorem good_traversed {root : Core} {st : St} (hi : Inv root st) {p : Path} (ha : Active st p)
    (hc : CoveredAt root st p) : Good root st (st.set p .traversed) := by
  have hm : Mono st (st.set p .traversed) := by
    refine ⟨?_, ?_, ?_, fun _ h => h, fun _ _ h => h, fun _ h => h, Nat.le_refl _, ?_⟩
    · intro x hx; simp only [St.set]; split <;> simp_all
    · intro x hx; simp only [Active, St.set] at *; split <;> simp_all
    · intro x hx
      simp only [St.set]
      split
      · subst_vars; exact absurd hx (active_soft ha).1
      · exact hx
    · intro _ x hx
      simp only [St.set]
      split
      · subst_vars; exact absurd hx (active_soft ha).2
      · exact hx
  refine ⟨hm, ⟨?_, ?_, ?_, hi.dis⟩, ?_⟩
  · intro x hx
    have hx' : Active st x := by
      simp only [Active, St.set] at hx
      split at hx
      · subst_vars; exact ha
      · exact hx
    exact (hi.place x hx').imp id (Or.imp id fun ⟨i, p, h1, h2⟩ => ⟨i, p, h1, h2.mono hm⟩)
  · intro x hx
    simp only [St.set] at hx
    split at hx
    · simp at hx
    · exact (hi.soft x hx).mono hm
  · intro x hx
    simp only [St.set] at hx
    split at hx
    · subst_vars; exact hc.mono hm
    · exact (hi.cov x hx).mono hm
  · have : measure root (st.set p .traversed) ≤ measure root st := by
      refine List.countP_mono_left fun x _ hx => ?_
      simp only [St.set, decide_eq_true_eq] at *
      split at hx <;> simp_all
    simp only [St.set] at *
    omega

theorem visit_out {root : Core} {st : St} (hi : Inv root st) {p : Path} {r : Bool} {k : Bool → St → Option St}
    (hw : Within st r p) (hk : ∀ r', Within st r' p → OutC root st r' p (k r' st)) :
    Out root st r p (visit p r st k) := by
  unfold visit
  split
  · rename_i ht
    exact ⟨st, rfl, .refl hi, fun _ => hi.cov p ht, fun q hq _ => (hi.cov p ht).sub hq⟩
  · rename_i ht
    by_cases hb : (!r && decide (st.seen p = .seen)) = true
    · simp only [hb, Bool.or_true, if_true]
      have hs : st.seen p = .seen := by simp at hb; exact hb.2
      obtain ⟨st', h1, h2, h3, _⟩ := hk true fun _ => ⟨p, List.suffix_refl _, .inl hs⟩
      have ha := h2.mono.active p (.inl hs)
      have hg := good_traversed h2.inv ha (h3 rfl)
      have hc := (h3 rfl).mono hg.mono
      exact ⟨_, by simp [h1], h2.trans hg, fun _ => hc, fun q hq _ => hc.sub hq⟩
    · simp only [hb, Bool.or_false, Bool.false_eq_true, if_false]
      obtain ⟨st', h1, h2, h3, h4⟩ := hk r hw
      refine ⟨st', by simp [h1], h2, h3, ?_⟩
      intro q hq ha
      rcases suffix_step hq with rfl | ⟨s, hs⟩
      · cases r with
        | true => exact h3 rfl
        | false =>
          rcases ha with ha | ha
          · simp [ha] at hb
          · exact absurd ha ht
      · exact h4 s q hs ha

/-! ## References -/

theorem target_some {sc : List Scope} {s i : Nat} {t : Path} (h : target sc s i = some (some t)) :
    ∃ q vals, sc[s]? = some (.letS q vals) ∧ i < vals.length ∧ t = .bind i :: q := by
  unfold target at h
  split at h
  · cases h
  · cases h
  · rename_i q vals hs
    split at h
    · simp at h; exact ⟨q, vals, hs, ‹_›, h.symm⟩
    · cases h

theorem target_ws {sc : List Scope} {s i : Nat} {n : Option String} (h : (Var.bound s i n).InScope (sc.map Scope.size)) :
    ∃ t, target sc s i = some t := by
  obtain ⟨m, h1, h2⟩ := h
  simp only [List.getElem?_map, Option.map_eq_some_iff] at h1
  obtain ⟨a, h1, h3⟩ := h1
  unfold target
  rw [h1]
  cases a with
  | lam k => exact ⟨_, rfl⟩
  | letS q vals =>
    simp only [Scope.size] at h3
    exact ⟨_, by simp only; rw [if_pos (by omega)]⟩

/-- A reference leads to a node. -/
theorem target_at {root : Core} {p : Path} {sc : List Scope} {e : Core} (h : subAt root p = some (sc, e)) {s i : Nat}
    {t : Path} (ht : target sc s i = some (some t)) :
    ∃ q vals v, t = .bind i :: q ∧ sc[s]? = some (.letS q vals) ∧ vals[i]? = some v ∧ q <:+ p ∧
      subAt root t = some (sc.drop s, v) := by
  obtain ⟨q, vals, h1, h2, rfl⟩ := target_some ht
  obtain ⟨g1, ns, b, tt, g2⟩ := scope_at h h1
  refine ⟨q, vals, vals[i], rfl, h1, by simp [h2], g1, ?_⟩
  rw [subAt_cons g2]
  simp only [childOf, List.getElem?_eq_getElem h2, Option.map_some, Option.some.injEq, Prod.mk.injEq, and_true]
  obtain ⟨hlt, he⟩ := List.getElem?_eq_some_iff.1 h1
  rw [List.drop_eq_getElem_cons hlt, he]

theorem good_target {root : Core} {st : St} (hi : Inv root st) {p : Path} {sc : List Scope} {e : Core}
    (h : subAt root p = some (sc, e)) {s i : Nat} {t : Path} (ht : target sc s i = some (some t))
    (hw : ∃ a, a <:+ p ∧ Active st a) : Good root st (st.mark t) := by
  obtain ⟨q, vals, v, rfl, _, _, h3, h4⟩ := target_at h ht
  refine good_mark hi (node_mem h4) (.inr (.inr ⟨i, q, rfl, ?_⟩))
  exact Hot.up hi (.inr hw) h3

theorem mark_marked (st : St) (q : Path) : (st.mark q).seen q ≠ .unseen := by
  unfold St.mark
  split
  · simp [St.set]
  · assumption

theorem encounter_out {root : Core} {st : St} (hi : Inv root st) {p : Path} {sc : List Scope} {e : Core}
    (h : subAt root p = some (sc, e)) {s i : Nat} {r : Bool} (ht : ∃ t, target sc s i = some t) (hw : Within st r p) :
    ∃ st', encounter sc r s i st = some st' ∧ Good root st st' ∧
      (r = true → ∀ t, target sc s i = some (some t) → st'.seen t ≠ .unseen ∧ st'.disq t = true) := by
  unfold encounter
  split
  · rename_i hr
    obtain ⟨t, ht⟩ := ht
    rw [ht]
    cases t with
    | none => exact ⟨st, rfl, .refl hi, fun _ t h => by simp at h⟩
    | some t =>
      have g1 := good_disqualify hi t
      have hw' := hw hr
      have g2 := good_target g1.inv h ht (let ⟨a, x, y⟩ := hw'; ⟨a, x, g1.mono.active _ y⟩)
      refine ⟨_, rfl, g1.trans g2, ?_⟩
      rintro _ t' ht'
      simp only [Option.some.injEq] at ht'
      subst ht'
      exact ⟨mark_marked _ _, g2.mono.disq _ (by simp [St.disqualify])⟩
  · rename_i hr
    exact ⟨st, rfl, .refl hi, fun h => absurd h hr⟩

theorem encounterLookup_out {root : Core} {st : St} (hi : Inv root st) {p : Path} {sc : List Scope} {e : Core}
    (h : subAt root p = some (sc, e)) {s i : Nat} {m : String} {r : Bool} (ht : ∃ t, target sc s i = some t)
    (hw : Within st r p) (hreg : Reg st sc) :
    ∃ st', encounterLookup sc r s i m st = some st' ∧ Good root st st' ∧
      (r = true → ∀ t, target sc s i = some (some t) → st'.seen t ≠ .unseen ∧
        ∀ sc' v, subAt root t = some (sc', v) → isDefaultLet v = true → st'.disq t = true ∨ m ∈ st'.acc t) := by
  unfold encounterLookup
  split
  · rename_i hr
    obtain ⟨t, ht⟩ := ht
    rw [ht]
    cases t with
    | none => exact ⟨st, rfl, .refl hi, fun _ t h => by simp at h⟩
    | some t =>
      have g1 := good_record hi t m
      have hw' := hw hr
      have g2 := good_target g1.inv h ht (let ⟨a, x, y⟩ := hw'; ⟨a, x, g1.mono.active _ y⟩)
      refine ⟨_, rfl, g1.trans g2, ?_⟩
      rintro _ t' ht'
      simp only [Option.some.injEq] at ht'
      subst ht'
      refine ⟨mark_marked _ _, ?_⟩
      intro sc' v hv hd
      obtain ⟨q, vals, v', rfl, k1, k2, _, k4⟩ := target_at h ht
      rw [k4] at hv
      simp only [Option.some.injEq, Prod.mk.injEq] at hv
      obtain ⟨_, rfl⟩ := hv
      rcases hreg s q vals k1 i _ k2 hd with hc | hc
      · refine .inr (g2.mono.acc _ _ ?_)
        simp [St.record, hc]
      · exact .inl (g2.mono.disq _ (g1.mono.disq _ hc))
  · rename_i hr
    exact ⟨st, rfl, .refl hi, fun h => absurd h hr⟩

/-! ## All nodes -/

/-- What is shown of every expression. -/
def Spec (root : Core) (e : Core) : Prop := ∀ (sc : List Scope) (r : Bool) (p : Path) (st : St),
  subAt root p = some (sc, e) → Inv root st → Reg st sc → Within st r p → Out root st r p (traverse sc r p e st)

/-- A sequence of parts. -/
def OutL (root : Core) (st : St) (r : Bool) (ps : List Path) (o : Option St) : Prop :=
  ∃ st', o = some st' ∧ Good root st st' ∧ ∀ p ∈ ps, (r = true → CoveredAt root st' p) ∧
    ∀ q, p <:+ q → Active st q → CoveredAt root st' q

theorem OutL.nil {root : Core} {st : St} (hi : Inv root st) {r : Bool} : OutL root st r [] (some st) :=
  ⟨st, rfl, .refl hi, by simp⟩

theorem OutL.cons {root : Core} {st st0 : St} {r : Bool} {p : Path} {ps : List Path} {o : Option St}
    {f : St → Option St} (h0 : Good root st st0) (h1 : Out root st0 r p o)
    (h2 : ∀ st', o = some st' → Good root st st' → OutL root st' r ps (f st')) : OutL root st r (p :: ps) (o.bind f) := by
  obtain ⟨a, rfl, g1, c1, d1⟩ := h1
  obtain ⟨b, e2, g2, c2⟩ := h2 a rfl (h0.trans g1)
  refine ⟨b, e2, (h0.trans g1).trans g2, ?_⟩
  intro x hx
  rcases List.mem_cons.1 hx with rfl | hx
  · exact ⟨fun hr => (c1 hr).mono g2.mono, fun q hq ha => (d1 q hq (h0.mono.active _ ha)).mono g2.mono⟩
  · exact ⟨(c2 x hx).1, fun q hq ha => (c2 x hx).2 q hq ((h0.trans g1).mono.active _ ha)⟩

theorem OutL.append {root : Core} {st : St} {r : Bool} {ps qs : List Path} {o : Option St} {f : St → Option St}
    (h1 : OutL root st r ps o) (h2 : ∀ st', Good root st st' → OutL root st' r qs (f st')) :
    OutL root st r (ps ++ qs) (o.bind f) := by
  obtain ⟨a, rfl, g1, c1⟩ := h1
  obtain ⟨b, e2, g2, c2⟩ := h2 a g1
  refine ⟨b, e2, g1.trans g2, ?_⟩
  intro x hx
  rcases List.mem_append.1 hx with hx | hx
  · exact ⟨fun hr => ((c1 x hx).1 hr).mono g2.mono, fun q hq ha => ((c1 x hx).2 q hq ha).mono g2.mono⟩
  · exact ⟨(c2 x hx).1, fun q hq ha => (c2 x hx).2 q hq (g1.mono.active _ ha)⟩

/-- From the parts to the node. -/
theorem OutL.node {root : Core} {st : St} {r : Bool} {p : Path} {ps : List Path} {o : Option St} {x : List Scope × Core}
    (h : subAt root p = some x) (ho : OutL root st r ps o)
    (hl : ∀ st', r = true → o = some st' → Handled root st' p)
    (hp : ∀ s y, childOf s p x = some y → s :: p ∈ ps ∨
      ((∀ st', o = some st' → CoveredAt root st' (s :: p)))) : OutC root st r p o := by
  obtain ⟨a, e1, g1, c1⟩ := ho
  refine ⟨a, e1, g1, ?_, ?_⟩
  · intro hr
    refine covered_intro h (hl a hr e1) ?_
    intro s y hy
    rcases hp s y hy with hm | hm
    · exact (c1 _ hm).1 hr
    · exact hm a e1
  · intro s q hq ha
    cases hy : childOf s p x with
    | none => exact (covered_none (by rw [subAt_cons h, hy])).sub hq
    | some y =>
      rcases hp s y hy with hm | hm
      · exact (c1 _ hm).2 q hq ha
      · exact (hm a e1).sub hq

def bindPaths (p : Path) (i n : Nat) : List Path := (List.range' i n).map fun j => .bind j :: p
def partPaths (p : Path) (i n : Nat) : List Path := (List.range' i n).map fun j => .part j :: p

theorem good_softDepend {root : Core} {st : St} (hi : Inv root st) {p : Path} {i : Nat} (hp : p ∈ nodes [] root) :
    Good root st (st.softDepend (.bind i :: p) p) := by
  unfold St.softDepend
  split
  · rename_i h
    refine good_markSoft hi hp ?_
    rcases h with h | h
    · exact hot_up hi _ _ _ (Nat.le_refl _) (.inl h) (List.suffix_cons _ _)
    · exact Hot.up hi (hi.soft _ h) (List.suffix_cons _ _)
  · exact .refl hi

theorem traverseB_out {root : Core} {sc : List Scope} {r : Bool} {p : Path} (hp : p ∈ nodes [] root) :
    ∀ (vs : List Core) (i : Nat) (st : St), (∀ v ∈ vs, Spec root v) →
    (∀ (j : Nat) v, vs[j]? = some v → subAt root (.bind (i + j) :: p) = some (sc, v)) → Inv root st → Reg st sc →
    Within st r p → OutL root st r (bindPaths p i vs.length) (traverseB sc r p i vs st) := by
  intro vs
  induction vs with
  | nil => intro i st _ _ hi _ _; exact .nil hi
  | cons v vs ih =>
    intro i st hs hc hi hr hw
    have g0 := good_softDepend (st := st) hi (i := i) hp
    simp only [traverseB, List.length_cons, bindPaths, List.range'_succ, List.map_cons]
    refine OutL.cons g0 (hs v (by simp) sc r _ _ (by simpa using hc 0 v rfl) g0.inv (hr.mono g0.mono)
      ((hw.down (List.suffix_cons _ _)).mono g0.mono)) ?_
    intro st' _ g
    refine ih (i + 1) st' (fun w hw => hs w (by simp [hw])) ?_ g.inv (hr.mono g.mono) (hw.mono g.mono)
    intro j w hj
    rw [show i + 1 + j = i + (j + 1) by omega]
    exact hc (j + 1) w (by simpa using hj)

theorem traverseL_out {root : Core} {sc : List Scope} {r : Bool} {p : Path} :
    ∀ (vs : List Core) (i : Nat) (st : St), (∀ v ∈ vs, Spec root v) →
    (∀ (j : Nat) v, vs[j]? = some v → subAt root (.part (i + j) :: p) = some (sc, v)) → Inv root st → Reg st sc →
    Within st r p → OutL root st r (partPaths p i vs.length) (traverseL sc r p i vs st) := by
  intro vs
  induction vs with
  | nil => intro i st _ _ hi _ _; exact .nil hi
  | cons v vs ih =>
    intro i st hs hc hi hr hw
    simp only [traverseL, List.length_cons, partPaths, List.range'_succ, List.map_cons]
    refine OutL.cons (.refl hi) (hs v (by simp) sc r _ _ (by simpa using hc 0 v rfl) hi hr
      (hw.down (List.suffix_cons _ _))) ?_
    intro st' _ g
    refine ih (i + 1) st' (fun w hw => hs w (by simp [hw])) ?_ g.inv (hr.mono g.mono) (hw.mono g.mono)
    intro j w hj
    rw [show i + 1 + j = i + (j + 1) by omega]
    exact hc (j + 1) w (by simpa using hj)

theorem good_dependMeta {root : Core} {st : St} (hi : Inv root st) {p : Path} {sc : List Scope} {xs : List Core}
    (h : subAt root p = some (sc, .node .withMeta xs)) : Good root st (st.dependMeta p xs) := by
  unfold St.dependMeta
  split
  · rename_i a b
    unfold St.depend
    split
    · rename_i hs
      have hn : subAt root (.part 1 :: p) = some (sc, b) := by rw [subAt_cons h]; rfl
      refine good_mark hi (node_mem hn) (.inr (.inl ⟨p, rfl, ?_⟩))
      rcases hi.place _ (.inl hs) with h | ⟨q, h, _⟩ | ⟨i, q, h, _⟩
      · exact h.suffix (List.suffix_cons _ _)
      · simp at h
      · simp at h
    · exact .refl hi
  · exact .refl hi

theorem boundVar_some {o : Core} {s i : Nat} (h : boundVar o = some (s, i)) : ∃ n, o = .var (.bound s i n) := by
  unfold boundVar at h
  split at h
  · simp at h; obtain ⟨rfl, rfl⟩ := h; exact ⟨_, rfl⟩
  · cases h

theorem traverseF_out {root : Core} (hws : root.WS []) {sc : List Scope} {r : Bool} {p : Path} {m : String} {o : Core}
    {fs : List Core} {st : St} (h : subAt root p = some (sc, .node (.lookup m) (o :: fs))) (hs : ∀ f ∈ fs, Spec root f)
    (hi : Inv root st) (hr : Reg st sc) (hw : Within st r p) :
    ∃ ps, OutL root st r ps (traverseF sc r p m (boundVar o) fs st) ∧ (∀ f, fs[0]? = some f → .fb :: p ∈ ps ∨
      ∀ st', CoveredAt root st' (.fb :: p)) := by
  cases fs with
  | nil => exact ⟨[], .nil hi, by simp⟩
  | cons f fs =>
    have hf : subAt root (.fb :: p) = some (sc, f) := by rw [subAt_cons h]; rfl
    have gen : ∃ ps, OutL root st r ps (traverse sc r (.fb :: p) f st) ∧ (∀ g, (f :: fs)[0]? = some g →
        .fb :: p ∈ ps ∨ ∀ st', CoveredAt root st' (.fb :: p)) := by
      refine ⟨[.fb :: p], ?_, fun _ _ => .inl (by simp)⟩
      have := OutL.cons (f := some) (ps := []) (.refl hi) (hs f (by simp) sc r _ st hf hi hr
        (hw.down (List.suffix_cons _ _))) (fun st' _ g => .nil g.inv)
      simpa using this
    simp only [traverseF]
    split
    · rename_i s i hb
      split
      · rename_i ho
        obtain ⟨n, rfl⟩ := boundVar_some hb
        have hws' := subAt_ws hws hf
        obtain ⟨st', h1, h2, _⟩ := encounterLookup_out hi h (m := m) (target_ws hws') hw hr
        refine ⟨[], ⟨st', h1, h2, by simp⟩, fun _ _ => .inr fun st' => ?_⟩
        refine covered_var hf ?_
        intro _ _ _ _ _ hne
        exfalso
        exact hne (by simp only [Exempt, h, selfFallback]; exact ⟨(s, i), ho, hb⟩)
      · exact gen
    · exact gen

theorem handled_lookup {root : Core} {st : St} {p : Path} {sc : List Scope} {m : String} {xs : List Core}
    (h : subAt root p = some (sc, .node (.lookup m) xs))
    (hl : ∀ o fs s i t, xs = o :: fs → boundVar o = some (s, i) → target sc s i = some (some t) → st.seen t ≠ .unseen ∧
      ∀ sc' v, subAt root t = some (sc', v) → isDefaultLet v = true → st.disq t = true ∨ m ∈ st.acc t) :
    Handled root st p := by
  constructor
  · intro sc s i n t h'
    rw [h] at h'
    simp at h'
  · intro sc' m' o fs s i t h'
    rw [h] at h'
    simp only [Option.some.injEq, Prod.mk.injEq, Core.node.injEq, Kind.lookup.injEq] at h'
    obtain ⟨rfl, rfl, rfl⟩ := h'
    exact hl o fs s i t rfl

theorem traverseO_out {root : Core} (hws : root.WS []) {sc : List Scope} {r : Bool} {p : Path} {m : String}
    {xs : List Core} {st : St} (h : subAt root p = some (sc, .node (.lookup m) xs)) (hs : ∀ f ∈ xs, Spec root f)
    (hi : Inv root st) (hr : Reg st sc) (hw : Within st r p) : OutC root st r p (traverseO sc r p m xs st) := by
  cases xs with
  | nil =>
    refine OutL.node h (.nil hi) (fun st' _ _ => handled_lookup h fun _ _ _ _ _ hx => by simp at hx) ?_
    intro s y hy
    cases s <;> simp [childOf] at hy
  | cons o fs =>
    have ho : subAt root (.obj :: p) = some (sc, o) := by rw [subAt_cons h]; rfl
    simp only [traverseO]
    cases hb : boundVar o with
    | some r0 =>
      obtain ⟨s, i⟩ := r0
      obtain ⟨n, rfl⟩ := boundVar_some hb
      have hws' := subAt_ws hws ho
      obtain ⟨st1, h1, h2, h3⟩ := encounterLookup_out hi h (m := m) (target_ws hws') hw hr
      obtain ⟨ps, g1, g2⟩ := traverseF_out hws h (fun f hf => hs f (by simp [hf])) h2.inv (hr.mono h2.mono) (hw.mono h2.mono)
      simp only [h1, Option.bind_some]
      rw [hb] at g1
      have hobj : ∀ st', CoveredAt root st' (.obj :: p) := fun st' =>
        covered_var ho fun _ _ _ _ _ hne => absurd trivial hne
      obtain ⟨st', e1, k1, k2⟩ := g1
      refine OutL.node (ps := ps) h ⟨st', e1, h2.trans k1, ?_⟩ ?_ ?_
      · exact fun x hx => ⟨(k2 x hx).1, fun q hq ha => (k2 x hx).2 q hq (h2.mono.active _ ha)⟩
      · intro st'' hrt e2
        rw [e1] at e2
        simp only [Option.some.injEq] at e2
        subst e2
        refine handled_lookup h ?_
        intro o' fs' s' i' t hx hb' ht
        simp only [List.cons.injEq] at hx
        obtain ⟨rfl, rfl⟩ := hx
        rw [hb] at hb'
        simp only [Option.some.injEq, Prod.mk.injEq] at hb'
        obtain ⟨rfl, rfl⟩ := hb'
        obtain ⟨x1, x2⟩ := h3 hrt t ht
        exact ⟨k1.mono.marked _ x1, fun sc' v y1 y2 => (x2 sc' v y1 y2).imp (k1.mono.disq _) (k1.mono.acc _ _)⟩
      · intro s y hy
        cases s <;> simp only [childOf, Option.map_eq_some_iff] at hy
        case obj => exact .inr fun st' _ => hobj st'
        case fb =>
          obtain ⟨f, hf, _⟩ := hy
          exact (g2 f (by simpa using hf)).imp id fun hh st' _ => hh st'
        all_goals cases hy
    | none =>
      have g0 := hs o (by simp) sc r _ st ho hi hr (hw.down (List.suffix_cons _ _))
      obtain ⟨st1, e1, k1, k2, k3⟩ := g0
      obtain ⟨ps, g1, g2⟩ := traverseF_out hws h (fun f hf => hs f (by simp [hf])) k1.inv (hr.mono k1.mono) (hw.mono k1.mono)
      rw [hb] at g1
      have hL : OutL root st r ((.obj :: p) :: ps) ((traverse sc r (.obj :: p) o st).bind (traverseF sc r p m none fs)) := by
        refine OutL.cons (.refl hi) ⟨st1, e1, k1, k2, k3⟩ ?_
        intro st' e2 _
        rw [e1] at e2
        simp only [Option.some.injEq] at e2
        subst e2
        exact g1
      refine OutL.node h hL ?_ ?_
      · intro st'' _ _
        refine handled_lookup h ?_
        intro o' fs' s' i' t hx hb'
        simp only [List.cons.injEq] at hx
        obtain ⟨rfl, rfl⟩ := hx
        simp [hb] at hb'
      · intro s y hy
        cases s <;> simp only [childOf, Option.map_eq_some_iff] at hy
        case obj => exact .inl (by simp)
        case fb =>
          obtain ⟨f, hf, _⟩ := hy
          exact (g2 f (by simpa using hf)).imp (List.mem_cons_of_mem _) fun hh st' _ => hh st'
        all_goals cases hy

theorem partPaths_mem {p : Path} {n j : Nat} (h : j < n) : .part j :: p ∈ partPaths p 0 n := by
  simp only [partPaths, List.mem_map, List.mem_range'_1]
  exact ⟨j, by omega, rfl⟩

theorem bindPaths_mem {p : Path} {n j : Nat} (h : j < n) : .bind j :: p ∈ bindPaths p 0 n := by
  simp only [bindPaths, List.mem_map, List.mem_range'_1]
  exact ⟨j, by omega, rfl⟩

theorem parts_out {root : Core} {sc : List Scope} {r : Bool} {p : Path} {k : Kind} (hk : ∀ m, k ≠ .lookup m)
    {xs : List Core} {st st0 : St} (h : subAt root p = some (sc, .node k xs)) (hs : ∀ f ∈ xs, Spec root f)
    (g0 : Good root st st0) (hr : Reg st sc) (hw : Within st r p) :
    OutC root st r p (traverseL sc r p 0 xs st0) := by
  have h1 := traverseL_out xs 0 st0 hs (fun j v hj => by rw [subAt_cons h, childOf_part hk]; simp [hj]) g0.inv
    (hr.mono g0.mono) (hw.mono g0.mono)
  obtain ⟨st', e1, k1, k2⟩ := h1
  refine OutL.node (ps := partPaths p 0 xs.length) h ⟨st', e1, g0.trans k1, ?_⟩ ?_ ?_
  · exact fun x hx => ⟨(k2 x hx).1, fun q hq ha => (k2 x hx).2 q hq (g0.mono.active _ ha)⟩
  · intro _ _ _
    refine handled_other h (by simp) ?_
    intro m xs he
    simp only [Core.node.injEq] at he
    exact hk m he.1
  · intro s y hy
    refine .inl ?_
    have : ∃ i, s = .part i ∧ i < xs.length := by
      cases k
      case lookup m => exact absurd rfl (hk m)
      all_goals
        cases s <;> simp only [childOf, Option.map_eq_some_iff] at hy
        case part i =>
          obtain ⟨v, hv, _⟩ := hy
          exact ⟨i, rfl, (List.getElem?_eq_some_iff.1 hv).1⟩
        all_goals cases hy
    obtain ⟨i, rfl, hi⟩ := this
    exact partPaths_mem hi

theorem traverse_out {root : Core} (hws : root.WS []) (e : Core) : Spec root e := by
  induction e using Core.ind with
  | hv v =>
    intro sc r p st h hi hr hw
    cases v with
    | free x =>
      simp only [traverse]
      refine visit_out hi hw fun r' _ => ⟨st, rfl, .refl hi, fun _ => covered_var h (by simp), ?_⟩
      intro s q hq _
      exact (covered_none (by rw [subAt_cons h]; rfl)).sub hq
    | bound s i n =>
      simp only [traverse]
      refine visit_out hi hw fun r' hw' => ?_
      obtain ⟨st', h1, h2, h3⟩ := encounter_out hi h (target_ws (subAt_ws hws h)) hw'
      refine ⟨st', h1, h2, ?_, ?_⟩
      · intro hr'
        refine covered_var h ?_
        intro s' i' n' t hv _ ht
        simp only [Var.bound.injEq] at hv
        obtain ⟨rfl, rfl, rfl⟩ := hv
        exact h3 hr' t ht
      · intro s q hq _
        exact (covered_none (by rw [subAt_cons h]; rfl)).sub hq
  | hlet ns vs b t ihv ihb =>
    intro sc r p st h hi hr hw
    simp only [traverse]
    refine visit_out hi hw fun r' hw' => ?_
    obtain ⟨g0, hreg⟩ := good_registerAll (root := root) p vs 0 hi
    have hreg' : Reg (st.registerAll p 0 vs) (.letS p vs :: sc) := by
      intro s q vals hs i v hv hd
      cases s with
      | zero =>
        simp only [List.getElem?_cons_zero, Option.some.injEq, Scope.letS.injEq] at hs
        obtain ⟨rfl, rfl⟩ := hs
        simpa using hreg i v hv hd
      | succ s => exact (hr.mono g0.mono) s q vals (by simpa using hs) i v hv hd
    have h1 := traverseB_out (r := r') (node_mem h) vs 0 _ ihv
      (fun j v hj => by rw [subAt_cons h]; simp [childOf, hj]) g0.inv hreg' (hw'.mono g0.mono)
    have hb : subAt root (.body :: p) = some (.letS p vs :: sc, b) := by rw [subAt_cons h]; rfl
    have h2 := OutL.append (qs := [.body :: p]) (f := traverse (.letS p vs :: sc) r' (.body :: p) b) h1 (by
      intro st' g
      have := OutL.cons (f := some) (ps := []) (.refl g.inv) (ihb _ r' _ st' hb g.inv (hreg'.mono g.mono)
        (((hw'.mono g0.mono).down (List.suffix_cons _ _)).mono g.mono)) (fun st'' _ g' => .nil g'.inv)
      simpa using this)
    obtain ⟨st', e1, k1, k2⟩ := h2
    refine OutL.node (ps := bindPaths p 0 vs.length ++ [.body :: p]) h ⟨st', e1, g0.trans k1, ?_⟩ ?_ ?_
    · exact fun x hx => ⟨(k2 x hx).1, fun q hq ha => (k2 x hx).2 q hq (g0.mono.active _ ha)⟩
    · exact fun _ _ _ => handled_other h (by simp) (by simp)
    · intro s y hy
      refine .inl ?_
      cases s <;> simp only [childOf, Option.map_eq_some_iff] at hy
      case bind i =>
        obtain ⟨v, hv, _⟩ := hy
        exact List.mem_append_left _ (bindPaths_mem (List.getElem?_eq_some_iff.1 hv).1)
      case body => simp
      all_goals cases hy
  | hlam ps b ih =>
    intro sc r p st h hi hr hw
    simp only [traverse]
    refine visit_out hi hw fun r' hw' => ?_
    have hb : subAt root (.body :: p) = some (.lam ps.length :: sc, b) := by rw [subAt_cons h]; rfl
    have hreg' : Reg st (.lam ps.length :: sc) := by
      intro s q vals hs
      cases s with
      | zero => simp at hs
      | succ s => exact hr s q vals (by simpa using hs)
    have h1 := OutL.cons (f := some) (ps := []) (.refl hi) (ih _ r' _ st hb hi hreg' (hw'.down (List.suffix_cons _ _)))
      (fun st'' _ g' => .nil g'.inv)
    rw [Option.bind_fun_some] at h1
    refine OutL.node h h1 ?_ ?_
    · exact fun _ _ _ => handled_other h (by simp) (by simp)
    · intro s y hy
      refine .inl ?_
      simp only [childOf] at hy
      split at hy
      · subst_vars; simp
      · cases hy
  | hn k xs ih =>
    intro sc r p st h hi hr hw
    have other : ∀ {st0}, (∀ m, k ≠ .lookup m) → Good root st st0 → ∀ r', Within st r' p →
        OutC root st r' p (traverseL sc r' p 0 xs st0) :=
      fun hk g0 r' hw' => parts_out hk h ih g0 hr hw'
    cases k
    case lookup m =>
      simp only [traverse]
      exact visit_out hi hw fun r' hw' => traverseO_out hws h ih hi hr hw'
    case withMeta =>
      simp only [traverse]
      exact visit_out hi hw fun r' hw' => other (by simp) (good_dependMeta hi h) r' hw'
    all_goals
      simp only [traverse]
      exact visit_out hi hw fun r' hw' => other (by simp) (.refl hi) r' hw'

end Verif.Prune
