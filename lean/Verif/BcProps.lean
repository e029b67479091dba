import Verif.BcLemmas

/-! # Compiled bytecode means the program (C16) and appending to a prelude equals compiling together (C17) -/

namespace Verif.Bc
variable {K : Type}

/-! ## Lists of trees and globals -/

theorem nodes_reads {e F : Enc K} (hF : Fin F) (ts : List (Syn K)) (hf : ∀ t ∈ ts, t.Fits) (hle : (e.nodes ts).1.Le F) :
    ReadsAll F.code F.consts (e.nodes ts).2 ts := by
  induction ts generalizing e with
  | nil => trivial
  | cons t ts ih =>
    have h1 := node_reads hF (e := e) t (hf t (by simp)) ((le_nodes _ ts).trans hle)
    exact ⟨h1, ih (fun t ht => hf t (by simp [ht])) hle⟩

/-- One global. -/
def Enc.global (e : Enc K) (fusible : Nat → Bool) (i : Nat) (f : Form K) : Enc K × Nat :=
  if fusible i && fusibleShape f then e.fused i (.l 0) (.l 1) else e.node f.body

theorem globals_cons (e : Enc K) (fusible : Nat → Bool) (i : Nat) (f : Form K) (fs : List (Form K)) :
    e.globals fusible i (f :: fs) = (((e.global fusible i f).1.globals fusible (i + 1) fs).1,
      headerFor f.head (e.global fusible i f).2 :: ((e.global fusible i f).1.globals fusible (i + 1) fs).2) := by
  rw [Enc.globals]; rfl

theorem le_global (e : Enc K) (fusible : Nat → Bool) (i : Nat) (f : Form K) : e.Le (e.global fusible i f).1 := by
  unfold Enc.global; split
  · exact le_fused _ _ _ _
  · exact le_node _ _

theorem le_globals (e : Enc K) (fusible : Nat → Bool) (i : Nat) (fs : List (Form K)) : e.Le (e.globals fusible i fs).1 := by
  induction fs generalizing e i with
  | nil => exact .refl _
  | cons f fs ih => rw [globals_cons]; exact (le_global _ _ _ _).trans (ih _ _)

theorem ok_globals {e : Enc K} (fusible : Nat → Bool) (i : Nat) (fs : List (Form K)) (h : e.Ok) :
    (e.globals fusible i fs).1.Ok := by
  induction fs generalizing e i with
  | nil => exact h
  | cons f fs ih =>
    rw [globals_cons]
    refine ih _ ?_
    unfold Enc.global; split
    · exact ok_fused _ _ _ h
    · exact ok_node h _

theorem globals_length (e : Enc K) (fusible : Nat → Bool) (i : Nat) (fs : List (Form K)) :
    (e.globals fusible i fs).2.length = fs.length := by
  induction fs generalizing e i with
  | nil => rfl
  | cons f fs ih => rw [globals_cons]; simp [ih]

theorem globals_reads {e F : Enc K} (hF : Fin F) (fusible : Nat → Bool) (hfu : ∀ i, fusible i = true → i < 256) (i : Nat)
    (fs : List (Form K)) (hf : ∀ f ∈ fs, f.Fits) (hle : (e.globals fusible i fs).1.Le F) (j : Nat) (f : Form K)
    (hj : fs[j]? = some f) :
    ∃ h, (e.globals fusible i fs).2[j]? = some h ∧ h.head = f.head.norm ∧
      Reads F.code F.consts h.body (if fusible (i + j) && fusibleShape f then .fused (i + j) (.l 0) (.l 1) else f.body) := by
  induction fs generalizing e i j with
  | nil => simp at hj
  | cons g fs ih =>
    rw [globals_cons] at hle ⊢
    cases j with
    | zero =>
      simp only [List.getElem?_cons_zero, Option.some.injEq] at hj
      subst hj
      refine ⟨_, rfl, headerFor_head _ _, ?_⟩
      have hle' : (e.global fusible i g).1.Le F := (le_globals _ _ _ _).trans hle
      show Reads F.code F.consts (e.global fusible i g).2 _
      unfold Enc.global at hle' ⊢
      simp only [Nat.add_zero]
      by_cases hc : (fusible i && fusibleShape g) = true
      · rw [if_pos hc] at hle' ⊢
        rw [if_pos hc]
        exact fused_reads hF i _ _ (hfu i (by simp at hc; exact hc.1)) (by decide : 0 < u32) (by decide : 1 < u32) hle'
      · rw [if_neg hc] at hle' ⊢
        rw [if_neg hc]
        exact node_reads hF _ (hf g (by simp)).2 hle'
    | succ j =>
      have := ih (i := i + 1) (fun f hm => hf f (by simp [hm])) hle j (by simpa using hj)
      rw [show i + 1 + j = i + (j + 1) by omega] at this
      simpa using this

/-! ## Fixed code -/

theorem fits_range {K : Type} (n k : Nat) (hn : n + k < u32) : ∀ r ∈ (List.range n).map (fun i => (Ref.l (k + i) : Ref K)), r.Fits := by
  intro r hr
  simp only [List.mem_map, List.mem_range] at hr
  obtain ⟨i, hi, rfl⟩ := hr
  show k + i < u32
  omega

theorem fixtures_fit (pn : Nat) (h : pn < 256) : ∀ t ∈ (fixtureTrees pn : List (Syn K)), t.Fits := by
  intro t ht
  simp only [fixtureTrees, List.mem_append, List.mem_cons, List.not_mem_nil, or_false] at ht
  rcases ht with ((ht | rfl | rfl) | ht) | rfl | rfl | rfl
  · simp only [templateTrees, List.mem_map, Prod.exists] at ht
    obtain ⟨a, tag, hm, rfl⟩ := ht
    rw [Syn.Fits]
    have hb : ∀ p ∈ arities.zipIdx, p.2 < 256 ∧ p.1 < 256 := by decide
    have hb := hb _ hm
    refine ⟨hb.1, by simpa using hb.2, ?_⟩
    have := fits_range (K := K) a 0 (by have := hb.2; unfold u32; simp at this; omega)
    simpa using this
  · rw [Syn.Fits]; trivial
  · rw [Syn.Fits]; exact ⟨(by decide : 0 < u32), (by decide : 1 < u32)⟩
  · simp only [papTrees, List.mem_flatMap, List.mem_map, List.mem_range] at ht
    obtain ⟨s, hs, p, hp, rfl⟩ := ht
    rw [Syn.Fits]
    refine ⟨show p + 1 < u32 by unfold u32; omega, by simp; omega, ?_⟩
    intro r hr
    simp only [List.mem_append, List.mem_map, List.mem_range] at hr
    rcases hr with ⟨i, hi, rfl⟩ | ⟨i, hi, rfl⟩
    · show p + 1 + i + 1 < u32; unfold u32; omega
    · show i < u32; unfold u32; omega
  · rw [Syn.Fits]; simp [argsFit, Ref.Fits, u32]
  · rw [Syn.Fits]; simp [argsFit, Ref.Fits, u32]
  · rw [Syn.Fits]; simp [argsFit, Ref.Fits, u32, h]

/-! ## C16 -/

/-- The trees, the globals and the root, in sequence. -/
theorem sequence_reads (ts : List (Syn K)) (fusible : Nat → Bool) (globals : List (Form K)) (F : Enc K)
    (hF : Fin F) (hts : ∀ t ∈ ts, t.Fits) (hfu : ∀ i, fusible i = true → i < 256) (hg : ∀ f ∈ globals, f.Fits)
    (a : Enc K × List Nat) (ha : a = (Enc.mk [] [] : Enc K).nodes ts)
    (b : Enc K × List Header) (hb : b = a.1.globals fusible 0 globals) (hle : b.1.Le F) :
    b.2.length = globals.length ∧ (∀ i f, globals[i]? = some f → ∃ h, b.2[i]? = some h ∧ h.head = f.head.norm ∧
      Reads F.code F.consts h.body (if fusible i && fusibleShape f then .fused i (.l 0) (.l 1) else f.body)) ∧
    ReadsAll F.code F.consts a.2 ts := by
  subst hb
  refine ⟨globals_length _ _ _ _, ?_, ?_⟩
  · intro i f hi
    have := globals_reads hF fusible hfu 0 globals hg (e := a.1) hle i f hi
    rw [Nat.zero_add] at this
    exact this
  · subst ha
    exact nodes_reads hF ts hts ((le_globals _ _ _ _).trans hle)

/-- **C16.**  Reading the bytecode of a program gives the program back: the entry reads as the root expression, every
global slot as its form, and the fixed code as the trees the machine expects, whenever the parts are within the format's
limits and the code passes the size check the driver makes. -/
theorem encode_means_program (pn : Nat) (fusible : Nat → Bool) (root : Syn K) (globals : List (Form K))
    (hl : Limits pn fusible root globals) (hfit : codeFits (encode pn fusible root globals).1 = true) :
    ProgIs (encode pn fusible root globals).1 (encode pn fusible root globals).2 pn fusible root globals := by
  have hts := fixtures_fit (K := K) pn hl.pn
  unfold encode at hfit ⊢
  generalize hT : (fixtureTrees pn : List (Syn K)) = ts at *
  generalize ha : (Enc.mk [] [] : Enc K).nodes ts = a at *
  obtain ⟨e0, fx⟩ := a
  dsimp only at hfit ⊢
  generalize hb : e0.globals fusible 0 globals = b at *
  obtain ⟨e1, hs⟩ := b
  dsimp only at hfit ⊢
  have hF : Fin (e1.node root).1 := by
    refine ⟨?_, ?_⟩
    · have h : (e1.node root).1.code.length ≤ u32 - 1 := by simpa [codeFits] using hfit
      have : 0 < u32 := by decide
      omega
    · have o0 := ok_nodes (e := (Enc.mk [] [] : Enc K)) ts (by simp [Enc.Ok])
      rw [ha] at o0
      have o1 := ok_globals fusible 0 globals o0
      dsimp only at o1
      rw [hb] at o1
      exact ok_node o1 _
  obtain ⟨h1, h2, h3⟩ := sequence_reads ts fusible globals _ hF hts hl.fusible hl.globals _ ha.symm _ hb.symm (le_node _ root)
  exact ⟨node_reads hF root hl.root (.refl _), h1, h2, by rw [hT]; exact h3⟩

/-! ## C17 -/

/-- **C17.**  Appending a program to the encoded prelude is encoding them together: same code, same constants, same
globals, same fixed code and same entry. -/
theorem append_is_encode (pn : Nat) (fusible : Nat → Bool) (root : Syn K) (globals : List (Form K)) :
    encodeRootOnto (encodePrelude pn fusible globals) root = encode pn fusible root globals := by
  unfold encodeRootOnto encodePrelude encode
  generalize (fixtureTrees pn : List (Syn K)) = ts
  rfl

/-- The prelude image is a prefix of every program built on it, so its offsets stay valid. -/
theorem prelude_is_prefix (base : Prog K) (os : List (Nat × Form K)) (root : Syn K) :
    base.code <+: (encodeOverridesAndRoot base os root).1.code ∧
      base.consts <+: (encodeOverridesAndRoot base os root).1.consts := by
  have key : ∀ (os : List (Nat × Form K)) (e : Enc K) (hs : List Header), e.Le (e.overrides hs os).1 := by
    intro os
    induction os with
    | nil => intro e hs; exact .refl _
    | cons o os ih => obtain ⟨s, f⟩ := o; intro e hs; rw [Enc.overrides]; exact (le_node _ _).trans (ih _ _)
  have := (key os (Enc.mk base.code base.consts) base.globals).trans (le_node _ root)
  exact ⟨this.code, this.consts⟩

/-! ### Overrides -/

theorem le_overrides (e : Enc K) (hs : List Header) (os : List (Nat × Form K)) : e.Le (e.overrides hs os).1 := by
  induction os generalizing e hs with
  | nil => exact .refl _
  | cons o os ih => obtain ⟨s, f⟩ := o; rw [Enc.overrides]; exact (le_node _ _).trans (ih _ _)

theorem ok_overrides {e : Enc K} (hs : List Header) (os : List (Nat × Form K)) (h : e.Ok) : (e.overrides hs os).1.Ok := by
  induction os generalizing e hs with
  | nil => exact h
  | cons o os ih => obtain ⟨s, f⟩ := o; rw [Enc.overrides]; exact ih _ (ok_node h _)

theorem overrides_length (e : Enc K) (hs : List Header) (os : List (Nat × Form K)) : (e.overrides hs os).2.length = hs.length := by
  induction os generalizing e hs with
  | nil => rfl
  | cons o os ih => obtain ⟨s, f⟩ := o; rw [Enc.overrides]; simp [ih]

theorem overrideFor_cons (s : Nat) (f : Form K) (os : List (Nat × Form K)) (i : Nat) :
    overrideFor ((s, f) :: os) i = (overrideFor os i).or (if s = i then some f else none) := by
  unfold overrideFor
  by_cases h : s = i
  · simp only [List.filter_cons, h, decide_true, if_true, List.map_cons]
    rw [List.getLast?_cons]
    cases (List.map (fun x => x.2) (List.filter (fun o => decide (o.1 = i)) os)).getLast? <;> rfl
  · simp [h]

theorem overrides_reads {e F : Enc K} (hF : Fin F) (hs : List Header) (os : List (Nat × Form K)) (hf : ∀ o ∈ os, o.2.Fits)
    (hle : (e.overrides hs os).1.Le F) (i : Nat) :
    match overrideFor os i with
    | some f => i < hs.length → ∃ h, (e.overrides hs os).2[i]? = some h ∧ h.head = f.head.norm ∧ Reads F.code F.consts h.body f.body
    | none => (e.overrides hs os).2[i]? = hs[i]? := by
  induction os generalizing e hs with
  | nil => simp [overrideFor, Enc.overrides]
  | cons o os ih =>
    obtain ⟨s, f⟩ := o
    have hrw : e.overrides hs ((s, f) :: os) =
      (e.node f.body).1.overrides (hs.set s (headerFor f.head (e.node f.body).2)) os := by rw [Enc.overrides]; rfl
    rw [hrw] at hle ⊢
    have h1 := ih (hs := hs.set s (headerFor f.head (e.node f.body).2)) (fun o ho => hf o (by simp [ho])) hle
    rw [overrideFor_cons]
    cases hov : overrideFor os i with
    | some g =>
      rw [hov] at h1
      simp only [List.length_set] at h1
      exact h1
    | none =>
      rw [hov] at h1
      by_cases h : s = i
      · rw [Option.none_or, if_pos h]
        intro hi
        refine ⟨headerFor f.head (e.node f.body).2, h1.trans ?_, headerFor_head _ _, ?_⟩
        · rw [h]; simp [hi]
        · exact node_reads hF _ (hf (s, f) (by simp)).2 ((le_overrides _ _ _).trans hle)
      · simp only [Option.none_or, h, if_false]
        rw [h1, List.getElem?_set_ne h]

/-- **C17, the form the driver uses.**  The prelude image with some of its slots replaced by the program's own forms:
replaced slots hold the last replacement, the others what they held, and the entry reads as the root expression. -/
theorem overrides_mean_program (pn : Nat) (fusible : Nat → Bool) (root : Syn K) (globals : List (Form K))
    (os : List (Nat × Form K)) (hl : Limits pn fusible root globals) (hos : ∀ o ∈ os, o.2.Fits)
    (p : Prog K) (entry : Nat) (hp : encodeOverridesAndRoot (encodePrelude pn fusible globals) os root = (p, entry))
    (hfit : codeFits p = true) :
    Reads p.code p.consts entry root ∧ p.globals.length = globals.length ∧
      (∀ i f, globals[i]? = some f → match overrideFor os i with
        | some g => SlotIs p i g
        | none => GlobalIs p fusible i f) ∧
      ReadsAll p.code p.consts p.fixtures (fixtureTrees pn) := by
  have hts := fixtures_fit (K := K) pn hl.pn
  unfold encodeOverridesAndRoot encodePrelude at hp
  generalize hT : (fixtureTrees pn : List (Syn K)) = ts at *
  generalize ha : (Enc.mk [] [] : Enc K).nodes ts = a at *
  obtain ⟨e0, fx⟩ := a
  dsimp only at hp
  generalize hb : e0.globals fusible 0 globals = b at *
  obtain ⟨e1, hs⟩ := b
  dsimp only at hp
  generalize hc : e1.overrides hs os = c at *
  obtain ⟨e2, hs'⟩ := c
  dsimp only at hp
  simp only [Prod.mk.injEq] at hp
  obtain ⟨rfl, rfl⟩ := hp
  have hF : Fin (e2.node root).1 := by
    refine ⟨?_, ?_⟩
    · have h : (e2.node root).1.code.length ≤ u32 - 1 := by simpa [codeFits] using hfit
      have : 0 < u32 := by decide
      omega
    · have o0 := ok_nodes (e := (Enc.mk [] [] : Enc K)) ts (by simp [Enc.Ok])
      rw [ha] at o0
      have o1 := ok_globals fusible 0 globals o0
      dsimp only at o1
      rw [hb] at o1
      have o2 := ok_overrides hs os o1
      dsimp only at o2
      rw [hc] at o2
      exact ok_node o2 _
  have hle : e2.Le (e2.node root).1 := le_node _ _
  have hbc : e1.Le e2 := by
    have := le_overrides e1 hs os
    rw [hc] at this; exact this
  obtain ⟨h1, h2, h3⟩ := sequence_reads ts fusible globals _ hF hts hl.fusible hl.globals _ ha.symm _ hb.symm (hbc.trans hle)
  refine ⟨node_reads hF root hl.root (.refl _), ?_, ?_, h3⟩
  · have := overrides_length e1 hs os
    rw [hc] at this
    exact this.trans h1
  · intro i f hi
    have h4 := overrides_reads hF hs os hos (e := e1) (by rw [hc]; exact hle) i
    rw [hc] at h4
    cases ho : overrideFor os i with
    | some g =>
      rw [ho] at h4
      have hlt : i < hs.length := by
        refine Nat.lt_of_lt_of_eq ?_ h1.symm; exact (List.getElem?_eq_some_iff.1 hi).1
      exact h4 hlt
    | none =>
      rw [ho] at h4
      obtain ⟨h, k1, k2, k3⟩ := h2 i f hi
      exact ⟨h, h4.trans k1, k2, k3⟩

/-! ## Examples -/

/-- A program with a case, a let, constants and an override. -/
def sampleRoot : Syn Nat :=
  .let_ (.cons (.lambda 2 7) (.case (.atom (.l 0)) (.cons 3 (.atom (.l 1)) (.cons 5 (.cons 5 [.l 0]) .nil)) (.some (.atom (.v 42))))
    (.cons .thunk (.app (.g 1) [.l 0, .v 9] true) .nil)) (.seq (.atom (.l 1)) (.ann 12 (.bif 4 [.l 0, .l 1])))

def sampleGlobals : List (Form Nat) := [⟨.lambda 2 3, .case (.atom (.l 0)) .nil (.some (.atom (.l 1)))⟩, ⟨.value, .atom (.v 1)⟩]

theorem sample_limits : Limits 77 (fun i => i = 0) sampleRoot sampleGlobals := by
  refine ⟨by decide, ?_, ?_, ?_⟩
  · intro i h; simp at h; omega
  · simp [sampleRoot, Syn.Fits, Forms.Fits, Brs.Fits, Fb.Fits, Head.Fits, Ref.Fits, argsFit, Brs.within, u32]
    exact ⟨3, by omega⟩
  · simp [sampleGlobals, Form.Fits, Syn.Fits, Brs.Fits, Fb.Fits, Head.Fits, Ref.Fits, Brs.within, u32]

theorem len_globals (e : Enc K) (fusible : Nat → Bool) (i : Nat) (fs : List (Form K)) :
    (e.globals fusible i fs).1.code.length ≤ e.code.length + (fs.map fun f => f.body.bytes + 22).sum := by
  induction fs generalizing e i with
  | nil => simp [Enc.globals]
  | cons f fs ih =>
    rw [globals_cons]
    have h2 := ih (e.global fusible i f).1 (i + 1)
    have h1 : (e.global fusible i f).1.code.length ≤ e.code.length + (f.body.bytes + 22) := by
      unfold Enc.global; split
      · simp only [Enc.fused, len_u32, len_op, len_atom, len_u8]; omega
      · have := len_node e f.body; omega
    simp only [List.map_cons, List.sum_cons]; omega

/-- A program whose trees are not enormous passes the size check. -/
theorem fits_of_bytes (pn : Nat) (fusible : Nat → Bool) (root : Syn K) (globals : List (Form K))
    (h : ((fixtureTrees pn : List (Syn K)).map Syn.bytes).sum + (globals.map fun f => f.body.bytes + 22).sum + root.bytes
      ≤ u32 - 1) : codeFits (encode pn fusible root globals).1 = true := by
  unfold encode
  generalize (fixtureTrees pn : List (Syn K)) = ts at *
  have h1 := len_nodes (Enc.mk [] [] : Enc K) ts
  generalize (Enc.mk [] [] : Enc K).nodes ts = a at *
  obtain ⟨e0, fx⟩ := a
  have h2 := len_globals e0 fusible 0 globals
  generalize hb : e0.globals fusible 0 globals = b at *
  obtain ⟨e1, hs⟩ := b
  have h3 := len_node e1 root
  simp only [hb, codeFits, decide_eq_true_eq]
  simp only [List.length_nil] at h1
  dsimp only at h2
  omega

/-- The sample program meets the hypotheses of the theorems above. -/
theorem sample_fits : codeFits (encode 77 (fun i => i = 0) sampleRoot sampleGlobals).1 = true :=
  fits_of_bytes _ _ _ _ (by decide +kernel)

example : ProgIs (encode 77 (fun i => i = 0) sampleRoot sampleGlobals).1 (encode 77 (fun i => i = 0) sampleRoot sampleGlobals).2
    77 (fun i => i = 0) sampleRoot sampleGlobals := encode_means_program _ _ _ _ sample_limits sample_fits

/-- Without overrides, both ways of appending agree. -/
theorem no_overrides (base : Prog K) (root : Syn K) : encodeOverridesAndRoot base [] root = encodeRootOnto base root := rfl

/-- The hypotheses of `overrides_mean_program` are met. -/
example (p : Prog Nat) (entry : Nat) (h : encode 77 (fun i => i = 0) sampleRoot sampleGlobals = (p, entry)) :
    Reads p.code p.consts entry sampleRoot :=
  (overrides_mean_program 77 (fun i => i = 0) sampleRoot sampleGlobals [] sample_limits (by simp) p entry
    ((no_overrides _ _).trans ((append_is_encode _ _ _ _).trans h))
    (by have := sample_fits; rw [h] at this; exact this)).1

example (f g : Form Nat) : overrideFor [(1, f), (2, f), (1, g)] 1 = some g := rfl

/-! ## The limits are real -/

/-- A case whose branches span 256 tags: the length of its table does not fit its byte, the table is read as empty and
what follows is misread, so that no branch is found. -/
theorem span_256_is_lost :
    let t : Syn Nat := .case (.atom (.l 0)) (.cons 0 (.atom (.l 1)) (.cons 255 (.atom (.l 2)) .nil)) .none
    let (e, o) := (Enc.mk [] []).node t
    readNode e.code o = some (.case 0 0 [] none) := by
  have h0 : (Enc.mk [] [] : Enc Nat).node (.atom (.l 0)) = (⟨[1, 0, 0, 0, 0, 0], []⟩, 0) := by rw [Enc.node]; rfl
  have h1 : (Enc.mk [1, 0, 0, 0, 0, 0] [] : Enc Nat).node (.atom (.l 1)) = (⟨[1, 0, 0, 0, 0, 0, 1, 0, 1, 0, 0, 0], []⟩, 6) := by
    rw [Enc.node]; rfl
  have h2 : (Enc.mk [1, 0, 0, 0, 0, 0, 1, 0, 1, 0, 0, 0] [] : Enc Nat).node (.atom (.l 2)) =
      (⟨[1, 0, 0, 0, 0, 0, 1, 0, 1, 0, 0, 0, 1, 0, 2, 0, 0, 0], []⟩, 12) := by rw [Enc.node]; rfl
  simp only [Enc.node.eq_2, Enc.branches, Enc.fallback, h0, h1, h2]
  have h3 (e : Enc Nat) : e.table [(0, 6), (255, 12)] =
    (((e.u8 0).u8 0).u32 6).u32s (List.replicate 254 noBranch ++ [12]) := by
    have hf : fillTable 0 [(0, 6), (255, 12)] (List.replicate 256 noBranch) = 6 :: (List.replicate 254 noBranch ++ [12]) := by
      decide +kernel
    have hu : ((e.u8 0).u8 256).u32s (fillTable 0 [(0, 6), (255, 12)] (List.replicate 256 noBranch)) = e.table [(0, 6), (255, 12)] := by
      rw [Enc.table]
      · rfl
      · simp
    rw [← hu, hf]
    generalize List.replicate 254 noBranch ++ [12] = l
    rw [Enc.u32s]
    rfl
  rw [h3]
  generalize List.replicate 254 noBranch ++ [12] = l
  generalize hE : (((((Enc.op ⟨[1, 0, 0, 0, 0, 0, 1, 0, 1, 0, 0, 0, 1, 0, 2, 0, 0, 0], []⟩ .case).u32 0).u8 0).u8 0).u32 6 : Enc Nat) = E
  have hp : E.code <+: (((E.u32s l).u8 0).code) := ((le_u32s E l).trans (le_u8 _ _)).code
  generalize ((E.u32s l).u8 0).code = c at hp ⊢
  obtain ⟨r, rfl⟩ := hp
  subst hE
  rfl

/-- A call with 256 arguments is read as a call with none. -/
theorem args_256_are_lost {e F : Enc K} (hF : Fin F) (f : Ref K) (hf : f.Fits) (args : List (Ref K))
    (hn : args.length = 256) (hr : ∀ r ∈ args, r.Fits) (eager : Bool) (hle : (e.node (.app f args eager)).1.Le F) :
    ∃ d, readNode F.code (e.node (.app f args eager)).2 = some (.app eager d []) := by
  rw [Enc.node] at *
  have k3 := (le_args _ _).trans hle
  have k2 := (le_ref _ _).trans k3
  have k1 := (le_u8 _ _).trans k2
  have k := (le_op _ _).trans k1
  obtain ⟨a1, a2, a3⟩ := atoms_at hF k hr
  obtain ⟨d, d1, d2⟩ := readRef_at hF k3 hf
  refine ⟨d, ?_⟩
  refine (congrArg (readNode F.code) (here_eq hF k)).trans ?_
  rw [readNode_at k1]
  have hfl : eagerFlag eager < 256 := by cases eager <;> decide
  have h0 : ∀ (e : Enc K), e.u8 256 = e.u8 0 := fun e => rfl
  have k4 := (le_u32s _ _).trans hle
  rw [a3, hn, h0] at k4
  have hargs : readArgs F.code ((((e.atoms args).1.op .app).u8 (eagerFlag eager)).ref f).code.length =
      some ([], (((((e.atoms args).1.op .app).u8 (eagerFlag eager)).ref f).u8 0).code.length) := by
    simp [readArgs, readU8_at k4 (by decide), readU32s]
  simp only [readOperands, readU8_at k2 hfl, d1, hargs, Option.bind_eq_bind, Option.bind_some]
  cases eager <;> rfl

/-- The annotation of a parameterless lambda is written but not used. -/
theorem lambda_zero_is_value (s b : Nat) : (headerFor (.lambda 0 s) b).head = .value := rfl

end Verif.Bc
