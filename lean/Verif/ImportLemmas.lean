import Verif.ImportModel

/-!
# Imports: lemmas
-/

namespace Verif.Import

/-! ## Specification: paths -/

/-- One or more steps. -/
inductive Trans {α : Type} (R : α → α → Prop) : α → α → Prop
  | one {a b} : R a b → Trans R a b
  | cons {a b c} : R a b → Trans R b c → Trans R a c

theorem Trans.trans {α} {R : α → α → Prop} {a b c : α} (h : Trans R a b) (h' : Trans R b c) :
    Trans R a c := by
  induction h with
  | one h => exact .cons h h'
  | cons h _ ih => exact .cons h (ih h')

theorem Trans.mono {α} {R S : α → α → Prop} (hs : ∀ a b, R a b → S a b) {a b : α}
    (h : Trans R a b) : Trans S a b := by
  induction h with
  | one h => exact .one (hs _ _ h)
  | cons h _ ih => exact .cons (hs _ _ h) ih

theorem Trans.first {α} {R : α → α → Prop} {a b : α} (h : Trans R a b) : ∃ c, R a c := by
  cases h with
  | one h => exact ⟨_, h⟩
  | cons h _ => exact ⟨_, h⟩

theorem Trans.last {α} {R : α → α → Prop} {a b : α} (h : Trans R a b) : ∃ c, R c b := by
  induction h with
  | one h => exact ⟨_, h⟩
  | cons _ _ ih => exact ih

/-- The edge relation. -/
def E (es : Edges) (a b : Nat) : Prop := (a, b) ∈ es

/-- No node reaches itself. -/
def Acyclic (es : Edges) : Prop := ∀ v, ¬ Trans (E es) v v

theorem mem_succs {es : Edges} {v w : Nat} : w ∈ succs es v ↔ E es v w := by
  simp only [succs, List.mem_map, List.mem_filter, List.mem_reverse, decide_eq_true_eq, E]
  constructor
  · rintro ⟨⟨a, b⟩, ⟨h1, h2⟩, h3⟩; dsimp only at h2 h3; subst h2; subst h3; exact h1
  · intro h; exact ⟨(v, w), ⟨h, rfl⟩, rfl⟩

theorem mem_preds {es : Edges} {v w : Nat} : w ∈ preds es v ↔ E es w v := by
  simp only [preds, List.mem_map, List.mem_filter, List.mem_reverse, decide_eq_true_eq, E]
  constructor
  · rintro ⟨⟨a, b⟩, ⟨h1, h2⟩, h3⟩; dsimp only at h2 h3; subst h2; subst h3; exact h1
  · intro h; exact ⟨(w, v), ⟨h, rfl⟩, rfl⟩

theorem succs_length (es : Edges) (v : Nat) : (succs es v).length ≤ es.length := by
  simp only [succs, List.length_map]
  exact Nat.le_trans (List.length_filter_le _ _) (by simp)

theorem preds_length (es : Edges) (v : Nat) : (preds es v).length ≤ es.length := by
  simp only [preds, List.length_map]
  exact Nat.le_trans (List.length_filter_le _ _) (by simp)

/-- All ends of edges are nodes. -/
def InRange (n : Nat) (es : Edges) : Prop := ∀ a b, (a, b) ∈ es → a < n ∧ b < n

theorem nodup_subset_length {α} [DecidableEq α] : ∀ {l m : List α}, l.Nodup → (∀ x ∈ l, x ∈ m) →
    l.length ≤ m.length
  | [], _, _, _ => by simp
  | a :: l, m, hd, hs => by
    have h1 := List.nodup_cons.1 hd
    have h2 : l.length ≤ (m.erase a).length := by
      refine nodup_subset_length h1.2 fun x hx => ?_
      have hxa : x ≠ a := by rintro rfl; exact h1.1 hx
      exact (List.mem_erase_of_ne hxa).2 (hs x (by simp [hx]))
    have h3 : a ∈ m := hs a (by simp)
    have h4 := List.length_erase_of_mem h3
    have h5 := List.length_pos_of_mem h3
    simp only [List.length_cons]
    omega

theorem nodup_length_le {n : Nat} {l : List Nat} (hd : l.Nodup) (hr : ∀ x ∈ l, x < n) :
    l.length ≤ n := by
  simpa using nodup_subset_length (m := List.range n) hd fun x hx => List.mem_range.2 (hr x hx)

/-! ## The first search -/

theorem pushAll_spec {disc : List Nat} {nx : Nat} : ∀ {ss stack st' : List Nat},
    pushAll disc nx ss stack = some st' →
    nx ∉ ss ∧ ∃ ps, st' = ps ++ stack ∧ (∀ p ∈ ps, p ∈ ss ∧ p ∉ disc) ∧
      (∀ s ∈ ss, s ∈ disc ∨ s ∈ ps) ∧ ps.length ≤ ss.length
  | [], stack, st', h => by cases h; exact ⟨by simp, [], by simp⟩
  | s :: ss, stack, st', h => by
    rw [pushAll] at h
    by_cases h1 : s = nx
    · rw [if_pos h1] at h; cases h
    · rw [if_neg h1] at h
      by_cases h2 : s ∈ disc
      · rw [if_pos h2] at h
        obtain ⟨a, ps, b, c, d, e⟩ := pushAll_spec h
        refine ⟨by simp [Ne.symm h1, a], ps, b, fun p hp => ⟨by simp [(c p hp).1], (c p hp).2⟩, ?_, ?_⟩
        · intro x hx
          rcases List.mem_cons.1 hx with rfl | hx
          · exact .inl h2
          · exact d x hx
        · simp only [List.length_cons]; omega
      · rw [if_neg h2] at h
        obtain ⟨a, ps, b, c, d, e⟩ := pushAll_spec h
        refine ⟨by simp [Ne.symm h1, a], ps ++ [s], by simp [b], ?_, ?_, ?_⟩
        · intro p hp
          rcases List.mem_append.1 hp with hp | hp
          · exact ⟨by simp [(c p hp).1], (c p hp).2⟩
          · simp only [List.mem_singleton] at hp; subst hp; exact ⟨by simp, h2⟩
        · intro x hx
          rcases List.mem_cons.1 hx with rfl | hx
          · exact .inr (by simp)
          · rcases d x hx with h | h
            · exact .inl h
            · exact .inr (by simp [h])
        · simp only [List.length_cons, List.length_append, List.length_nil]; omega

theorem pushAll_none {disc : List Nat} {nx : Nat} : ∀ {ss stack : List Nat},
    pushAll disc nx ss stack = none → nx ∈ ss
  | [], stack, h => by cases h
  | s :: ss, stack, h => by
    rw [pushAll] at h
    by_cases h1 : s = nx
    · simp [h1]
    · rw [if_neg h1] at h
      split at h
      · simp [pushAll_none h]
      · simp [pushAll_none h]

/-- The entries above the topmost occurrence of `g`. -/
def above (g : Nat) (stack : List Nat) : List Nat := stack.takeWhile fun x => x ≠ g

theorem above_cons_self (g : Nat) (s : List Nat) : above g (g :: s) = [] := by simp [above]
theorem above_cons_ne {g x : Nat} (h : x ≠ g) (s : List Nat) :
    above g (x :: s) = x :: above g s := by simp [above, h]
theorem above_append {g : Nat} {ps s : List Nat} (h : g ∉ ps) : above g (ps ++ s) = ps ++ above g s := by
  simp only [above]
  rw [List.takeWhile_append_of_pos]
  intro x hx
  simp only [ne_eq, decide_not, Bool.not_eq_eq_eq_not, Bool.not_true, decide_eq_false_iff_not]
  rintro rfl
  exact h hx

/-- What holds throughout the first search. -/
structure Inv (n : Nat) (es : Edges) (d : Dfs) : Prop where
  discNodup : d.discovered.Nodup
  finNodup : d.finished.Nodup
  discRange : ∀ x ∈ d.discovered, x < n
  stackRange : ∀ x ∈ d.stack, x < n
  finDisc : ∀ x ∈ d.finished, x ∈ d.discovered
  gray : ∀ x ∈ d.discovered, x ∉ d.finished → x ∈ d.stack
  noLoop : ∀ x ∈ d.discovered, ¬ E es x x

/-- What holds besides if there is no cycle. -/
structure Acy (es : Edges) (d : Dfs) : Prop where
  path : ∀ g ∈ d.stack, g ∈ d.discovered → g ∉ d.finished →
    (∀ x ∈ above g d.stack, Trans (E es) g x) ∧
    (∀ w, E es g w → w ∈ d.finished ∨ w ∈ above g d.stack)
  order : ∀ a v b, d.finished = a ++ v :: b → ∀ w, E es v w → w ∈ b

/-- Steps left. -/
def potential (n : Nat) (es : Edges) (d : Dfs) : Nat :=
  d.stack.length + (n - d.discovered.length) * (es.length + 1)

theorem inv_pop {n : Nat} {es : Edges} {nx : Nat} {rest disc fin : List Nat}
    (h : Inv n es ⟨nx :: rest, disc, fin⟩) (hd : nx ∈ disc) :
    Inv n es ⟨rest, disc, if nx ∈ fin then fin else nx :: fin⟩ := by
  obtain ⟨a, b, c, d, e, f, g⟩ := h
  by_cases hf : nx ∈ fin
  · rw [if_pos hf]
    refine ⟨a, b, c, fun x hx => d x (by simp [hx]), e, ?_, g⟩
    intro x hx hx'
    rcases List.mem_cons.1 (f x hx hx') with rfl | h
    · exact absurd hf hx'
    · exact h
  · rw [if_neg hf]
    refine ⟨a, List.nodup_cons.2 ⟨hf, b⟩, c, fun x hx => d x (by simp [hx]), ?_, ?_, g⟩
    · intro x hx
      rcases List.mem_cons.1 hx with rfl | hx
      · exact hd
      · exact e x hx
    · intro x hx hx'
      simp only [List.mem_cons, not_or] at hx'
      rcases List.mem_cons.1 (f x hx hx'.2) with h | h
      · exact absurd h hx'.1
      · exact h

theorem acy_pop {es : Edges} {nx : Nat} {rest disc fin : List Nat}
    (h : Acy es ⟨nx :: rest, disc, fin⟩) (hd : nx ∈ disc) :
    Acy es ⟨rest, disc, if nx ∈ fin then fin else nx :: fin⟩ := by
  obtain ⟨hp, ho⟩ := h
  constructor
  · intro g hg hgd hgf
    dsimp only at hg hgd hgf ⊢
    have hne : nx ≠ g := by
      rintro rfl
      split at hgf
      · exact hgf ‹_›
      · exact hgf (by simp)
    have hgf' : g ∉ fin := by
      split at hgf
      · exact hgf
      · simp only [List.mem_cons, not_or] at hgf; exact hgf.2
    have := hp g (by simp [hg]) hgd hgf'
    dsimp only at this
    rw [above_cons_ne hne] at this
    refine ⟨fun x hx => this.1 x (by simp [hx]), fun w hw => ?_⟩
    rcases this.2 w hw with h | h
    · left; split
      · exact h
      · simp [h]
    · rcases List.mem_cons.1 h with rfl | h
      · left; split
        · assumption
        · simp
      · exact .inr h
  · dsimp only at ho ⊢
    by_cases hf : nx ∈ fin
    · rw [if_pos hf]; exact ho
    · rw [if_neg hf]
      intro a v b he w hw
      cases a with
      | nil =>
        simp only [List.nil_append, List.cons.injEq] at he
        obtain ⟨rfl, rfl⟩ := he
        have := (hp nx (by simp) hd hf).2 w hw
        dsimp only at this
        rw [above_cons_self] at this
        simpa using this
      | cons x a =>
        simp only [List.cons_append, List.cons.injEq] at he
        exact ho a v b he.2 w hw

theorem inv_push {n : Nat} {es : Edges} (hr : InRange n es) {nx : Nat} {rest disc fin stack : List Nat}
    (h : Inv n es ⟨nx :: rest, disc, fin⟩) (hd : nx ∉ disc)
    (hp : pushAll (nx :: disc) nx (succs es nx) (nx :: rest) = some stack) :
    Inv n es ⟨stack, nx :: disc, fin⟩ := by
  obtain ⟨a, b, c, d, e, f, g⟩ := h
  obtain ⟨p1, ps, rfl, p2, p3, p4⟩ := pushAll_spec hp
  refine ⟨List.nodup_cons.2 ⟨hd, a⟩, b, ?_, ?_, fun x hx => by simp [e x hx], ?_, ?_⟩
  · intro x hx
    rcases List.mem_cons.1 hx with rfl | hx
    · exact d x (by simp)
    · exact c x hx
  · intro x hx
    rcases List.mem_append.1 hx with hx | hx
    · exact (hr nx x (mem_succs.1 (p2 x hx).1)).2
    · exact d x hx
  · intro x hx hx'
    rcases List.mem_cons.1 hx with rfl | hx
    · simp
    · have := f x hx hx'
      exact List.mem_append.2 (.inr this)
  · intro x hx
    rcases List.mem_cons.1 hx with rfl | hx
    · exact fun h => p1 (mem_succs.2 h)
    · exact g x hx

theorem acy_push {n : Nat} {es : Edges} (hac : Acyclic es) {nx : Nat}
    {rest disc fin stack : List Nat} (hi : Inv n es ⟨nx :: rest, disc, fin⟩)
    (h : Acy es ⟨nx :: rest, disc, fin⟩) (hd : nx ∉ disc)
    (hp : pushAll (nx :: disc) nx (succs es nx) (nx :: rest) = some stack) :
    Acy es ⟨stack, nx :: disc, fin⟩ := by
  obtain ⟨p1, ps, rfl, p2, p3, p4⟩ := pushAll_spec hp
  refine ⟨?_, h.order⟩
  intro g hg hgd hgf
  dsimp only at hg hgd hgf ⊢
  have hgp : g ∉ ps := fun hh => (p2 g hh).2 hgd
  rw [above_append hgp]
  by_cases hgn : g = nx
  · subst hgn
    rw [above_cons_self, List.append_nil]
    refine ⟨fun x hx => .one (mem_succs.1 (p2 x hx).1), fun w hw => ?_⟩
    rcases p3 w (mem_succs.2 hw) with hh | hh
    · left
      rcases List.mem_cons.1 hh with rfl | hh
      · exact absurd (mem_succs.2 hw) p1
      · refine Classical.byContradiction fun hwf => ?_
        have hws := hi.gray w hh hwf
        have hwn : g ≠ w := by rintro rfl; exact hd hh
        have := (h.path w hws hh hwf).1 g (by dsimp only; rw [above_cons_ne hwn]; simp)
        exact hac w (this.trans (.one hw))
    · exact .inr hh
  · have hgd' : g ∈ disc := by
      rcases List.mem_cons.1 hgd with h | h
      · exact absurd h hgn
      · exact h
    have hgs : g ∈ nx :: rest := by
      rcases List.mem_append.1 hg with h | h
      · exact absurd h hgp
      · exact h
    obtain ⟨q1, q2⟩ := h.path g hgs hgd' hgf
    dsimp only at q1 q2
    have hnx : nx ∈ above g (nx :: rest) := by rw [above_cons_ne (Ne.symm hgn)]; simp
    refine ⟨fun x hx => ?_, fun w hw => ?_⟩
    · rcases List.mem_append.1 hx with hx | hx
      · exact (q1 nx hnx).trans (.one (mem_succs.1 (p2 x hx).1))
      · exact q1 x hx
    · rcases q2 w hw with hh | hh
      · exact .inl hh
      · exact .inr (List.mem_append.2 (.inr hh))

theorem walk_spec {n : Nat} {es : Edges} (hr : InRange n es) : ∀ (k : Nat) (d : Dfs),
    Inv n es d → potential n es d < k →
    (∃ d', walk es k d = .ok d' ∧ Inv n es d' ∧ d'.stack = [] ∧
      (∀ x ∈ d.discovered, x ∈ d'.discovered) ∧ (∀ x ∈ d.stack, x ∈ d'.discovered) ∧
      (Acyclic es → Acy es d → Acy es d')) ∨
    (∃ v, walk es k d = .cycle v ∧ E es v v)
  | 0, d, _, hk => by omega
  | k + 1, ⟨stack, disc, fin⟩, hi, hk => by
    rw [walk]
    dsimp only
    cases stack with
    | nil => exact .inl ⟨_, rfl, hi, rfl, fun x hx => hx, by simp, fun _ h => h⟩
    | cons nx rest =>
      dsimp only
      by_cases hd : nx ∈ disc
      · rw [if_pos hd]
        have := walk_spec hr k ⟨rest, disc, if nx ∈ fin then fin else nx :: fin⟩ (inv_pop hi hd)
          (by simp only [potential, List.length_cons] at hk ⊢; omega)
        rcases this with ⟨d', h1, h2, h3, h4, h5, h6⟩ | h
        · refine .inl ⟨d', h1, h2, h3, h4, ?_, fun ha hb => h6 ha (acy_pop hb hd)⟩
          intro x hx
          rcases List.mem_cons.1 hx with rfl | hx
          · exact h4 _ hd
          · exact h5 x hx
        · exact .inr h
      · rw [if_neg hd]
        cases hp : pushAll (nx :: disc) nx (succs es nx) (nx :: rest) with
        | none => exact .inr ⟨nx, rfl, mem_succs.1 (pushAll_none hp)⟩
        | some st =>
          dsimp only
          have hi' := inv_push hr hi hd hp
          obtain ⟨p1, ps, hps, p2, p3, p4⟩ := pushAll_spec hp
          have hpot : potential n es ⟨st, nx :: disc, fin⟩ < k := by
            have h1 := succs_length es nx
            have h2 := nodup_length_le hi'.discNodup hi'.discRange
            simp only [potential, hps, List.length_cons, List.length_append] at hk h2 ⊢
            have h3 : (n - disc.length) * (es.length + 1)
                = (n - (disc.length + 1)) * (es.length + 1) + (es.length + 1) := by
              rw [← Nat.succ_mul]; congr 1; omega
            omega
          rcases walk_spec hr k ⟨st, nx :: disc, fin⟩ hi' hpot with ⟨d', h1, h2, h3, h4, h5, h6⟩ | h
          · refine .inl ⟨d', h1, h2, h3, fun x hx => h4 x (by simp [hx]), ?_,
              fun ha hb => h6 ha (acy_push (n := n) ha hi hb hd hp)⟩
            intro x hx
            rcases List.mem_cons.1 hx with rfl | hx
            · exact h4 _ (by simp)
            · exact h5 x (by dsimp only; rw [hps]; simp [hx])
          · exact .inr h

theorem walkFrom_spec {n : Nat} {es : Edges} (hr : InRange n es) : ∀ (is : List Nat) (d : Dfs),
    (∀ i ∈ is, i < n) → Inv n es d → d.stack = [] →
    (∃ d', walkFrom es (bound n es) is d = .ok d' ∧ Inv n es d' ∧ d'.stack = [] ∧
      (∀ x ∈ d.discovered, x ∈ d'.discovered) ∧ (∀ i ∈ is, i ∈ d'.discovered) ∧
      (Acyclic es → Acy es d → Acy es d')) ∨
    (∃ v, walkFrom es (bound n es) is d = .cycle v ∧ E es v v)
  | [], d, _, hi, hs => .inl ⟨d, rfl, hi, hs, fun x hx => hx, by simp, fun _ h => h⟩
  | i :: is, d, hn, hi, hs => by
    rw [walkFrom]
    by_cases hd : i ∈ d.discovered
    · rw [if_pos hd]
      rcases walkFrom_spec hr is d (fun j hj => hn j (by simp [hj])) hi hs with
        ⟨d', h1, h2, h3, h4, h5, h6⟩ | h
      · refine .inl ⟨d', h1, h2, h3, h4, ?_, h6⟩
        intro j hj
        rcases List.mem_cons.1 hj with rfl | hj
        · exact h4 _ hd
        · exact h5 j hj
      · exact .inr h
    · rw [if_neg hd]
      have hi' : Inv n es { d with stack := i :: d.stack } := by
        obtain ⟨a, b, c, e, f, g, h⟩ := hi
        refine ⟨a, b, c, ?_, f, fun x hx hx' => by simp [g x hx hx'], h⟩
        intro x hx
        rcases List.mem_cons.1 hx with rfl | hx
        · exact hn _ (by simp)
        · exact e x hx
      have hpot : potential n es { d with stack := i :: d.stack } < bound n es := by
        simp only [potential, bound, hs, List.length_cons, List.length_nil]
        have : (n - d.discovered.length) * (es.length + 1) ≤ n * (es.length + 1) :=
          Nat.mul_le_mul_right _ (by omega)
        have h2 : (n + 1) * (es.length + 1) = n * (es.length + 1) + (es.length + 1) := Nat.succ_mul _ _
        omega
      have hac : Acy es d → Acy es { d with stack := i :: d.stack } := by
        intro h
        refine ⟨?_, h.order⟩
        intro g hg hgd hgf
        exfalso
        have := hi.gray g hgd hgf
        rw [hs] at this
        simp at this
      rcases walk_spec hr _ _ hi' hpot with ⟨d1, h1, h2, h3, h4, h5, h6⟩ | ⟨v, h1, h2⟩
      · rw [h1]
        dsimp only
        rcases walkFrom_spec hr is d1 (fun j hj => hn j (by simp [hj])) h2 h3 with
          ⟨d', k1, k2, k3, k4, k5, k6⟩ | h
        · refine .inl ⟨d', k1, k2, k3, fun x hx => k4 x (h4 x hx), ?_, fun ha hb => k6 ha (h6 ha (hac hb))⟩
          intro j hj
          rcases List.mem_cons.1 hj with rfl | hj
          · exact k4 _ (h5 _ (by simp))
          · exact k5 j hj
        · exact .inr h
      · rw [h1]; exact .inr ⟨v, rfl, h2⟩

/-! ## The second search -/

/-- `order` so far, all of whose predecessors are earlier. -/
def sweepPush (disc : List Nat) (ps rest : List Nat) : List Nat :=
  ps.foldl (fun st p => if p ∈ disc then st else p :: st) rest

theorem sweepPush_spec (disc : List Nat) : ∀ (ps rest : List Nat),
    ∃ qs, sweepPush disc ps rest = qs ++ rest ∧ (∀ q, q ∈ qs ↔ q ∈ ps ∧ q ∉ disc)
  | [], rest => ⟨[], rfl, by simp⟩
  | p :: ps, rest => by
    simp only [sweepPush, List.foldl_cons]
    by_cases hp : p ∈ disc
    · rw [if_pos hp]
      obtain ⟨qs, h1, h2⟩ := sweepPush_spec disc ps rest
      refine ⟨qs, h1, fun q => ?_⟩
      rw [h2]
      simp only [List.mem_cons]
      constructor
      · rintro ⟨a, b⟩; exact ⟨.inr a, b⟩
      · rintro ⟨a | a, b⟩
        · subst a; exact absurd hp b
        · exact ⟨a, b⟩
    · rw [if_neg hp]
      obtain ⟨qs, h1, h2⟩ := sweepPush_spec disc ps (p :: rest)
      refine ⟨qs ++ [p], by rw [← sweepPush, h1]; simp, fun q => ?_⟩
      simp only [List.mem_append, h2, List.mem_cons, List.not_mem_nil, or_false]
      constructor
      · rintro (⟨a, b⟩ | a)
        · exact ⟨.inr a, b⟩
        · subst a; exact ⟨.inl rfl, hp⟩
      · rintro ⟨a | a, b⟩
        · exact .inr a
        · exact .inl ⟨a, b⟩

/-- A second search from one new node: fine if all its predecessors are known,
else an error. -/
theorem sweep_new (es : Edges) (k : Nat) (i : Nat) (disc : List Nat) (hi : i ∉ disc) :
    ((∀ p, E es p i → p ∈ i :: disc) ∧ sweep es (k + 3) false [i] disc = .ok (i :: disc)) ∨
    ((¬ ∀ p, E es p i → p ∈ i :: disc) ∧ ∃ v, sweep es (k + 3) false [i] disc = .cycle v) := by
  obtain ⟨qs, h1, h2⟩ := sweepPush_spec (i :: disc) (preds es i) []
  have hs : sweep es (k + 3) false [i] disc = sweep es (k + 2) true qs (i :: disc) := by
    rw [sweep]
    rw [if_neg hi, if_neg (by simp)]
    rw [List.append_nil] at h1
    rw [← h1]
    rfl
  rw [hs]
  cases qs with
  | nil =>
    left
    refine ⟨fun p hp => ?_, rfl⟩
    refine Classical.byContradiction fun hn => ?_
    have := (h2 p).2 ⟨mem_preds.2 hp, hn⟩
    simp at this
  | cons q qs =>
    right
    obtain ⟨a, b⟩ := (h2 q).1 (by simp)
    refine ⟨fun h => b (h q (mem_preds.1 a)), q, ?_⟩
    rw [sweep]
    rw [if_neg b, if_pos rfl]

theorem bound_eq (n : Nat) (es : Edges) : ∃ k, bound n es = k + 3 := by
  refine ⟨(n + 1) * (es.length + 1) - 1, ?_⟩
  have : 0 < (n + 1) * (es.length + 1) := Nat.mul_pos (by omega) (by omega)
  simp only [bound]
  omega

theorem sweepAll_spec {n : Nat} (es : Edges) : ∀ (is disc : List Nat),
    (disc.reverse ++ is).Nodup →
    ((∀ a v b, is = a ++ v :: b → ∀ p, E es p v → p = v ∨ p ∈ a ∨ p ∈ disc) ∧
      sweepAll es (bound n es) is disc = .ok ()) ∨
    ((¬ ∀ a v b, is = a ++ v :: b → ∀ p, E es p v → p = v ∨ p ∈ a ∨ p ∈ disc) ∧
      ∃ v, sweepAll es (bound n es) is disc = .cycle v)
  | [], disc, _ => .inl ⟨by intro a v b h; simp at h, rfl⟩
  | i :: is, disc, hd => by
    have hi : i ∉ disc := by
      rw [List.nodup_append] at hd
      intro h
      exact hd.2.2 i (by simp [h]) i (by simp) rfl
    obtain ⟨k, hk⟩ := bound_eq n es
    rw [sweepAll]
    rcases sweep_new es k i disc hi with ⟨h1, h2⟩ | ⟨h1, v, h2⟩
    · rw [← hk] at h2
      rw [h2]
      dsimp only
      have ih := sweepAll_spec (n := n) es is (i :: disc) (by simpa [List.append_assoc] using hd)
      have key : (∀ a v b, i :: is = a ++ v :: b → ∀ p, E es p v → p = v ∨ p ∈ a ∨ p ∈ disc) ↔
          ∀ a v b, is = a ++ v :: b → ∀ p, E es p v → p = v ∨ p ∈ a ∨ p ∈ i :: disc := by
        constructor
        · intro h a v b he p hp
          rcases h (i :: a) v b (by rw [he]; rfl) p hp with h | h | h
          · exact .inl h
          · rcases List.mem_cons.1 h with h | h
            · exact .inr (.inr (by simp [h]))
            · exact .inr (.inl h)
          · exact .inr (.inr (by simp [h]))
        · intro h a v b he p hp
          cases a with
          | nil =>
            simp only [List.nil_append, List.cons.injEq] at he
            obtain ⟨rfl, rfl⟩ := he
            rcases List.mem_cons.1 (h1 p hp) with h | h
            · exact .inl h
            · exact .inr (.inr h)
          | cons x a =>
            simp only [List.cons_append, List.cons.injEq] at he
            obtain ⟨rfl, he⟩ := he
            rcases h a v b he p hp with h | h | h
            · exact .inl h
            · exact .inr (.inl (by simp [h]))
            · rcases List.mem_cons.1 h with h | h
              · exact .inr (.inl (by simp [h]))
              · exact .inr (.inr h)
      rw [key]
      exact ih
    · rw [← hk] at h2
      rw [h2]
      right
      refine ⟨fun h => h1 fun p hp => ?_, v, rfl⟩
      rcases h [] i is rfl p hp with h | h | h
      · simp [h]
      · simp at h
      · simp [h]

/-! ## Both -/

theorem topo_acyclic {es : Edges} {order : List Nat}
    (hall : ∀ a b, E es a b → b ∈ order) (hl : ∀ v, ¬ E es v v)
    (h : ∀ a v b, order = a ++ v :: b → ∀ p, E es p v → p = v ∨ p ∈ a) (hn : order.Nodup) :
    Acyclic es := by
  -- the position in the order strictly increases along edges
  have hidx : ∀ u v, E es u v → order.idxOf u < order.idxOf v := by
    intro u v he
    have hv := hall u v he
    obtain ⟨a, b, hab⟩ := List.append_of_mem hv
    have hva : v ∉ a := by
      rw [hab, List.nodup_append] at hn
      intro hh
      exact hn.2.2 v hh v (by simp) rfl
    have hu : u ∈ a := by
      rcases h a v b hab u he with h' | h'
      · subst h'; exact absurd he (hl u)
      · exact h'
    rw [hab, List.idxOf_append, if_pos hu, List.idxOf_append, if_neg hva, List.idxOf_cons_self]
    exact Nat.lt_of_lt_of_le (List.idxOf_lt_length_of_mem hu) (by omega)
  intro v hv
  have : ∀ a b, Trans (E es) a b → order.idxOf a < order.idxOf b := by
    intro a b hab
    induction hab with
    | one h => exact hidx _ _ h
    | cons h _ ih => exact Nat.lt_trans (hidx _ _ h) ih
  exact absurd (this v v hv) (by omega)

/-- `toposort` either lists all nodes, each before those it points at, or reports
a cycle; it never does either wrongly. -/
theorem toposort_correct {n : Nat} {es : Edges} (hr : InRange n es) :
    (Acyclic es ∧ ∃ order, toposort n es = .ok order ∧ order.Nodup ∧ (∀ v, v ∈ order ↔ v < n) ∧
      ∀ a v b, order = a ++ v :: b → ∀ w, E es v w → w ∈ b) ∨
    (¬ Acyclic es ∧ ∃ v, toposort n es = .cycle v) := by
  have h0 : Inv n es ⟨[], [], []⟩ :=
    ⟨.nil, .nil, by simp, by simp, by simp, by simp, by simp⟩
  have ha0 : Acy es ⟨[], [], []⟩ := ⟨by simp, by intro a v b h; simp at h⟩
  rw [toposort]
  rcases walkFrom_spec hr (List.range n) ⟨[], [], []⟩ (by simp) h0 rfl with
    ⟨d, h1, h2, h3, h4, h5, h6⟩ | ⟨v, h1, h2⟩
  · rw [h1]
    dsimp only
    have hfin : ∀ v, v ∈ d.finished ↔ v < n := by
      intro v
      constructor
      · exact fun h => h2.discRange v (h2.finDisc v h)
      · intro h
        refine Classical.byContradiction fun hn => ?_
        have := h2.gray v (h5 v (by simp [h])) hn
        rw [h3] at this
        simp at this
    have hloop : ∀ v, ¬ E es v v := fun v hv =>
      h2.noLoop v (h5 v (by simp [(hr v v hv).1])) hv
    rcases sweepAll_spec (n := n) es d.finished [] (by simpa using h2.finNodup) with
      ⟨k1, k2⟩ | ⟨k1, v, k2⟩
    · left
      have hac : Acyclic es := by
        refine topo_acyclic (order := d.finished) (fun a b hab => (hfin b).2 (hr a b hab).2) hloop ?_
          h2.finNodup
        intro a v b he p hp
        rcases k1 a v b he p hp with h | h | h
        · exact .inl h
        · exact .inr h
        · simp at h
      exact ⟨hac, d.finished, by rw [k2], h2.finNodup, hfin, (h6 hac ha0).order⟩
    · right
      refine ⟨fun hac => k1 ?_, v, by rw [k2]⟩
      have ho := (h6 hac ha0).order
      intro a v b he p hp
      have hpm : p ∈ a ++ v :: b := by rw [← he]; exact (hfin p).2 (hr p v hp).1
      rcases List.mem_append.1 hpm with h | h
      · exact .inr (.inl h)
      · rcases List.mem_cons.1 h with h | h
        · exact .inl h
        · exfalso
          obtain ⟨b1, b2, hb⟩ := List.append_of_mem h
          have := ho (a ++ v :: b1) p b2 (by rw [he, hb]; simp) v hp
          have hnd := h2.finNodup
          rw [he, hb, List.nodup_append] at hnd
          have := (List.nodup_cons.1 hnd.2.1).1
          simp_all
  · right
    exact ⟨fun hac => hac v (.one h2), v, by rw [h1]⟩

/-! ## Breadth first -/

theorem enqueue_spec : ∀ (ss queue disc : List Nat), disc.Nodup →
    ∃ qs, enqueue ss queue disc = (queue ++ qs, qs.reverse ++ disc) ∧
      (∀ q, q ∈ qs → q ∈ ss ∧ q ∉ disc) ∧ (∀ s ∈ ss, s ∈ qs ∨ s ∈ disc) ∧
      (qs.reverse ++ disc).Nodup
  | [], queue, disc, h => ⟨[], by simp [enqueue], by simp, by simp, by simpa using h⟩
  | s :: ss, queue, disc, h => by
    rw [enqueue]
    by_cases hs : s ∈ disc
    · rw [if_pos hs]
      obtain ⟨qs, h1, h2, h3, h4⟩ := enqueue_spec ss queue disc h
      refine ⟨qs, h1, fun q hq => ⟨by simp [(h2 q hq).1], (h2 q hq).2⟩, ?_, h4⟩
      intro x hx
      rcases List.mem_cons.1 hx with rfl | hx
      · exact .inr hs
      · exact h3 x hx
    · rw [if_neg hs]
      obtain ⟨qs, h1, h2, h3, h4⟩ := enqueue_spec ss (queue ++ [s]) (s :: disc)
        (List.nodup_cons.2 ⟨hs, h⟩)
      refine ⟨s :: qs, by rw [h1]; simp, ?_, ?_, by simpa using h4⟩
      · intro q hq
        rcases List.mem_cons.1 hq with rfl | hq
        · exact ⟨by simp, hs⟩
        · have := h2 q hq
          simp only [List.mem_cons, not_or] at this ⊢
          exact ⟨.inr this.1, this.2.2⟩
      · intro x hx
        rcases List.mem_cons.1 hx with rfl | hx
        · simp
        · rcases h3 x hx with h | h
          · simp [h]
          · rcases List.mem_cons.1 h with rfl | h
            · simp
            · exact .inr h

/-- `out` is what has come out so far. -/
theorem bfs_spec {n : Nat} {es : Edges} (hr : InRange n es) (start : Nat) : ∀ (k : Nat)
    (queue disc out : List Nat), disc.Nodup → (∀ x ∈ disc, x < n) →
    (∀ x, x ∈ disc ↔ x ∈ out ∨ x ∈ queue) → (out ++ queue).Nodup →
    (∀ x ∈ out, ∀ w, E es x w → w ∈ disc) →
    (∀ x ∈ disc, x = start ∨ Trans (E es) start x) →
    queue.length + (n - disc.length) < k →
    ∃ rest, bfs es k queue disc = some rest ∧ (out ++ rest).Nodup ∧
      (∀ x ∈ disc, x ∈ out ++ rest) ∧
      (∀ x ∈ out ++ rest, ∀ w, E es x w → w ∈ out ++ rest) ∧
      (∀ x ∈ out ++ rest, x = start ∨ Trans (E es) start x)
  | 0, _, _, _, _, _, _, _, _, _, hk => by omega
  | k + 1, [], disc, out, _, _, hm, hnd, hcl, hre, _ => by
    refine ⟨[], rfl, by simpa using hnd, ?_, ?_, ?_⟩
    · intro x hx; simpa using (hm x).1 hx
    · intro x hx w hw
      have := hcl x (by simpa using hx) w hw
      simpa using (hm w).1 this
    · intro x hx
      exact hre x ((hm x).2 (.inl (by simpa using hx)))
  | k + 1, v :: rest, disc, out, hd, hlt, hm, hnd, hcl, hre, hk => by
    obtain ⟨qs, h1, h2, h3, h4⟩ := enqueue_spec (succs es v) rest disc hd
    have hvd : v ∈ disc := (hm v).2 (.inr (by simp))
    have hlt' : ∀ x ∈ qs.reverse ++ disc, x < n := by
      intro x hx
      rcases List.mem_append.1 hx with hx | hx
      · exact (hr v x (mem_succs.1 (h2 x (by simpa using hx)).1)).2
      · exact hlt x hx
    have hlen := nodup_length_le h4 hlt'
    have hnd' : ((out ++ [v]) ++ (rest ++ qs)).Nodup := by
      have : (out ++ [v]) ++ (rest ++ qs) = (out ++ v :: rest) ++ qs := by simp
      rw [this, List.nodup_append]
      refine ⟨hnd, ?_, ?_⟩
      · have := (List.nodup_append.1 h4).1
        simpa only [List.Nodup, List.pairwise_reverse, ne_comm] using this
      · intro a ha b hb hab
        subst hab
        exact (h2 a hb).2 ((hm a).2 (List.mem_append.1 ha))
    have hm' : ∀ x, x ∈ qs.reverse ++ disc ↔ x ∈ out ++ [v] ∨ x ∈ rest ++ qs := by
      intro x
      simp only [List.mem_append, List.mem_reverse, hm, List.mem_cons, List.not_mem_nil, or_false]
      grind
    obtain ⟨r, k1, k2, k3, k4, k5⟩ := bfs_spec hr start k (rest ++ qs) (qs.reverse ++ disc) (out ++ [v])
      h4 hlt' hm' hnd'
      (by
        intro x hx w hw
        rcases List.mem_append.1 hx with hx | hx
        · exact List.mem_append.2 (.inr (hcl x hx w hw))
        · simp only [List.mem_singleton] at hx
          subst hx
          rcases h3 w (mem_succs.2 hw) with h | h
          · simp [h]
          · simp [h])
      (by
        intro x hx
        rcases List.mem_append.1 hx with hx | hx
        · have hvx := mem_succs.1 (h2 x (by simpa using hx)).1
          right
          rcases hre v hvd with h | h
          · rw [← h]; exact .one hvx
          · exact h.trans (.one hvx)
        · exact hre x hx)
      (by
        simp only [List.length_append, List.length_reverse, List.length_cons] at hk hlen ⊢
        omega)
    refine ⟨v :: r, ?_, ?_, ?_, ?_, ?_⟩
    · rw [bfs]; simp only [h1, k1]
    · simpa using k2
    · intro x hx; simpa using k3 x (by simp [hx])
    · intro x hx w hw; simpa using k4 x (by simpa using hx) w hw
    · intro x hx; exact k5 x (by simpa using hx)

/-- What comes out of a breadth-first search: the start and all it reaches, once each. -/
theorem bfs_correct {n : Nat} {es : Edges} (hr : InRange n es) (start : Nat) (hs : start < n) :
    ∃ out, bfs es (n + 1) [start] [start] = some out ∧ out.Nodup ∧
      ∀ x, x ∈ out ↔ x = start ∨ Trans (E es) start x := by
  obtain ⟨out, h1, h2, h3, h4, h5⟩ := bfs_spec hr start (n + 1) [start] [start] []
    (by simp) (by simpa using hs) (by simp) (by simp) (by simp) (by simp) (by simp; omega)
  simp only [List.nil_append] at h2 h3 h4 h5
  refine ⟨out, h1, h2, fun x => ⟨h5 x, ?_⟩⟩
  have hst := h3 start (by simp)
  rintro (h | h)
  · rw [h]; exact hst
  · have : ∀ a y, Trans (E es) a y → a ∈ out → y ∈ out := by
      intro a y ha
      induction ha with
      | one e => exact fun hm => h4 _ hm _ e
      | cons e _ ih => exact fun hm => ih (h4 _ hm _ e)
    exact this start x h hst

end Verif.Import
