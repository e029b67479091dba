import Verif.ShuntLemmas

/-! Uniqueness of the grouped reading, by running an idealised machine over its yield. -/

namespace Verif.Shunt

/-- One step of a shunting yard that never reduces before a prefix operator. -/
def feedTok (st : St) : Tok → St
  | .val v => { st with output := .leaf (.val v) :: st.output }
  | .op o => if o.fixity = .prefix then { st with ops := o :: st.ops } else seatOp o st.ops st

inductive Spread : Tree → List Op → List Tree → List Op → List Tree → Prop
  | leaf {t ops outs} : Spread (.leaf t) ops outs ops (.leaf t :: outs)
  | postPend {q x ops outs} : q.fixity = .postfix → Spread (.app1 q x) ops outs (q :: ops) (x :: outs)
  | postDone {q x ops outs} : q.fixity = .postfix → Spread (.app1 q x) ops outs ops (.app1 q x :: outs)
  | pre {p x ops outs ops' outs'} : p.fixity = .prefix → Spread x (p :: ops) outs ops' outs' →
      Spread (.app1 p x) ops outs ops' outs'
  | inf {o l r ops outs ops' outs'} : o.isInfix → Spread r (o :: ops) (l :: outs) ops' outs' →
      Spread (.app2 o l r) ops outs ops' outs'

theorem Spread.collapse {t ops outs ops' outs'} (h : Spread t ops outs ops' outs') {this : Op}
    (hn : this.fixity ≠ .nullary) (hr : ∀ a ∈ t.rightOpen, takes a this) (i opsx) :
    seatOp this ops' ⟨i, outs', opsx, none⟩ = seatOp this ops ⟨i, t :: outs, opsx, none⟩ := by
  induction h with
  | leaf => rfl
  | postPend hq => rw [seat_reduce hn (by simp [takes, hq]) (by simp [hq]), applyOp_un (Or.inr hq)]
  | postDone hq => rfl
  | pre hp _ ih =>
    simp [Tree.rightOpen, hp] at hr
    rw [ih (fun a ha => hr.2 a ha), seat_reduce hn hr.1 (by simp [hp]), applyOp_un (Or.inl hp)]
  | @inf o _ _ _ _ _ _ hi _ ih =>
    simp [Tree.rightOpen] at hr
    have hnn : o.fixity ≠ .nullary := by rcases hi with h | h <;> simp [h]
    rw [ih (fun a ha => hr.2 a ha), seat_reduce hn hr.1 hnn, applyOp_inf hi]

theorem Spread.clear {t ops outs ops' outs'} (h : Spread t ops outs ops' outs') (i opsx) :
    clearOps ops' ⟨i, outs', opsx, none⟩ = clearOps ops ⟨i, t :: outs, opsx, none⟩ := by
  induction h with
  | leaf => rfl
  | postPend hq => simp only [clearOps]; rw [applyOp_un (Or.inr hq)]
  | postDone hq => rfl
  | pre hp _ ih => rw [ih]; simp only [clearOps]; rw [applyOp_un (Or.inl hp)]
  | inf hi _ ih => rw [ih]; simp only [clearOps]; rw [applyOp_inf hi]

theorem feed_tree : ∀ (t : Tree), t.Grouped → ∀ ops outs i, Fits ops t →
    ∃ ops' outs', Spread t ops outs ops' outs' ∧
      t.yield.foldl feedTok ⟨i, outs, ops, none⟩ = ⟨i, outs', ops', none⟩ := by
  intro t
  induction t with
  | leaf tok =>
    intro hg ops outs i hf
    cases tok with
    | val v => exact ⟨_, _, .leaf, rfl⟩
    | op o =>
      simp [Tree.Grouped] at hg
      refine ⟨_, _, .leaf, ?_⟩
      simp only [Tree.yield, List.foldl, feedTok, hg]
      unfold seatOp; simp [hg, applyOp, Fixity.arity]
  | app1 o x ih =>
    intro hg ops outs i hf
    obtain ⟨hx, h | h⟩ := hg
    · obtain ⟨hq, hr⟩ := h
      have hfx : Fits ops x := fun top ht b hb => hf top ht b (by simp [Tree.leftOpen, hq, hb])
      have hfo : FitsOp ops o := fun top ht => hf top ht o (by simp [Tree.leftOpen, hq])
      obtain ⟨ops1, outs1, hs, hrun⟩ := ih hx ops outs i hfx
      simp only [Tree.yield, hq, if_true, List.foldl_append, hrun, List.foldl, feedTok]
      simp only [reduceCtorEq, if_false]
      rw [hs.collapse (by simp [hq]) hr]
      cases ops with
      | nil => exact ⟨_, _, .postPend hq, by unfold seatOp; simp [hq]⟩
      | cons top ops =>
        have ht := hfo top (by simp)
        by_cases hi : top.isInfix
        · rw [seat_push (by simp [hq]) ht (Or.inr hi)]
          exact ⟨_, _, .postPend hq, rfl⟩
        · have htp : top.fixity = .prefix := by
            unfold takes at ht; unfold Op.isInfix at hi
            cases h : top.fixity <;> simp_all
          rw [seat_post hq ht htp, applyOp_un (Or.inr hq)]
          exact ⟨_, _, .postDone hq, rfl⟩
    · obtain ⟨hp, hl⟩ := h
      obtain ⟨ops1, outs1, hs, hrun⟩ := ih hx (o :: ops) outs i (by
        intro top ht b hb; simp at ht; subst ht; exact hl b hb)
      refine ⟨_, _, .pre hp hs, ?_⟩
      simp only [Tree.yield, hp, reduceCtorEq, if_false, List.foldl, feedTok, if_true]
      exact hrun
  | app2 o l r ihl ihr =>
    intro hg ops outs i hf
    obtain ⟨hgl, hgr, hi, hrl, hlr⟩ := hg
    have hfx : Fits ops l := fun top ht b hb => hf top ht b (by simp [Tree.leftOpen, hb])
    have hfo : FitsOp ops o := fun top ht => hf top ht o (by simp [Tree.leftOpen])
    have hn : o.fixity ≠ .nullary := by rcases hi with h | h <;> simp [h]
    have hnp : o.fixity ≠ .prefix := by rcases hi with h | h <;> simp [h]
    have hnq : o.fixity ≠ .postfix := by rcases hi with h | h <;> simp [h]
    obtain ⟨ops1, outs1, hs, hrun⟩ := ihl hgl ops outs i hfx
    obtain ⟨ops2, outs2, hs2, hrun2⟩ := ihr hgr (o :: ops) (l :: outs) i (by
        intro top ht b hb; simp at ht; subst ht; exact hlr b hb)
    refine ⟨_, _, .inf hi hs2, ?_⟩
    simp only [Tree.yield, List.foldl_append, hrun, List.foldl, feedTok, hnp, if_false]
    rw [hs.collapse hn hrl, ← hrun2]
    congr 1
    cases ops with
    | nil => unfold seatOp; simp [hn]
    | cons top ops => rw [seat_push hn (hfo top (by simp)) (Or.inl hnq)]

theorem grouped_unique_aux {t : Tree} (h : t.Grouped) :
    clearOps (t.yield.foldl feedTok ⟨[], [], [], none⟩).ops (t.yield.foldl feedTok ⟨[], [], [], none⟩)
      = ⟨[], [t], [], none⟩ := by
  obtain ⟨ops', outs', hs, hrun⟩ := feed_tree t h [] [] [] (by simp [Fits])
  rw [hrun, hs.clear]; rfl

theorem Grouped.unique {t u : Tree} (ht : t.Grouped) (hu : u.Grouped) (h : t.yield = u.yield) : t = u := by
  have a := grouped_unique_aux ht
  have b := grouped_unique_aux hu
  rw [h, b] at a
  simp at a; exact a.symm

/-- Every complete expression has a grouped reading (the idealised machine finds it). -/
theorem feed_exists : ∀ (ts : List Tok) (b : Bool) ops outs y,
    completeFrom b ts = true → (if b then AOk ops outs y else EOk ops outs y) →
    ∃ t : Tree, t.yield = y ++ ts ∧ t.Grouped := by
  intro ts
  induction ts with
  | nil =>
    intro b ops outs y hc hi
    cases b <;> simp [completeFrom] at hc
    simp at hi
    obtain ⟨t, _, h2, h3⟩ := clear_AOk hi [] ops
    exact ⟨t, by simpa using h2, h3⟩
  | cons x ts ih =>
    intro b ops outs y hc hi
    suffices h : ∃ b' ops' outs', completeFrom b' ts = true ∧ (if b' then AOk ops' outs' (y ++ [x]) else EOk ops' outs' (y ++ [x])) by
      obtain ⟨b', ops', outs', h1, h2⟩ := h
      obtain ⟨t, h3, h4⟩ := ih b' ops' outs' _ h1 h2
      exact ⟨t, by rw [h3]; simp, h4⟩
    cases x with
    | val v =>
      cases b <;> simp [completeFrom] at hc
      simp at hi
      refine ⟨true, ops, .leaf (.val v) :: outs, hc, ?_⟩
      simp only [if_true]
      exact AOk.plain hi (by simp [Tree.Grouped]) (by simp [Fits, Tree.leftOpen]) (by simp [Tree.rightOpen])
    | op o =>
      cases b with
      | false =>
        simp at hi
        simp only [completeFrom] at hc
        cases hf : o.fixity <;> simp [hf] at hc
        · refine ⟨true, ops, .leaf (.op o) :: outs, hc, ?_⟩
          simp only [if_true]
          exact AOk.plain hi (by simpa [Tree.Grouped] using hf) (by simp [Fits, Tree.leftOpen]) (by simp [Tree.rightOpen])
        · exact ⟨false, o :: ops, outs, hc, by simpa using EOk.pre hf hi⟩
      | true =>
        simp at hi
        simp only [completeFrom] at hc
        have hcase : o.fixity = .postfix ∨ o.isInfix := by
          unfold Op.isInfix
          cases hf : o.fixity <;> simp_all
        rcases hcase with hf | hf
        · simp [hf] at hc
          obtain ⟨ops1, outs1, y1, v, he, hv, hfit, hro, hy, hseat⟩ := hi.settle (this := o) (by simp [hf])
          obtain ⟨ops', outs', h1, h2⟩ := seat_postfix hf he hv hfit (by simp [hro]) ts ops
          rw [hy] at h2
          exact ⟨true, ops', outs', hc, by simpa using h2⟩
        · have hn : o.fixity ≠ .nullary := by rcases hf with h | h <;> simp [h]
          have hc' : completeFrom false ts = true := by
            rcases hf with h | h <;> simpa [h] using hc
          obtain ⟨ops1, outs1, y1, v, he, hv, hfit, hro, hy, hseat⟩ := hi.settle (this := o) hn
          obtain ⟨ops', outs', h1, h2⟩ := seat_infix hf he hv hfit (by simp [hro]) ts ops
          rw [hy] at h2
          exact ⟨false, o :: ops', outs', hc', by simpa using h2⟩

/-! ## Termination and absence of panics for arbitrary input -/

/-- Number of gaps still to be filled. -/
def gaps : Option Tok → List Tok → Nat
  | l, [] => if rightSide l = leftSide none then 1 else 0
  | l, x :: xs => (if rightSide l = leftSide (some x) then 1 else 0) + gaps (some x) xs

theorem filler_none {l r} (h : filler l r = .ok none) : rightSide l ≠ leftSide r := by
  unfold filler at h
  cases hl : rightSide l <;> cases hr : leftSide r <;> simp_all
  split at h
  · split at h <;> simp at h
  · simp at h

theorem filler_some {l r f} (h : filler l r = .ok (some f)) :
    rightSide l = leftSide r ∧ rightSide l ≠ leftSide (some f) ∧ rightSide (some f) ≠ leftSide r := by
  unfold filler at h
  cases hl : rightSide l <;> cases hr : leftSide r <;> simp_all
  · split at h
    · split at h
      · simp at h
      · simp at h; subst h; simp [leftSide, rightSide]
    · simp at h; subst h; simp [leftSide, rightSide]
  · subst h; simp [leftSide, rightSide, catOp]

theorem filler_err {l r e} (h : filler l r = .error e) : rightSide l = leftSide r := by
  unfold filler at h
  cases hl : rightSide l <;> cases hr : leftSide r <;> simp_all

theorem applyOp_input (o st) : (applyOp o st).input = st.input := by
  unfold applyOp; split <;> (try split) <;> rfl

theorem seatOp_input (o ops st) : (seatOp o ops st).input = st.input := by
  induction ops generalizing st with
  | nil => unfold seatOp; split <;> simp [applyOp_input]
  | cons top ops ih =>
    unfold seatOp
    dsimp only
    repeat' split
    all_goals simp [applyOp_input, ih]

theorem clearOps_input (ops st) : (clearOps ops st).input = st.input := by
  induction ops generalizing st with
  | nil => rfl
  | cons top ops ih => simp [clearOps, ih, applyOp_input]

theorem clearOps_ops (ops st) : (clearOps ops st).ops = [] := by
  induction ops generalizing st with
  | nil => rfl
  | cons top ops ih => simp [clearOps, ih]

theorem insertFill_input (l st) :
    (insertFill l st).input.length + gaps l (insertFill l st).input ≤ st.input.length + gaps l st.input ∧
    (insertFill l st).input.length ≤ st.input.length + 1 := by
  unfold insertFill
  split
  · rename_i f hf
    obtain ⟨h1, h2, h3⟩ := filler_some hf
    cases hi : st.input with
    | nil => simp_all [gaps]
    | cons x xs => simp_all [gaps]; omega
  · simp
  · simp

/-- The measure of the loop. -/
theorem loop_total : ∀ n (st : St) (l : Option Tok), rightSide l = leftSide none ∨ True →
    (st.input.length + gaps l st.input < n) → ∃ st', loop n st = some st' ∧ st'.complete = true := by
  intro n
  induction n with
  | zero => intro st l _ h; omega
  | succ n ih =>
    intro st l _ h
    unfold loop
    split
    · exact ⟨st, rfl, by assumption⟩
    · cases hi : st.input with
      | nil =>
        have : loop n (clearOps st.ops st) = some (clearOps st.ops st) := by
          cases n <;> simp [loop, St.complete, clearOps_input, clearOps_ops, hi]
        refine ⟨clearOps st.ops st, ?_, by simp [St.complete, clearOps_input, clearOps_ops, hi]⟩
        simp [shunt1, hi, this]
      | cons x xs =>
        refine ih (shunt1 st) (some x) (Or.inr trivial) ?_
        have hin : (shunt1 st).input = (insertFill (some x) { st with input := xs }).input := by
          simp only [shunt1, hi]
          cases x <;> simp [seatOp_input]
        rw [hin]
        have := (insertFill_input (some x) { st with input := xs }).1
        rw [hi] at h
        simp [gaps] at h
        simp at this
        omega

theorem gaps_le (l xs) : gaps l xs ≤ xs.length + 1 := by
  induction xs generalizing l with
  | nil => simp [gaps]; split <;> simp
  | cons x xs ih => simp [gaps]; have := ih (some x); split <;> omega

theorem loop_initSt (xs : List Tok) : ∃ st', loop (2 * xs.length + 3) (initSt xs) = some st' ∧ st'.complete = true := by
  refine loop_total _ _ none (Or.inr trivial) ?_
  unfold initSt
  have := gaps_le none xs
  simp only
  split
  · simp; omega
  · have h := (insertFill_input none ⟨xs, [], [], none⟩).1
    simp at h; omega

/-- Something is on the output stack, or pending, or an error was recorded. -/
def Busy (st : St) : Prop := st.error.isSome ∨ st.output ≠ [] ∨ st.ops ≠ []

theorem applyOp_busy (o st) : (applyOp o st).error.isSome ∨ (applyOp o st).output ≠ [] := by
  unfold applyOp
  repeat' split
  all_goals simp

theorem seatOp_busy (o ops st) : Busy (seatOp o ops st) := by
  induction ops generalizing st with
  | nil =>
    unfold seatOp; split
    · rcases applyOp_busy o { st with ops := [] } with h | h
      · exact Or.inl h
      · exact Or.inr (Or.inl h)
    · simp [Busy]
  | cons top ops ih =>
    unfold seatOp
    dsimp only
    repeat' split
    all_goals first
      | exact ih _
      | (rcases applyOp_busy o _ with h | h
         · exact Or.inl h
         · exact Or.inr (Or.inl h))
      | simp [Busy]

theorem clearOps_keep (ops st) (h : st.error.isSome ∨ st.output ≠ []) :
    (clearOps ops st).error.isSome ∨ (clearOps ops st).output ≠ [] := by
  induction ops generalizing st with
  | nil => exact h
  | cons top ops ih => exact ih _ (applyOp_busy ..)

theorem clearOps_busy (ops st) (h : Busy { st with ops := ops }) :
    Busy (clearOps ops st) := by
  have : (clearOps ops st).error.isSome ∨ (clearOps ops st).output ≠ [] := by
    cases ops with
    | nil => rcases h with h | h | h; exact Or.inl h; exact Or.inr h; exact absurd rfl h
    | cons top ops => exact clearOps_keep ops _ (applyOp_busy ..)
  rcases this with h | h
  · exact Or.inl h
  · exact Or.inr (Or.inl h)

theorem shunt1_busy (st : St) (h : st.input ≠ [] ∨ Busy st) : Busy (shunt1 st) := by
  unfold shunt1
  split
  · split
    · exact seatOp_busy ..
    · exact Or.inr (Or.inl (by simp))
  · rename_i hi
    rcases h with h | h
    · exact absurd hi h
    · exact clearOps_busy _ _ h

theorem loop_busy : ∀ n (st st' : St), (st.input ≠ [] ∨ Busy st) → loop n st = some st' → Busy st' := by
  intro n
  induction n with
  | zero =>
    intro st st' h hl
    simp [loop] at hl
    obtain ⟨hc, rfl⟩ := hl
    rcases h with h | h
    · simp [St.complete] at hc; exact absurd hc.1 h
    · exact h
  | succ n ih =>
    intro st st' h hl
    unfold loop at hl
    split at hl
    · rename_i hc
      simp at hl; subst hl
      rcases h with h | h
      · simp [St.complete] at hc; exact absurd hc.1 h
      · exact h
    · exact ih _ _ (Or.inr (shunt1_busy st h)) hl

theorem initSt_input {xs : List Tok} (h : xs ≠ []) : (initSt xs).input ≠ [] := by
  unfold initSt
  cases xs with
  | nil => exact absurd rfl h
  | cons x xs =>
    simp only [St.complete, List.isEmpty_cons, Bool.false_and, Bool.false_eq_true, if_false]
    unfold insertFill
    split <;> simp

end Verif.Shunt
