import Verif.ShuntSpec

namespace Verif.Shunt

def Op.isInfix (o : Op) : Prop := o.fixity = .infixLeft ∨ o.fixity = .infixRight

/-- Everything exposed on the left of `t` yields to the top of the operator stack. -/
def Fits (ops : List Op) (t : Tree) : Prop := ∀ top ∈ ops.head?, ∀ b ∈ t.leftOpen, ¬ takes top b
def FitsOp (ops : List Op) (o : Op) : Prop := ∀ top ∈ ops.head?, ¬ takes top o

/-- Stacks when an operand is wanted, with the atoms consumed so far. -/
inductive EOk : List Op → List Tree → List Tok → Prop
  | nil : EOk [] [] []
  | inf {o ops outs y l} : o.isInfix → l.Grouped → (∀ a ∈ l.rightOpen, takes a o) →
      Fits ops l → FitsOp ops o → EOk ops outs y →
      EOk (o :: ops) (l :: outs) (y ++ l.yield ++ [.op o])
  | pre {o ops outs y} : o.fixity = .prefix → EOk ops outs y →
      EOk (o :: ops) outs (y ++ [.op o])

/-- Stacks when there is an operand. -/
inductive AOk : List Op → List Tree → List Tok → Prop
  | plain {ops outs y v} : EOk ops outs y → v.Grouped → Fits ops v → v.rightOpen = [] →
      AOk ops (v :: outs) (y ++ v.yield)
  | post {ops outs y v q} : EOk ops outs y → v.Grouped → Fits ops v →
      (∀ a ∈ v.rightOpen, takes a q) → FitsOp ops q → q.fixity = .postfix →
      AOk (q :: ops) (v :: outs) (y ++ v.yield ++ [.op q])

theorem EOk.head_fix {ops outs y} (h : EOk ops outs y) :
    ∀ top ∈ ops.head?, top.isInfix ∨ top.fixity = .prefix := by
  cases h with
  | nil => simp
  | inf h => simp; exact Or.inl h
  | pre h => simp; exact Or.inr h

theorem applyOp_inf {o : Op} (h : o.isInfix) (inp r l outs ops e) :
    applyOp o ⟨inp, r :: l :: outs, ops, e⟩ = ⟨inp, .app2 o l r :: outs, ops, e⟩ := by
  rcases h with h | h <;> simp [applyOp, h, Fixity.arity]

theorem applyOp_un {o : Op} (h : o.fixity = .prefix ∨ o.fixity = .postfix) (inp x outs ops e) :
    applyOp o ⟨inp, x :: outs, ops, e⟩ = ⟨inp, .app1 o x :: outs, ops, e⟩ := by
  rcases h with h | h <;> simp [applyOp, h, Fixity.arity]

/-- Reducing the top of the stack keeps the state good. -/
theorem reduce_step {top ops outs y v} (h : EOk (top :: ops) outs y) (hv : v.Grouped)
    (hf : Fits (top :: ops) v) :
    ∃ v' outs' y', EOk ops outs' y' ∧ v'.Grouped ∧ Fits ops v' ∧ y' ++ v'.yield = y ++ v.yield ∧
      v'.rightOpen = top :: v.rightOpen ∧
      ∀ inp opsx e, applyOp top ⟨inp, v :: outs, opsx, e⟩ = ⟨inp, v' :: outs', opsx, e⟩ := by
  cases h with
  | @inf _ _ outs' y' l hi hl hr hfl hfo he =>
    refine ⟨.app2 top l v, outs', y', he, ?_, ?_, ?_, ?_, ?_⟩
    · exact ⟨hl, hv, hi, hr, fun b hb => hf top (by simp) b hb⟩
    · intro t ht b hb
      simp [Tree.leftOpen] at hb
      rcases hb with rfl | hb
      · exact hfo t ht
      · exact hfl t ht b hb
    · simp [Tree.yield]
    · simp [Tree.rightOpen]
    · intro inp opsx e; exact applyOp_inf hi ..
  | @pre _ _ _ y' hp he =>
    refine ⟨.app1 top v, outs, y', he, ?_, ?_, ?_, ?_, ?_⟩
    · exact ⟨hv, Or.inr ⟨hp, fun b hb => hf top (by simp) b hb⟩⟩
    · intro t ht b hb; simp [Tree.leftOpen, hp] at hb
    · simp [Tree.yield, hp]
    · simp [Tree.rightOpen, hp]
    · intro inp opsx e; exact applyOp_un (Or.inl hp) ..

theorem seat_reduce {this top : Op} {ops st} (hn : this.fixity ≠ .nullary) (ht : takes top this)
    (hnn : top.fixity ≠ .nullary) :
    seatOp this (top :: ops) st = seatOp this ops (applyOp top st) := by
  conv => lhs; unfold seatOp
  simp only [hn, if_false]
  unfold takes at ht
  cases h : top.fixity <;> simp_all

theorem seat_push {this top : Op} {ops st} (hn : this.fixity ≠ .nullary) (ht : ¬ takes top this)
    (hq : this.fixity ≠ .postfix ∨ top.isInfix) :
    seatOp this (top :: ops) st = { st with ops := this :: top :: ops } := by
  conv => lhs; unfold seatOp
  simp only [hn, if_false]
  unfold takes at ht; unfold Op.isInfix at hq
  cases h : top.fixity <;> simp_all <;> intros <;> omega

theorem seat_post {this top : Op} {ops st} (hn : this.fixity = .postfix) (ht : ¬ takes top this)
    (hq : top.fixity = .prefix) :
    seatOp this (top :: ops) st = applyOp this { st with ops := top :: ops } := by
  conv => lhs; unfold seatOp
  unfold takes at ht
  simp_all; intros; omega

/-- Seating an infix operator after an operand. -/
theorem seat_infix {this : Op} (hi : this.isInfix) : ∀ {ops outs y v}, EOk ops outs y →
    v.Grouped → Fits ops v → (∀ a ∈ v.rightOpen, takes a this) → ∀ inp opsx,
    ∃ ops' outs', seatOp this ops ⟨inp, v :: outs, opsx, none⟩ = ⟨inp, outs', this :: ops', none⟩ ∧
      EOk (this :: ops') outs' (y ++ v.yield ++ [.op this]) := by
  have hn : this.fixity ≠ .nullary := by rcases hi with h | h <;> simp [h]
  have hp : this.fixity ≠ .postfix := by rcases hi with h | h <;> simp [h]
  intro ops
  induction ops with
  | nil =>
    intro outs y v he hv hf hr inp opsx
    refine ⟨[], v :: outs, ?_, ?_⟩
    · unfold seatOp; simp [hn]
    · exact EOk.inf hi hv hr hf (by simp [FitsOp]) he
  | cons top ops ih =>
    intro outs y v he hv hf hr inp opsx
    by_cases ht : takes top this
    · obtain ⟨v', outs', y', he', hv', hf', hy, hro, hap⟩ := reduce_step he hv hf
      have hnn : top.fixity ≠ .nullary := by
        rcases he.head_fix top (by simp) with (h | h) | h <;> simp [h]
      rw [seat_reduce hn ht hnn, hap, ← hy]
      exact ih he' hv' hf' (by rw [hro]; intro a ha; simp at ha; rcases ha with rfl | ha; exact ht; exact hr a ha) inp opsx
    · rw [seat_push hn ht (Or.inl hp)]
      exact ⟨_, _, rfl, EOk.inf hi hv hr hf (by simp [FitsOp]; exact ht) he⟩

/-- Seating a postfix operator after an operand. -/
theorem seat_postfix {this : Op} (hi : this.fixity = .postfix) : ∀ {ops outs y v}, EOk ops outs y →
    v.Grouped → Fits ops v → (∀ a ∈ v.rightOpen, takes a this) → ∀ inp opsx,
    ∃ ops' outs', seatOp this ops ⟨inp, v :: outs, opsx, none⟩ = ⟨inp, outs', ops', none⟩ ∧
      AOk ops' outs' (y ++ v.yield ++ [.op this]) := by
  have hn : this.fixity ≠ .nullary := by simp [hi]
  intro ops
  induction ops with
  | nil =>
    intro outs y v he hv hf hr inp opsx
    refine ⟨[this], v :: outs, ?_, ?_⟩
    · unfold seatOp; simp [hn]
    · exact AOk.post he hv hf hr (by simp [FitsOp]) hi
  | cons top ops ih =>
    intro outs y v he hv hf hr inp opsx
    have htf := he.head_fix top (by simp)
    by_cases ht : takes top this
    · obtain ⟨v', outs', y', he', hv', hf', hy, hro, hap⟩ := reduce_step he hv hf
      have hnn : top.fixity ≠ .nullary := by
        rcases htf with (h | h) | h <;> simp [h]
      rw [seat_reduce hn ht hnn, hap, ← hy]
      exact ih he' hv' hf' (by rw [hro]; intro a ha; simp at ha; rcases ha with rfl | ha; exact ht; exact hr a ha) inp opsx
    · rcases htf with hti | htp
      · rw [seat_push hn ht (Or.inr hti)]
        exact ⟨_, _, rfl, AOk.post he hv hf hr (by simp [FitsOp]; exact ht) hi⟩
      · rw [seat_post hi ht htp, applyOp_un (Or.inr hi)]
        refine ⟨_, _, rfl, ?_⟩
        have : AOk (top :: ops) (.app1 this v :: outs) (y ++ (Tree.app1 this v).yield) := by
          refine AOk.plain he ⟨hv, Or.inl ⟨hi, hr⟩⟩ ?_ (by simp [Tree.rightOpen, hi])
          intro t htt b hb
          simp [Tree.leftOpen, hi] at hb
          simp at htt; subst htt
          rcases hb with rfl | hb
          · exact ht
          · exact hf top (by simp) b hb
        simpa [Tree.yield, hi] using this

/-- From an operand state we may settle a pending postfix operator. -/
theorem AOk.settle {ops outs y} (h : AOk ops outs y) {this : Op} (hn : this.fixity ≠ .nullary) :
    ∃ ops' outs' y' v, EOk ops' outs' y' ∧ v.Grouped ∧ Fits ops' v ∧ v.rightOpen = [] ∧
      y' ++ v.yield = y ∧
      ∀ inp opsx, seatOp this ops ⟨inp, outs, opsx, none⟩ = seatOp this ops' ⟨inp, v :: outs', opsx, none⟩ := by
  cases h with
  | plain he hv hf hr => exact ⟨_, _, _, _, he, hv, hf, hr, rfl, fun _ _ => rfl⟩
  | @post ops' outs' y' v q he hv hf hr hfo hq =>
    refine ⟨ops', outs', y', .app1 q v, he, ⟨hv, Or.inl ⟨hq, hr⟩⟩, ?_, by simp [Tree.rightOpen, hq], by simp [Tree.yield, hq], ?_⟩
    · intro t ht b hb
      simp [Tree.leftOpen, hq] at hb
      rcases hb with rfl | hb
      · exact hfo t ht
      · exact hf t ht b hb
    · intro inp opsx
      rw [seat_reduce hn (by simp [takes, hq]) (by simp [hq]), applyOp_un (Or.inr hq)]

/-- Clearing from a settled state ends with one tree. -/
theorem clear_ok : ∀ {ops outs y v}, EOk ops outs y → v.Grouped → Fits ops v → ∀ inp opsx,
    ∃ t, clearOps ops ⟨inp, v :: outs, opsx, none⟩ = ⟨inp, [t], [], none⟩ ∧
      t.yield = y ++ v.yield ∧ t.Grouped := by
  intro ops
  induction ops with
  | nil =>
    intro outs y v he hv hf inp opsx
    cases he
    exact ⟨v, rfl, by simp, hv⟩
  | cons top ops ih =>
    intro outs y v he hv hf inp opsx
    obtain ⟨v', outs', y', he', hv', hf', hy, hro, hap⟩ := reduce_step he hv hf
    obtain ⟨t, h1, h2, h3⟩ := ih he' hv' hf' inp opsx
    exact ⟨t, by simp only [clearOps]; rw [hap]; exact h1, by rw [h2, hy], h3⟩

theorem clear_AOk {ops outs y} (h : AOk ops outs y) (inp opsx) :
    ∃ t, clearOps ops ⟨inp, outs, opsx, none⟩ = ⟨inp, [t], [], none⟩ ∧ t.yield = y ∧ t.Grouped := by
  cases h with
  | plain he hv hf hr =>
    obtain ⟨t, a, b, c⟩ := clear_ok he hv hf inp opsx
    exact ⟨t, a, b, c⟩
  | @post ops' outs' y' v q he hv hf hr hfo hq =>
    have hf' : Fits ops' (.app1 q v) := by
      intro t ht b hb
      simp [Tree.leftOpen, hq] at hb
      rcases hb with rfl | hb
      · exact hfo t ht
      · exact hf t ht b hb
    obtain ⟨t, a, b, c⟩ := clear_ok he (v := .app1 q v) ⟨hv, Or.inl ⟨hq, hr⟩⟩ hf' inp opsx
    refine ⟨t, ?_, ?_, c⟩
    · simp only [clearOps]; rw [applyOp_un (Or.inr hq)]; exact a
    · rw [b]; simp [Tree.yield, hq]

/-! The link between completeness and the absence of gaps. -/

def sideB : Bool → Side
  | true => .valueLike
  | false => .opLike

/-- A state: the last atom seen is consistent with `have?`. -/
theorem complete_nofill {b : Bool} {ts : List Tok} (h : completeFrom b ts = true)
    (l : Option Tok) (hl : rightSide l = sideB b) : filler l ts.head? = .ok none := by
  cases ts with
  | nil =>
    cases b <;> simp [completeFrom] at h
    simp [filler, hl, sideB, leftSide]
  | cons t ts =>
    cases t with
    | val v => cases b <;> simp [completeFrom] at h; simp [filler, hl, sideB, leftSide]
    | op o =>
      cases b <;> simp only [completeFrom] at h <;> cases hf : o.fixity <;>
        simp_all [filler, sideB, leftSide]

/-- State invariant for the loop: `prev` is the last atom consumed. -/
def LoopInv (b : Bool) (prev : Option Tok) (ops : List Op) (outs : List Tree) (y : List Tok) : Prop :=
  match b with
  | true => AOk ops outs y
  | false => EOk ops outs y ∧ (∀ top ∈ ops.head?, prev = some (.op top))

theorem loop_ok : ∀ (ts : List Tok) (b : Bool) (prev : Option Tok) ops outs y n,
    completeFrom b ts = true → PrefixOk (prev.toList ++ ts) →
    rightSide prev = sideB b → LoopInv b prev ops outs y → ts.length + 1 ≤ n →
    ∃ t, loop n ⟨ts, outs, ops, none⟩ = some ⟨[], [t], [], none⟩ ∧ t.yield = y ++ ts ∧ t.Grouped := by
  intro ts
  induction ts with
  | nil =>
    intro b prev ops outs y n hc hp hs hi hn
    cases b <;> simp [completeFrom] at hc
    obtain ⟨t, h1, h2, h3⟩ := clear_AOk hi [] ops
    refine ⟨t, ?_, by simpa using h2, h3⟩
    obtain ⟨m, rfl⟩ : ∃ m, n = m + 1 := ⟨n - 1, by omega⟩
    simp only [loop, St.complete, shunt1]
    rw [h1]
    cases ops with
    | nil =>
      simp [clearOps] at h1
      subst h1; simp
    | cons o ops => cases m <;> simp [loop, St.complete]
  | cons x ts ih =>
    intro b prev ops outs y n hc hp hs hi hn
    obtain ⟨m, rfl⟩ : ∃ m, n = m + 1 := ⟨n - 1, by omega⟩
    have hpo : PrefixOk (x :: ts) := by
      cases prev with
      | none => exact hp
      | some p =>
        simp at hp
        cases p with
        | val v => unfold PrefixOk at hp; exact hp
        | op a =>
          cases x with
          | val v => unfold PrefixOk at hp; exact hp
          | op o => unfold PrefixOk at hp; exact hp.2
    have hlen : ts.length + 1 ≤ m := by simpa using hn
    simp only [loop, St.complete, List.isEmpty_cons, Bool.false_and, if_false, Bool.false_eq_true]
    -- the next state
    suffices hs' : ∃ b' ops' outs', completeFrom b' ts = true ∧ rightSide (some x) = sideB b' ∧
        LoopInv b' (some x) ops' outs' (y ++ [x]) ∧
        shunt1 ⟨x :: ts, outs, ops, none⟩ = ⟨ts, outs', ops', none⟩ by
      obtain ⟨b', ops', outs', h1, h2, h3, h4⟩ := hs'
      rw [h4]
      obtain ⟨t, a, c, d⟩ := ih b' (some x) ops' outs' (y ++ [x]) m h1 hpo h2 h3 hlen
      exact ⟨t, a, by rw [c]; simp, d⟩
    cases x with
    | val v =>
      cases b <;> simp [completeFrom] at hc
      refine ⟨true, ops, .leaf (.val v) :: outs, hc, rfl, ?_, ?_⟩
      · exact AOk.plain hi.1 (by simp [Tree.Grouped]) (by simp [Fits, Tree.leftOpen]) (by simp [Tree.rightOpen])
      · simp [shunt1, insertFill, complete_nofill hc (some (.val v)) rfl]
    | op o =>
      cases b with
      | false =>
        simp only [completeFrom] at hc
        cases hf : o.fixity <;> simp [hf] at hc
        · -- nullary
          have hr : rightSide (some (.op o)) = sideB true := by simp [rightSide, hf, sideB]
          refine ⟨true, ops, .leaf (.op o) :: outs, hc, hr, ?_, ?_⟩
          · exact AOk.plain hi.1 (by simpa [Tree.Grouped] using hf) (by simp [Fits, Tree.leftOpen]) (by simp [Tree.rightOpen])
          · simp [shunt1, insertFill, complete_nofill hc (some (.op o)) hr]
            unfold seatOp; simp [hf, applyOp, Fixity.arity]
        · -- prefix
          have hr : rightSide (some (.op o)) = sideB false := by simp [rightSide, hf, sideB]
          refine ⟨false, o :: ops, outs, hc, hr, ?_, ?_⟩
          · exact ⟨EOk.pre hf hi.1, by simp⟩
          · simp only [shunt1, insertFill, complete_nofill hc (some (.op o)) hr]
            cases ops with
            | nil => unfold seatOp; simp [hf]
            | cons top ops =>
              have hprev := hi.2 top (by simp)
              subst hprev
              simp at hp
              unfold PrefixOk at hp
              have htf := hi.1.head_fix top (by simp)
              rw [seat_push (by simp [hf]) (hp.1 hf (by
                rcases htf with (h | h) | h <;> simp [h])) (Or.inl (by simp [hf]))]
      | true =>
        simp only [completeFrom] at hc
        have hi' : AOk ops outs y := hi
        have hcase : o.fixity = .postfix ∨ o.isInfix := by
          unfold Op.isInfix
          cases hf : o.fixity <;> simp_all
        rcases hcase with hf | hf
        · simp [hf] at hc
          have hr : rightSide (some (.op o)) = sideB true := by simp [rightSide, hf, sideB]
          obtain ⟨ops1, outs1, y1, v, he, hv, hfit, hro, hy, hseat⟩ := hi'.settle (this := o) (by simp [hf])
          obtain ⟨ops', outs', h1, h2⟩ := seat_postfix hf he hv hfit (by simp [hro]) ts ops
          refine ⟨true, ops', outs', hc, hr, ?_, ?_⟩
          · rw [hy] at h2; exact h2
          · simp only [shunt1, insertFill, complete_nofill hc (some (.op o)) hr]
            rw [hseat, h1]
        · have hn : o.fixity ≠ .nullary := by rcases hf with h | h <;> simp [h]
          have hc' : completeFrom false ts = true := by
            rcases hf with h | h <;> simpa [h] using hc
          have hr : rightSide (some (.op o)) = sideB false := by
            rcases hf with h | h <;> simp [rightSide, h, sideB]
          obtain ⟨ops1, outs1, y1, v, he, hv, hfit, hro, hy, hseat⟩ := hi'.settle (this := o) hn
          obtain ⟨ops', outs', h1, h2⟩ := seat_infix hf he hv hfit (by simp [hro]) ts ops
          refine ⟨false, o :: ops', outs', hc', hr, ?_, ?_⟩
          · rw [hy] at h2
            exact ⟨h2, by simp⟩
          · simp only [shunt1, insertFill, complete_nofill hc' (some (.op o)) hr]
            rw [hseat, h1]

end Verif.Shunt
