import Verif.ShuntFill

/-!
# Properties C01-C04, C38: operator expressions

`ShuntSpec.lean` holds the specification: `Tree.yield` (reading order), `Complete`
(an expression with no missing operand or operator), `Tree.Grouped` (precedence and
associativity), `Filled` (what gap filling may add).
-/

namespace Verif.Shunt

/-! ## C04: gap filling -/

/-- Filling the gaps of a non-empty soup gives a complete expression, made from the soup by
adding nothing but catenations and implicit operands. -/
theorem fillGaps_complete (xs ys : List Tok) (hne : xs ≠ []) (h : fillGaps xs = .ok ys) :
    Complete ys ∧ Filled xs ys := by
  unfold fillGaps at h
  split at h
  · exact absurd rfl hne
  · rename_i x rest
    split at h
    · simp at h
    · rename_i f hf
      split at h
      · simp at h
      · rename_i ys' hys
        simp at h; subst h
        constructor
        · obtain ⟨h1, h2⟩ := fillFrom_complete _ _ hys
          have := fill_step (l := none) (xs := x :: rest) hf h2 h1
          simpa [Complete, rightSide] using this
        · cases f with
          | none => exact fillFrom_filled _ _ hys
          | some f =>
            rcases filler_kind hf with rfl | ⟨s, rfl⟩ | ⟨s, rfl⟩
            · exact .cat (fillFrom_filled _ _ hys)
            · exact .left (fillFrom_filled _ _ hys)
            · exact .right (fillFrom_filled _ _ hys)

/-- No completion of the soup by catenations and implicit operands is shorter. -/
theorem fillGaps_minimal (xs ys zs : List Tok) (hne : xs ≠ []) (h : fillGaps xs = .ok ys)
    (hz : Filled xs zs) (hc : Complete zs) : ys.length ≤ zs.length := by
  rw [fillGaps_length hne h]
  exact filled_lower hz none (by simpa [rightSide, Complete] using hc)

/-- A complete expression is left alone. -/
theorem fillGaps_id (xs : List Tok) (h : Complete xs) : fillGaps xs = .ok xs := by
  cases xs with
  | nil => rfl
  | cons x xs =>
    have h1 := complete_nofill h none rfl
    have h2 := complete_fillFrom (x :: xs) none (by simpa [rightSide, Complete] using h)
    simp only [List.head?] at h1
    simp [fillGaps, h1, h2]

/-- Filling fails only if some operator of the soup has no source location (the pseudo
operators for lookup and call are the only such). -/
theorem fillGaps_fails (xs : List Tok) (e : Err) (h : fillGaps xs = .error e) :
    ∃ o, Tok.op o ∈ xs ∧ o.smid = 0 := by
  have key : ∀ l r e, filler l r = .error e → (l.map Tok.smid).getD 0 = 0 ∧ (r.map Tok.smid).getD 0 = 0
      ∧ leftSide r = .opLike ∧ rightSide l = .opLike := by
    intro l r e h
    have hs := filler_err h
    unfold filler at h
    cases hl : rightSide l <;> cases hr : leftSide r <;> simp_all
    split at h
    · split at h
      · simp_all
      · simp at h
    · simp at h
  have opl : ∀ t, leftSide (some t) = .opLike → ∃ o, t = .op o := by
    intro t h; cases t <;> simp_all [leftSide]
  have opr : ∀ t, rightSide (some t) = .opLike → ∃ o, t = .op o := by
    intro t h; cases t <;> simp_all [rightSide]
  have hfrom : ∀ xs e, fillFrom xs = .error e → ∃ o, Tok.op o ∈ xs ∧ o.smid = 0 := by
    intro xs
    induction xs with
    | nil => intro e h; simp [fillFrom] at h
    | cons x xs ih =>
      intro e h
      unfold fillFrom at h
      split at h
      · rename_i e' hf
        obtain ⟨h1, _, _, h4⟩ := key _ _ _ hf
        obtain ⟨o, rfl⟩ := opr _ h4
        exact ⟨o, by simp, by simpa [Tok.smid] using h1⟩
      · split at h
        · rename_i hx
          obtain ⟨o, ho, h0⟩ := ih _ hx
          exact ⟨o, by simp [ho], h0⟩
        · simp at h
  unfold fillGaps at h
  split at h
  · simp at h
  · rename_i x rest
    split at h
    · rename_i e' hf
      obtain ⟨_, h2, h3, _⟩ := key _ _ _ hf
      obtain ⟨o, rfl⟩ := opl _ h3
      exact ⟨o, by simp, by simpa [Tok.smid] using h2⟩
    · split at h
      · rename_i hx; exact hfrom _ _ hx
      · simp at h

/-! Concrete atoms for the examples.  Operators and precedences are those of
`lib/prelude.eu`. -/

def vx : Tok := .val ⟨1, .other 1⟩
def vy : Tok := .val ⟨2, .other 2⟩
def vz : Tok := .val ⟨3, .other 3⟩
def oAdd : Op := ⟨4, .infixLeft, 75, .user 1⟩      -- `+`, :sum
def oMul : Op := ⟨5, .infixLeft, 80, .user 2⟩      -- `*`, :prod
def oEq : Op := ⟨6, .infixLeft, 40, .user 3⟩       -- `=`, :eq
def oNeg : Op := ⟨7, .prefix, 50, .user 4⟩         -- `∸`, default precedence 50
def oHead : Op := ⟨8, .prefix, 95, .user 5⟩        -- `↑`
def oNot : Op := ⟨9, .prefix, 88, .user 6⟩         -- `¬`
def oAnd : Op := ⟨10, .infixLeft, 35, .user 7⟩     -- `∧`, :bool-prod
def oPow : Op := ⟨11, .infixRight, 85, .user 8⟩    -- `^`, :exp
def oTick : Op := ⟨12, .postfix, 88, .user 9⟩      -- `✓`

example : fillGaps [.op oMul, vx, vy, .op oAdd] =
    .ok [.val ⟨5, .sectionLeft⟩, .op oMul, vx, .op catOp, vy, .op oAdd, .val ⟨4, .sectionRight⟩] := by
  rfl
example : ¬ Complete [.op oMul, vx, vy, .op oAdd] := by decide

/-! ## C01: nothing is lost, duplicated or reordered -/

/-- The full property: resolving a complete operator expression yields an expression whose
atoms, read from left to right, are the atoms of the soup. -/
def OrderPreserved : Prop :=
  ∀ ys, Complete ys → ∃ t, shunt ys = .ok t ∧ t.yield = ys

/-- It does not hold.  `x = y * ∸ z` is read as `(x * y) = (∸ z)`: a prefix operator makes
the yard reduce a tighter operator that still waits for its right operand. -/
theorem order_not_preserved : ¬ OrderPreserved := by
  intro h
  obtain ⟨t, h1, h2⟩ := h [vx, .op oEq, vy, .op oMul, .op oNeg, vz] (by decide)
  have : shunt [vx, .op oEq, vy, .op oMul, .op oNeg, vz] =
    .ok (.app2 oEq (.app2 oMul (.leaf vx) (.leaf vy)) (.app1 oNeg (.leaf vz))) := by decide
  rw [this] at h1
  simp at h1
  subst h1
  revert h2; decide

/-- `x ∧ ↑ ¬ y` is read as `(↑ x) ∧ (¬ y)`. -/
theorem order_not_preserved_prefix_prefix :
    shunt [vx, .op oAnd, .op oHead, .op oNot, vy] =
      .ok (.app2 oAnd (.app1 oHead (.leaf vx)) (.app1 oNot (.leaf vy))) := by decide

/-- `x * ∸ y` is rejected as if an operand were missing. -/
theorem minus_after_times_rejected :
    Complete [vx, .op oMul, .op oNeg, vy] ∧
    shunt [vx, .op oMul, .op oNeg, vy] = .err (.tooFewOperands oMul) := by decide

theorem shunt_ok_of_prefixOk (ys : List Tok) (hc : Complete ys) (hp : PrefixOk ys) :
    ∃ t, shunt ys = .ok t ∧ t.yield = ys ∧ t.Grouped := by
  have hne : ys ≠ [] := by rintro rfl; simp [Complete, completeFrom] at hc
  have hinit : initSt ys = ⟨ys, [], [], none⟩ := by
    unfold initSt
    simp only
    split
    · rfl
    · have := complete_nofill hc none rfl
      simp [insertFill, this]
  obtain ⟨t, h1, h2, h3⟩ := loop_ok ys false none [] [] [] (2 * ys.length + 3) hc (by simpa using hp) rfl
    ⟨.nil, by simp⟩ (by omega)
  refine ⟨t, ?_, by simpa using h2, h3⟩
  simp [shunt, hinit, h1]

/-- **C01, partial.**  The atoms keep their order whenever no prefix operator directly
follows an infix or prefix operator that binds at least as tightly.  Missing: exactly the
other expressions, for which see `order_not_preserved`. -/
theorem order_preserved_partial (ys : List Tok) (hc : Complete ys) (hp : PrefixOk ys) :
    ∃ t, shunt ys = .ok t ∧ t.yield = ys := by
  obtain ⟨t, h1, h2, _⟩ := shunt_ok_of_prefixOk ys hc hp
  exact ⟨t, h1, h2⟩

/-- The condition of `order_preserved_partial` is met when there are no prefix operators. -/
theorem prefixOk_of_no_prefix (ys : List Tok) (h : ∀ o, .op o ∈ ys → o.fixity ≠ .prefix) :
    PrefixOk ys := by
  induction ys with
  | nil => trivial
  | cons x ys ih =>
    have ih := ih (fun o ho => h o (by simp [ho]))
    cases x with
    | val v => unfold PrefixOk; exact ih
    | op a =>
      cases ys with
      | nil => unfold PrefixOk; trivial
      | cons y ys =>
        cases y with
        | val v => unfold PrefixOk; exact ih
        | op b =>
          unfold PrefixOk
          exact ⟨fun hb => absurd hb (h b (by simp)), ih⟩

example : Complete [.op oHead, vx, .op oAdd, .op oNot, vy, .op oTick, .op oPow, vz] ∧
    PrefixOk [.op oHead, vx, .op oAdd, .op oNot, vy, .op oTick, .op oPow, vz] := by decide

/-! ## C02: precedence and associativity -/

/-- A complete expression has one and only one reading that respects precedence and
associativity. -/
theorem grouped_reading_exists_unique (ys : List Tok) (hc : Complete ys) :
    ∃ t : Tree, (t.Grouped ∧ t.yield = ys) ∧ ∀ u : Tree, u.Grouped ∧ u.yield = ys → u = t := by
  obtain ⟨t, h1, h2⟩ := feed_exists ys false [] [] [] hc (by simpa using EOk.nil)
  refine ⟨t, ⟨h2, by simpa using h1⟩, ?_⟩
  rintro u ⟨hu, hy⟩
  exact Grouped.unique hu h2 (by rw [hy]; simpa using h1.symm)

/-- **C02, partial.**  The shunting yard finds that reading, under the condition of
`order_preserved_partial`. -/
theorem shunt_finds_reading_partial (ys : List Tok) (hc : Complete ys) (hp : PrefixOk ys)
    (t : Tree) (hg : t.Grouped) (hy : t.yield = ys) : shunt ys = .ok t := by
  obtain ⟨t', h1, h2, h3⟩ := shunt_ok_of_prefixOk ys hc hp
  rw [h1, Grouped.unique hg h3 (by rw [hy, h2])]

/-- Without prefix operators the yard is right with no further condition. -/
theorem shunt_finds_reading_of_no_prefix (ys : List Tok) (hc : Complete ys)
    (hn : ∀ o, .op o ∈ ys → o.fixity ≠ .prefix)
    (t : Tree) (hg : t.Grouped) (hy : t.yield = ys) : shunt ys = .ok t :=
  shunt_finds_reading_partial ys hc (prefixOk_of_no_prefix ys hn) t hg hy

-- `x + y * z` and `x * y + z`, `x ^ y ^ z`, `x + y + z`
example : shunt [vx, .op oAdd, vy, .op oMul, vz] =
    .ok (.app2 oAdd (.leaf vx) (.app2 oMul (.leaf vy) (.leaf vz))) := by decide
example : shunt [vx, .op oPow, vy, .op oPow, vz] =
    .ok (.app2 oPow (.leaf vx) (.app2 oPow (.leaf vy) (.leaf vz))) := by decide
example : shunt [vx, .op oAdd, vy, .op oAdd, vz] =
    .ok (.app2 oAdd (.app2 oAdd (.leaf vx) (.leaf vy)) (.leaf vz)) := by decide
example : (Tree.app2 oAdd (.leaf vx) (.app2 oMul (.leaf vy) (.leaf vz))).Grouped := by
  simp [Tree.Grouped, vx, vy, vz, Tree.rightOpen, Tree.leftOpen, takes, oAdd, oMul]

/-! ## C03: resolution always ends, and never by a crash -/

/-- For every soup whatsoever, the loop of the yard ends. -/
theorem shunt_terminates (xs : List Tok) : shunt xs ≠ .diverged := by
  obtain ⟨st, h, _⟩ := loop_initSt xs
  unfold shunt
  rw [h]
  simp only
  split
  · simp
  · split <;> simp

/-- For every non-empty soup whatsoever, the yard does not hit its "empty output" panic. -/
theorem shunt_no_panic (xs : List Tok) (hne : xs ≠ []) : shunt xs ≠ .panicked := by
  obtain ⟨st, h, hc⟩ := loop_initSt xs
  have hb := loop_busy _ _ _ (Or.inl (initSt_input hne)) h
  unfold shunt
  rw [h]
  simp only
  split
  · simp
  · rename_i he
    split
    · simp
    · rename_i ho
      simp [St.complete] at hc
      simp [Busy, he, ho, hc.2] at hb

/-- The empty soup does hit it (the desugarer never makes one:
src/core/desugar/rowan_ast.rs:2138-2144). -/
theorem shunt_empty_panics : shunt [] = .panicked := by decide

/-- Cooking a non-empty soup gives an expression or an error, whatever the soup. -/
theorem cookSoup_total (xs : List Tok) (hne : xs ≠ []) :
    (∃ t, cookSoup xs = .ok t) ∨ (∃ e, cookSoup xs = .err e) := by
  unfold cookSoup
  split
  · exact Or.inr ⟨_, rfl⟩
  · rename_i ys h
    have hy : ys ≠ [] := by
      rintro rfl
      have := (fillGaps_complete xs [] hne h).1
      simp [Complete, completeFrom] at this
    have h1 := shunt_terminates ys
    have h2 := shunt_no_panic ys hy
    cases h : shunt ys with
    | ok t => exact Or.inl ⟨t, rfl⟩
    | err e => exact Or.inr ⟨e, rfl⟩
    | panicked => exact absurd h h2
    | diverged => exact absurd h h1

/-- With the condition on prefix operators cooking succeeds. -/
theorem cookSoup_succeeds_partial (xs ys : List Tok) (hne : xs ≠ []) (h : fillGaps xs = .ok ys)
    (hp : PrefixOk ys) : ∃ t, cookSoup xs = .ok t ∧ t.yield = ys ∧ t.Grouped := by
  have hc := (fillGaps_complete xs ys hne h).1
  obtain ⟨t, h1, h2, h3⟩ := shunt_ok_of_prefixOk ys hc hp
  exact ⟨t, by simp [cookSoup, h, h1], h2, h3⟩

/-! ### The panic inside `form_apply` -/

/-- A user operator with a precedence above 90. -/
def oTight : Op := ⟨20, .infixLeft, 95, .user 20⟩
def vf : Tok := .val ⟨21, .other 21⟩
def args : Tok := .val ⟨22, .argTuple 22⟩

/-- `f(x) ^^ y`, where `^^` is declared with precedence 95: the yard gives the argument
tuple to `^^`, and building the call then panics ("pseudocall op without arg tuple"). -/
theorem call_then_tight_operator_panics :
    ∃ t, Complete [vf, .op callOp, args, .op oTight, vy] ∧
      shunt [vf, .op callOp, args, .op oTight, vy] = .ok t ∧ t.denote = none :=
  ⟨.app2 callOp (.leaf vf) (.app2 oTight (.leaf args) (.leaf vy)), by decide, by decide, by decide⟩

/-- Soups in which operators other than prefix ones have precedence at most 90, the call
operator is used as the desugarer uses it, and pseudo operators are infix. -/
structure CallsOk (ys : List Tok) : Prop where
  prec : ∀ o, .op o ∈ ys → o.fixity ≠ .prefix → o.prec ≤ 90
  unary : ∀ o, .op o ∈ ys → (o.fixity = .prefix ∨ o.fixity = .postfix) → ∃ n, o.body = .user n
  call : ∀ o, .op o ∈ ys → o.body = .call → o = callOp
  tuple : ∀ pre post o, ys = pre ++ .op o :: post → o.body = .call →
    ∃ s n rest, post = .val ⟨s, .argTuple n⟩ :: rest

theorem leftOpen_mem {t : Tree} {b : Op} (hg : t.Grouped) (h : b ∈ t.leftOpen) :
    Tok.op b ∈ t.yield ∧ b.fixity ≠ .prefix := by
  induction t with
  | leaf t => simp [Tree.leftOpen] at h
  | app1 o x ih =>
    simp only [Tree.leftOpen] at h
    split at h
    · rename_i hq
      simp [Tree.yield, hq] at h ⊢
      rcases h with rfl | h
      · exact ⟨Or.inr rfl, by simp [hq]⟩
      · exact ⟨Or.inl (ih hg.1 h).1, (ih hg.1 h).2⟩
    · simp at h
  | app2 o l r ihl ihr =>
    simp [Tree.leftOpen, Tree.yield] at h ⊢
    rcases h with rfl | h
    · exact ⟨Or.inr (Or.inl rfl), by rcases hg.2.2.1 with h | h <;> simp [h]⟩
    · exact ⟨Or.inl (ihl hg.1 h).1, (ihl hg.1 h).2⟩

theorem denote_ok : ∀ (t : Tree), t.Grouped → ∀ ys pre post, ys = pre ++ t.yield ++ post → CallsOk ys →
    ∃ e, t.denote = some e := by
  intro t
  induction t with
  | leaf t => intros; exact ⟨_, rfl⟩
  | app1 o x ih =>
    intro hg ys pre post hy hk
    have hfix : o.fixity = .prefix ∨ o.fixity = .postfix := by
      rcases hg.2 with h | h
      · exact Or.inr h.1
      · exact Or.inl h.1
    have hmem : Tok.op o ∈ ys := by
      rw [hy]; rcases hfix with h | h <;> simp [Tree.yield, h]
    obtain ⟨n, hn⟩ := hk.unary o hmem hfix
    have : ∃ pre' post', ys = pre' ++ x.yield ++ post' := by
      rcases hfix with h | h
      · exact ⟨pre ++ [.op o], post, by rw [hy]; simp [Tree.yield, h]⟩
      · exact ⟨pre, .op o :: post, by rw [hy]; simp [Tree.yield, h]⟩
    obtain ⟨pre', post', hy'⟩ := this
    obtain ⟨e, he⟩ := ih hg.1 ys pre' post' hy' hk
    exact ⟨.app1 (.atom (.op o)) e, by simp [Tree.denote, hn, he]⟩
  | app2 o l r ihl ihr =>
    intro hg ys pre post hy hk
    obtain ⟨el, hel⟩ := ihl hg.1 ys pre (.op o :: r.yield ++ post) (by rw [hy]; simp [Tree.yield]) hk
    obtain ⟨er, her⟩ := ihr hg.2.1 ys (pre ++ l.yield ++ [.op o]) post (by rw [hy]; simp [Tree.yield]) hk
    simp only [Tree.denote, hel, her]
    unfold formApply2
    cases hb : o.body with
    | dot => simp only; split <;> exact ⟨_, rfl⟩
    | cat => exact ⟨_, rfl⟩
    | user n => exact ⟨_, rfl⟩
    | call =>
      have hmem : Tok.op o ∈ ys := by rw [hy]; simp [Tree.yield]
      have ho := hk.call o hmem hb
      obtain ⟨s, n, rest, hrest⟩ := hk.tuple (pre ++ l.yield) (r.yield ++ post) o
        (by rw [hy]; simp [Tree.yield]) hb
      have hlo : r.leftOpen = [] := by
        rw [List.eq_nil_iff_forall_not_mem]
        intro b hbm
        have h1 := hg.2.2.2.2 b hbm
        obtain ⟨h2, h3⟩ := leftOpen_mem hg.2.1 hbm
        have h4 := hk.prec b (by rw [hy]; simp [Tree.yield, h2]) h3
        subst ho
        simp [takes, callOp] at h1
        omega
      have hr : r = .leaf (.val ⟨s, .argTuple n⟩) := by
        cases r with
        | leaf t => simp [Tree.yield] at hrest; rw [hrest.1]
        | app1 q x =>
          exfalso
          simp only [Tree.leftOpen] at hlo
          split at hlo
          · simp at hlo
          · rename_i hq; simp [Tree.yield, hq] at hrest
        | app2 q a b => simp [Tree.leftOpen] at hlo
      subst hr
      simp [Tree.denote] at her
      subst her
      exact ⟨_, rfl⟩

/-- **C03, partial.**  No panic while building the expression, if operators other than
prefix ones have precedence at most 90. -/
theorem formApply_no_panic_partial (ys : List Tok) (hc : Complete ys) (hp : PrefixOk ys)
    (hk : CallsOk ys) : ∃ t e, shunt ys = .ok t ∧ t.denote = some e := by
  obtain ⟨t, h1, h2, h3⟩ := shunt_ok_of_prefixOk ys hc hp
  obtain ⟨e, he⟩ := denote_ok t h3 ys [] [] (by simp [h2]) hk
  exact ⟨t, e, h1, he⟩

example : CallsOk [vf, .op callOp, args, .op oAdd, vy] where
  prec := by intro o h; simp [vf, args, vy] at h; rcases h with rfl | rfl <;> simp [callOp, oAdd]
  unary := by intro o h; simp [vf, args, vy] at h; rcases h with rfl | rfl <;> simp [callOp, oAdd]
  call := by intro o h; simp [vf, args, vy] at h; rcases h with rfl | rfl <;> simp [callOp, oAdd]
  tuple := by
    intro pre post o h hb
    match pre, h with
    | [], h => simp [vf] at h
    | [_], h => simp [args] at h; exact ⟨22, 22, _, h.2.2.symm⟩
    | [_, _], h => simp [args] at h
    | [_, _, _], h => simp [oAdd] at h; obtain ⟨_, _, _, h, _⟩ := h; subst h; simp at hb
    | [_, _, _, _], h => simp [vy] at h
    | _ :: _ :: _ :: _ :: _ :: pre, h => simp at h

/-! ## C38: bracket contents -/

/-- Splitting bracket content at catenations gives complete expressions, whose
concatenation, with the catenations put back, is the content: no item is lost, split or
merged. -/
theorem splitAtCat_items (ys : List Tok) (hc : Complete ys)
    (hcat : ∀ t ∈ ys, isCat t → t = .op catOp) :
    (∀ g ∈ splitAtCat [] ys, Complete g ∧ ∀ t ∈ g, t ≠ .op catOp) ∧
    ((splitAtCat [] ys).intersperse [.op catOp]).flatten = ys := by
  obtain ⟨g, gs, h1, h2, h3⟩ := splitAtCat_ok ys [] (by simpa [Complete] using hc) hcat (by simp)
  rw [h1]
  refine ⟨fun x hx => ⟨(h2 x hx).1, fun t ht he => ?_⟩, by simpa using h3⟩
  have := (h2 x hx).2 t ht
  subst he; simp [isCat, catOp] at this

example : splitAtCat [] [vx, .op catOp, vy, .op oAdd, vz] = [[vx], [vy, .op oAdd, vz]] := by decide

end Verif.Shunt
