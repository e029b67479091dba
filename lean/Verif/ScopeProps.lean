import Verif.ScopeModel

/-!
# Names and operators belong to the innermost block that defines them (C36)
-/

namespace Verif.Scope

/-! ## Environments -/

namespace SimpleEnv

theorem scan_some {V} {k : String} {v : V} : ∀ {fs : List (Frame V)},
    scan k fs = some v ↔ ∃ inner f outer, fs = inner ++ f :: outer ∧
      (∀ g ∈ inner, g k = none) ∧ f k = some v
  | [] => by simp [scan]
  | f :: fs => by
    cases hf : f k with
    | some w =>
      simp only [scan, hf, Option.some.injEq]
      constructor
      · rintro rfl; exact ⟨[], f, fs, rfl, by simp, hf⟩
      · rintro ⟨inner, g, outer, he, hn, hg⟩
        cases inner with
        | nil => simp at he; rw [← he.1, hf] at hg; simpa using hg
        | cons i is =>
          simp at he; have := hn i (by simp); rw [← he.1, hf] at this; simp at this
    | none =>
      simp only [scan, hf]
      rw [scan_some (fs := fs)]
      constructor
      · rintro ⟨inner, g, outer, he, hn, hg⟩
        refine ⟨f :: inner, g, outer, by simp [he], ?_, hg⟩
        intro x hx
        rcases List.mem_cons.1 hx with rfl | hx
        · exact hf
        · exact hn x hx
      · rintro ⟨inner, g, outer, he, hn, hg⟩
        cases inner with
        | nil => simp at he; rw [← he.1, hf] at hg; simp at hg
        | cons i is =>
          simp at he
          exact ⟨is, g, outer, he.2, fun x hx => hn x (by simp [hx]), hg⟩

theorem scan_none {V} {k : String} : ∀ {fs : List (Frame V)},
    scan k fs = none ↔ ∀ f ∈ fs, f k = none
  | [] => by simp [scan]
  | f :: fs => by
    cases hf : f k with
    | some w => simp [scan, hf]
    | none => simp [scan, hf, scan_none (fs := fs)]

/-- A lookup returns the value in the most recently pushed frame that has the
key: later frames have no entry for it. -/
theorem get_innermost {V} (e : SimpleEnv V) (k : String) (v : V) :
    e.get k = some v ↔ ∃ older f newer, e = older ++ f :: newer ∧
      f k = some v ∧ ∀ g ∈ newer, g k = none := by
  unfold get
  rw [scan_some]
  constructor
  · rintro ⟨inner, f, outer, he, hn, hf⟩
    refine ⟨outer.reverse, f, inner.reverse, ?_, hf, ?_⟩
    · have := congrArg List.reverse he; simpa using this
    · intro g hg; exact hn g (by simpa using hg)
  · rintro ⟨older, f, newer, rfl, hf, hn⟩
    exact ⟨newer.reverse, f, older.reverse, by simp, fun g hg => hn g (by simpa using hg), hf⟩

/-- A lookup fails exactly when no frame has the key. -/
theorem get_missing {V} (e : SimpleEnv V) (k : String) :
    e.get k = none ↔ ∀ f ∈ e, f k = none := by
  unfold get; rw [scan_none]; simp

/-- Leaving a scope restores the environment that was in force on entry. -/
theorem pop_push {V} (e : SimpleEnv V) (f : Frame V) : (e.push f).pop = e := by
  simp [push, pop]

/-- While a scope is open its own entries win, and names it lacks keep their
outer meaning. -/
theorem get_push {V} (e : SimpleEnv V) (f : Frame V) (k : String) :
    (e.push f).get k = (f k).or (e.get k) := by
  unfold get push
  rw [List.reverse_append]
  simp only [List.reverse_cons, List.reverse_nil, List.nil_append, List.singleton_append, scan]
  cases f k <;> rfl

/-- Inserting changes the meaning of the inserted key only, and the insertion
disappears with its scope. -/
theorem insert_spec {V} (e : SimpleEnv V) (f : Frame V) (k : String) (v : V) :
    ∃ e', (e.push f).insert k v = some e' ∧ e'.get k = some v ∧
      (∀ k', k' ≠ k → e'.get k' = (e.push f).get k') ∧ e'.pop = e := by
  refine ⟨e.push (f.insert k v), ?_, ?_, ?_, pop_push _ _⟩
  · simp [insert, push]
  · rw [get_push]; simp [Frame.insert]
  · intro k' hk; rw [get_push, get_push]; simp [Frame.insert, hk]

/-- Inserting with no scope open is the only way to crash. -/
theorem insert_crash {V} (e : SimpleEnv V) (k : String) (v : V) :
    e.insert k v = none ↔ e = new := by
  unfold insert new
  cases h : e.getLast? with
  | none => simp at h; simp [h]
  | some f =>
    simp only [reduceCtorEq, false_iff]
    rintro rfl; simp at h

example : get (push (push (push new (Frame.empty.insert "a" 1)) (Frame.empty.insert "b" 2))
    (Frame.empty.insert "a" 3)) "a" = some 3 := by decide

end SimpleEnv

namespace DefEnv

theorem foldl_insert {V} (d : String → V) : ∀ (ks : List String) (f : Frame V) (k : String),
    (ks.foldl (fun m k => m.insert k (d k)) f) k = if k ∈ ks then some (d k) else f k
  | [], f, k => by simp
  | a :: ks, f, k => by
    rw [List.foldl_cons, foldl_insert d ks]
    by_cases h : k ∈ ks
    · simp [h]
    · by_cases h' : k = a
      · subst h'; simp [h, Frame.insert]
      · simp [h, h', Frame.insert]

/-- Inside `pushKeys ks`, exactly the listed names take their default value;
the rest keep the meaning they had outside. -/
theorem pushKeys_get {V} (e : DefEnv V) (ks : List String) (k : String) :
    (e.pushKeys ks).get k = if k ∈ ks then some (e.defaulter k) else e.get k := by
  unfold pushKeys push get
  dsimp only
  rw [SimpleEnv.get_push, foldl_insert]
  by_cases h : k ∈ ks
  · simp [h]
  · simp [h, Frame.empty]

/-- After a name has been encountered it is known; other names are untouched;
a name already known keeps its meaning. -/
theorem encounter_get {V} (e : DefEnv V) (k k' : String) :
    (e.encounter k).get k' =
      if k' = k then some ((e.get k).getD (e.defaulter k)) else e.get k' := by
  unfold encounter
  cases h : e.get k with
  | some v =>
    by_cases hk : k' = k
    · subst hk; simp [h]
    · simp [hk]
  | none =>
    by_cases hk : k' = k
    · subst hk
      unfold get at h ⊢
      cases h2 : e.env.get k' with
      | some v => rw [h2] at h; simp at h
      | none => simp [Frame.insert]
    · unfold get
      simp [Frame.insert, hk]

/-- A name first met inside a scope stays known after the scope is left, with
the same value; names of the scope itself are forgotten. -/
theorem encounter_survives {V} (e : DefEnv V) (ks : List String) (k : String)
    (hk : k ∉ ks) :
    ((e.pushKeys ks).encounter k).pop.get k = some ((e.get k).getD (e.defaulter k)) := by
  have h := pushKeys_get e ks k
  rw [if_neg hk] at h
  unfold encounter
  rw [h]
  cases h2 : e.get k with
  | some v =>
    simp only [Option.getD_some]
    unfold pop pushKeys push get
    dsimp only
    rw [SimpleEnv.pop_push]
    exact h2
  | none =>
    simp only [Option.getD_none]
    unfold pop pushKeys push get
    dsimp only
    rw [SimpleEnv.pop_push]
    unfold get at h2
    cases h3 : e.env.get k with
    | some v => rw [h3] at h2; simp at h2
    | none => simp [Frame.insert]

example : ((DefEnv.new (fun k => k ++ "!")).pushKeys ["a"] |>.encounter "b" |>.pop).get "b"
    = some "b!" := by decide
example : ((DefEnv.new (fun k => k ++ "!")).pushKeys ["a"] |>.encounter "b" |>.pop).get "a"
    = none := by decide

end DefEnv

/-! ## Specification of operator marking

Nothing below mentions environments, frames or the pass. -/

/-- `OperatorDef v e op`: the definition value `v` declares an operator with
metadata `op` whose callable is `e`; documentation may be wrapped around it. -/
inductive OperatorDef : Expr → Expr → OpMeta → Prop
  | op (op e) : OperatorDef (.operator op e) e op
  | doc {v e op} (m) : OperatorDef v e op → OperatorDef (.metaOf v m) e op

/-- The definitions of a block, in order. -/
def Binds.toList : Binds → List (String × Expr)
  | .nil => []
  | .cons n v bs => (n, v) :: bs.toList

/-- The block `bs` defines `n` as an operator with metadata `op`; of several
such definitions the last counts. -/
def DefinesOp (bs : Binds) (n : String) (op : OpMeta) : Prop :=
  ∃ pre v e post, bs.toList = pre ++ (n, v) :: post ∧ OperatorDef v e op ∧
    ∀ v', (n, v') ∈ post → ∀ e' op', ¬ OperatorDef v' e' op'

/-- Of the enclosing blocks, listed from the inside out, the first that defines
`n` as an operator does so with metadata `op`. -/
def Innermost (blocks : List Binds) (n : String) (op : OpMeta) : Prop :=
  ∃ inner bs outer, blocks = inner ++ bs :: outer ∧
    (∀ b ∈ inner, ∀ op', ¬ DefinesOp b n op') ∧ DefinesOp bs n op

mutual
/-- `Marked base blocks e e'`: inside `blocks` (inside out), with the prelude's
operators `base` outermost, `e'` is `e` with each use of an operator marked
with the metadata of its innermost definition and with the operator
declarations themselves unwrapped. -/
inductive Marked (base : Frame OpMeta) : List Binds → Expr → Expr → Prop
  | hit {bl s n op} : Innermost bl n op →
      Marked base bl (.var s n)
        (.operator ⟨if s = 0 then op.smid else s, op.fixity, op.prec⟩ (.var s n))
  | prelude {bl s n op} : (∀ op', ¬ Innermost bl n op') → base n = some op →
      Marked base bl (.var s n)
        (.operator ⟨if s = 0 then op.smid else s, op.fixity, op.prec⟩ (.var s n))
  | plain {bl s n} : (∀ op', ¬ Innermost bl n op') → base n = none →
      Marked base bl (.var s n) (.var s n)
  | operator {bl op e e'} : Marked base bl e e' →
      Marked base bl (.operator op e) (.operator op e')
  | metaOf {bl e e' m m'} : Marked base bl e e' → Marked base bl m m' →
      Marked base bl (.metaOf e m) (.metaOf e' m')
  | leaf {bl t} : Marked base bl (.leaf t) (.leaf t)
  | node {bl t cs cs'} : MarkedAll base bl cs cs' →
      Marked base bl (.node t cs) (.node t cs')
  | letE {bl bs bs' b b'} : MarkedBinds base (bs :: bl) bs bs' → Marked base (bs :: bl) b b' →
      Marked base bl (.letE bs b) (.letE bs' b')
/-- The definitions of a block. -/
inductive MarkedBinds (base : Frame OpMeta) : List Binds → Binds → Binds → Prop
  | nil {bl} : MarkedBinds base bl .nil .nil
  | opDef {bl n v e e' op bs bs'} : OperatorDef v e op → Marked base bl e e' →
      MarkedBinds base bl bs bs' →
      MarkedBinds base bl (.cons n v bs) (.cons n e' bs')
  | plainDef {bl n v v' bs bs'} : (∀ e op, ¬ OperatorDef v e op) → Marked base bl v v' →
      MarkedBinds base bl bs bs' →
      MarkedBinds base bl (.cons n v bs) (.cons n v' bs')
/-- Children of any other node. -/
inductive MarkedAll (base : Frame OpMeta) : List Binds → Exprs → Exprs → Prop
  | nil {bl} : MarkedAll base bl .nil .nil
  | cons {bl e e' es es'} : Marked base bl e e' → MarkedAll base bl es es' →
      MarkedAll base bl (.cons e es) (.cons e' es')
end

/-! ## The pass meets the specification -/

theorem expose_some {v e : Expr} {op : OpMeta} :
    expose v = (e, some op) ↔ OperatorDef v e op := by
  constructor
  · intro h
    induction v using expose.induct generalizing e op with
    | case1 v m e1 op1 h1 ih =>
      rw [expose, h1] at h
      simp only [Prod.mk.injEq, Option.some.injEq] at h
      obtain ⟨rfl, rfl⟩ := h
      exact .doc m (ih h1)
    | case2 v m e1 h1 ih => rw [expose, h1] at h; simp at h
    | case3 op1 e1 =>
      rw [expose] at h
      simp only [Prod.mk.injEq, Option.some.injEq] at h
      obtain ⟨rfl, rfl⟩ := h
      exact .op _ _
    | case4 v h1 h2 =>
      rw [expose] at h
      · simp at h
      · exact h1
      · exact h2
  · intro h
    induction h with
    | op op e => rw [expose]
    | doc m _ ih => rw [expose, ih]

theorem expose_none {v : Expr} (h : (expose v).2 = none) :
    (expose v).1 = v ∧ ∀ e op, ¬ OperatorDef v e op := by
  constructor
  · induction v using expose.induct with
    | case1 v m e1 op1 h1 ih => rw [expose, h1] at h; simp at h
    | case2 v m e1 h1 ih => rw [expose, h1]
    | case3 op1 e1 => rw [expose] at h; simp at h
    | case4 v h1 h2 => rw [expose] <;> assumption
  · intro e op hd
    rw [expose_some.2 hd] at h; simp at h

theorem definesOp_cons {n : String} {v : Expr} {bs : Binds} {k : String} {op : OpMeta} :
    DefinesOp (.cons n v bs) k op ↔
      DefinesOp bs k op ∨
        ((∀ op', ¬ DefinesOp bs k op') ∧ n = k ∧ ∃ e, OperatorDef v e op) := by
  have lastOf : ∀ l : List (String × Expr), (∃ v, (k, v) ∈ l ∧ ∃ e op, OperatorDef v e op) →
      ∃ pre v e op post, l = pre ++ (k, v) :: post ∧ OperatorDef v e op ∧
        ∀ v', (k, v') ∈ post → ∀ e' op', ¬ OperatorDef v' e' op' := by
    intro l
    induction l with
    | nil => rintro ⟨v, h, _⟩; simp at h
    | cons a l ih =>
      rintro ⟨v, h, e, op, hd⟩
      by_cases hl : ∃ v, (k, v) ∈ l ∧ ∃ e op, OperatorDef v e op
      · obtain ⟨pre, v', e', op', post, rfl, hd', hn⟩ := ih hl
        exact ⟨a :: pre, v', e', op', post, rfl, hd', hn⟩
      · rcases List.mem_cons.1 h with rfl | h
        · exact ⟨[], v, e, op, l, rfl, hd, fun v' hv e' op' hd' => hl ⟨v', hv, e', op', hd'⟩⟩
        · exact absurd ⟨v, h, e, op, hd⟩ hl
  constructor
  · rintro ⟨pre, v', e, post, he, hd, hn⟩
    cases pre with
    | nil =>
      simp only [Binds.toList, List.nil_append, List.cons.injEq, Prod.mk.injEq] at he
      obtain ⟨⟨rfl, rfl⟩, rfl⟩ := he
      right
      refine ⟨?_, rfl, e, hd⟩
      rintro op' ⟨pre, v1, e1, post, he, hd1, _⟩
      exact hn v1 (by rw [he]; simp) e1 op' hd1
    | cons a pre =>
      simp only [Binds.toList, List.cons_append, List.cons.injEq] at he
      left
      exact ⟨pre, v', e, post, he.2, hd, hn⟩
  · rintro (⟨pre, v', e, post, he, hd, hn⟩ | ⟨hno, rfl, e, hd⟩)
    · exact ⟨(n, v) :: pre, v', e, post, by simp [Binds.toList, he], hd, hn⟩
    · refine ⟨[], v, e, bs.toList, by simp [Binds.toList], hd, ?_⟩
      intro v' hv e' op' hd'
      obtain ⟨pre, v1, e1, op1, post, h1, h2, h3⟩ := lastOf bs.toList ⟨v', hv, e', op', hd'⟩
      exact hno op1 ⟨pre, v1, e1, post, h1, h2, h3⟩

theorem definesOp_nil {k : String} {op : OpMeta} : ¬ DefinesOp .nil k op := by
  rintro ⟨pre, v, e, post, he, _⟩
  simp [Binds.toList] at he

theorem opFrame_spec : ∀ (bs : Binds) (f : Frame OpMeta) (k : String),
    (∀ op, DefinesOp bs k op → opFrame bs f k = some op) ∧
    ((∀ op, ¬ DefinesOp bs k op) → opFrame bs f k = f k)
  | .nil, f, k => ⟨fun op h => absurd h definesOp_nil, fun _ => rfl⟩
  | .cons n v bs, f, k => by
    unfold opFrame
    cases h : expose v with
    | mk e o =>
      cases o with
      | none =>
        have hno := (expose_none (v := v) (by rw [h])).2
        dsimp only
        obtain ⟨i1, i2⟩ := opFrame_spec bs f k
        refine ⟨?_, ?_⟩
        · intro op hd
          rcases definesOp_cons.1 hd with hd | ⟨_, _, e', hd⟩
          · exact i1 op hd
          · exact absurd hd (hno _ _)
        · intro hn
          exact i2 fun op hd => hn op (definesOp_cons.2 (.inl hd))
      | some op0 =>
        have hyes := expose_some.1 h
        dsimp only
        obtain ⟨i1, i2⟩ := opFrame_spec bs (f.insert n op0) k
        refine ⟨?_, ?_⟩
        · intro op hd
          rcases definesOp_cons.1 hd with hd | ⟨hno, rfl, e', hd⟩
          · exact i1 op hd
          · rw [i2 hno]
            have := expose_some.2 hd
            rw [h] at this
            simp only [Prod.mk.injEq, Option.some.injEq] at this
            simp [Frame.insert, this.2]
        · intro hn
          rw [i2 fun op hd => hn op (definesOp_cons.2 (.inl hd))]
          have hk : k ≠ n := by
            rintro rfl
            exact hn op0 (definesOp_cons.2 (.inr
              ⟨fun op hd => hn op (definesOp_cons.2 (.inl hd)), rfl, e, hyes⟩))
          simp [Frame.insert, hk]

/-- The frame of a block. -/
theorem opFrame_eq (bs : Binds) (k : String) (op : OpMeta) :
    opFrame bs Frame.empty k = some op ↔ DefinesOp bs k op := by
  obtain ⟨h1, h2⟩ := opFrame_spec bs Frame.empty k
  refine ⟨fun h => ?_, h1 op⟩
  by_cases he : ∃ op', DefinesOp bs k op'
  · obtain ⟨op', hd⟩ := he
    have := h1 op' hd
    rw [h] at this
    cases this
    exact hd
  · rw [h2 fun op' hd => he ⟨op', hd⟩] at h
    simp [Frame.empty] at h

/-- The environment in force inside `blocks`. -/
def envOf (base : Frame OpMeta) : List Binds → SimpleEnv OpMeta
  | [] => [base]
  | bs :: bl => (envOf base bl).push (opFrame bs Frame.empty)

theorem innermost_cons {bs : Binds} {bl : List Binds} {n : String} {op : OpMeta} :
    Innermost (bs :: bl) n op ↔
      DefinesOp bs n op ∨ ((∀ op', ¬ DefinesOp bs n op') ∧ Innermost bl n op) := by
  constructor
  · rintro ⟨inner, b, outer, he, hn, hd⟩
    cases inner with
    | nil => simp at he; left; rw [he.1]; exact hd
    | cons i is =>
      simp at he
      right
      exact ⟨he.1 ▸ hn i (by simp), is, b, outer, he.2, fun x hx => hn x (by simp [hx]), hd⟩
  · rintro (hd | ⟨hno, inner, b, outer, he, hn, hd⟩)
    · exact ⟨[], bs, bl, rfl, by simp, hd⟩
    · refine ⟨bs :: inner, b, outer, by simp [he], ?_, hd⟩
      intro x hx
      rcases List.mem_cons.1 hx with rfl | hx
      · exact hno
      · exact hn x hx

theorem innermost_nil {n : String} {op : OpMeta} : ¬ Innermost [] n op := by
  rintro ⟨inner, b, outer, he, _⟩; simp at he

theorem envOf_get (base : Frame OpMeta) (n : String) : ∀ bl : List Binds,
    (∀ op, Innermost bl n op → (envOf base bl).get n = some op) ∧
    ((∀ op, ¬ Innermost bl n op) → (envOf base bl).get n = base n)
  | [] => by
    refine ⟨fun op h => absurd h innermost_nil, fun _ => ?_⟩
    simp only [envOf, SimpleEnv.get, List.reverse_cons, List.reverse_nil, List.nil_append,
      SimpleEnv.scan]
    cases base n <;> rfl
  | bs :: bl => by
    obtain ⟨i1, i2⟩ := envOf_get base n bl
    simp only [envOf, SimpleEnv.get_push]
    by_cases he : ∃ op', DefinesOp bs n op'
    · obtain ⟨op', hd⟩ := he
      have hf := (opFrame_eq bs n op').2 hd
      rw [hf]
      refine ⟨?_, fun hn => absurd (innermost_cons.2 (.inl hd)) (hn op')⟩
      intro op hi
      rcases innermost_cons.1 hi with h | ⟨h, _⟩
      · have := (opFrame_eq bs n op).2 h
        rw [hf] at this
        simpa using this
      · exact absurd hd (h _)
    · have hno : ∀ op', ¬ DefinesOp bs n op' := fun op' h => he ⟨op', h⟩
      have hf : opFrame bs Frame.empty n = none := (opFrame_spec bs Frame.empty n).2 hno
      rw [hf]
      refine ⟨?_, ?_⟩
      · intro op hi
        rcases innermost_cons.1 hi with h | ⟨_, h⟩
        · exact absurd h (hno op)
        · simpa using i1 op h
      · intro hn
        simpa using i2 fun op h => hn op (innermost_cons.2 (.inr ⟨hno, h⟩))

mutual
theorem dist_marked (base : Frame OpMeta) (bl : List Binds) : ∀ e : Expr,
    Marked base bl e (dist (envOf base bl) e).1 ∧ (dist (envOf base bl) e).2 = envOf base bl
  | .var s n => by
    obtain ⟨i1, i2⟩ := envOf_get base n bl
    have hs : ∀ op : OpMeta, callSmid s op
        = ⟨if s = 0 then op.smid else s, op.fixity, op.prec⟩ := by
      intro op; unfold callSmid; by_cases h : s = 0 <;> simp [h]
    rw [dist]
    by_cases he : ∃ op, Innermost bl n op
    · obtain ⟨op, hi⟩ := he
      rw [i1 op hi]
      refine ⟨?_, rfl⟩
      dsimp only
      rw [hs]
      exact .hit hi
    · have hno : ∀ op', ¬ Innermost bl n op' := fun op' h => he ⟨op', h⟩
      rw [i2 hno]
      cases hb : base n with
      | none => exact ⟨.plain hno hb, rfl⟩
      | some op =>
        refine ⟨?_, rfl⟩
        dsimp only
        rw [hs]
        exact .prelude hno hb
  | .operator op e => by
    obtain ⟨h1, h2⟩ := dist_marked base bl e
    rw [dist]
    exact ⟨.operator h1, h2⟩
  | .metaOf e m => by
    obtain ⟨h1, h2⟩ := dist_marked base bl e
    obtain ⟨h3, h4⟩ := dist_marked base bl m
    rw [dist]
    dsimp only
    rw [h2]
    exact ⟨.metaOf h1 h3, h4⟩
  | .leaf t => by rw [dist]; exact ⟨.leaf, rfl⟩
  | .node t cs => by
    obtain ⟨h1, h2⟩ := distAll_marked base bl cs
    rw [dist]
    exact ⟨.node h1, h2⟩
  | .letE bs b => by
    obtain ⟨h1, h2⟩ := distBinds_marked base (bs :: bl) bs
    obtain ⟨h3, h4⟩ := dist_marked base (bs :: bl) b
    rw [dist]
    dsimp only
    have he : (envOf base bl).push (opFrame bs Frame.empty) = envOf base (bs :: bl) := rfl
    rw [he, h2]
    refine ⟨.letE h1 h3, ?_⟩
    rw [h4, ← he, SimpleEnv.pop_push]
termination_by e => e.size
decreasing_by all_goals (simp only [Expr.size]; omega)
theorem distBinds_marked (base : Frame OpMeta) (bl : List Binds) : ∀ bs : Binds,
    MarkedBinds base bl bs (distBinds (envOf base bl) (rebind bs)).1 ∧
      (distBinds (envOf base bl) (rebind bs)).2 = envOf base bl
  | .nil => by rw [rebind, distBinds]; exact ⟨.nil, rfl⟩
  | .cons n v bs => by
    obtain ⟨h1, h2⟩ := dist_marked base bl (expose v).1
    obtain ⟨h3, h4⟩ := distBinds_marked base bl bs
    rw [rebind, distBinds]
    dsimp only
    rw [h2]
    refine ⟨?_, h4⟩
    cases h : expose v with
    | mk e o =>
      rw [h] at h1
      cases o with
      | none =>
        obtain ⟨k1, k2⟩ := expose_none (v := v) (by rw [h])
        rw [h] at k1
        dsimp only at k1 h1 ⊢
        subst k1
        exact .plainDef k2 h1 h3
      | some op => exact .opDef (expose_some.1 h) h1 h3
termination_by bs => bs.size
decreasing_by
  · have := expose_size v; simp only [Binds.size]; omega
  · simp only [Binds.size]; omega
theorem distAll_marked (base : Frame OpMeta) (bl : List Binds) : ∀ es : Exprs,
    MarkedAll base bl es (distAll (envOf base bl) es).1 ∧
      (distAll (envOf base bl) es).2 = envOf base bl
  | .nil => by rw [distAll]; exact ⟨.nil, rfl⟩
  | .cons e es => by
    obtain ⟨h1, h2⟩ := dist_marked base bl e
    obtain ⟨h3, h4⟩ := distAll_marked base bl es
    rw [distAll]
    dsimp only
    rw [h2]
    exact ⟨.cons h1 h3, h4⟩
termination_by es => es.size
decreasing_by all_goals (simp only [Exprs.size]; omega)
end

/-- With the prelude's operators as the outermost scope, every use of an
operator is marked with the metadata of the innermost block that defines it. -/
theorem distribute_with_prelude_marks (prelude : Frame OpMeta) (e : Expr) :
    Marked prelude [] e (distributeWithPrelude prelude e) :=
  (dist_marked prelude [] e).1

mutual
theorem dist_base (env : SimpleEnv OpMeta) : ∀ e : Expr,
    dist (Frame.empty :: env) e = ((dist env e).1, Frame.empty :: (dist env e).2) := by
  intro e
  cases e with
  | var s n =>
    have hg : SimpleEnv.get (Frame.empty :: env) n = SimpleEnv.get env n := by
      unfold SimpleEnv.get
      cases h : SimpleEnv.scan n env.reverse with
      | none =>
        rw [SimpleEnv.scan_none] at h ⊢
        intro f hf
        simp only [List.reverse_cons, List.mem_append, List.mem_singleton] at hf
        rcases hf with hf | rfl
        · exact h f hf
        · rfl
      | some v =>
        rw [SimpleEnv.scan_some] at h ⊢
        obtain ⟨i, f, o, he, hn, hf⟩ := h
        exact ⟨i, f, o ++ [Frame.empty], by simp [he], hn, hf⟩
    rw [dist, dist, hg]
    cases SimpleEnv.get env n <;> rfl
  | operator op e => rw [dist, dist, dist_base env e]
  | metaOf e m =>
    rw [dist, dist, dist_base env e]
    dsimp only
    rw [dist_base _ m]
  | leaf t => rw [dist, dist]
  | node t cs => rw [dist, dist, distAll_base env cs]
  | letE bs b =>
    have hp : SimpleEnv.push (Frame.empty :: env) (opFrame bs Frame.empty)
        = Frame.empty :: SimpleEnv.push env (opFrame bs Frame.empty) := rfl
    rw [dist, dist]
    dsimp only
    rw [hp, distBinds_base _ (rebind bs)]
    dsimp only
    rw [dist_base _ b]
    have hl := dist_length (distBinds (SimpleEnv.push env (opFrame bs Frame.empty)) (rebind bs)).2 b
    rw [distBinds_length] at hl
    dsimp only
    generalize (dist _ b).2 = x at hl ⊢
    cases x with
    | nil => simp [SimpleEnv.push] at hl
    | cons a as => rfl
termination_by e => e.size
decreasing_by
  all_goals (first | (simp only [Expr.size]; omega) | skip)
  · have := rebind_size bs; simp only [Expr.size]; omega
theorem distBinds_base (env : SimpleEnv OpMeta) : ∀ bs : Binds,
    distBinds (Frame.empty :: env) bs
      = ((distBinds env bs).1, Frame.empty :: (distBinds env bs).2)
  | .nil => by rw [distBinds, distBinds]
  | .cons n v bs => by
    rw [distBinds, distBinds, dist_base env v]
    dsimp only
    rw [distBinds_base _ bs]
termination_by bs => bs.size
decreasing_by all_goals (simp only [Binds.size]; omega)
theorem distAll_base (env : SimpleEnv OpMeta) : ∀ es : Exprs,
    distAll (Frame.empty :: env) es
      = ((distAll env es).1, Frame.empty :: (distAll env es).2)
  | .nil => by rw [distAll, distAll]
  | .cons e es => by
    rw [distAll, distAll, dist_base env e]
    dsimp only
    rw [distAll_base _ es]
termination_by es => es.size
decreasing_by all_goals (simp only [Exprs.size]; omega)
theorem dist_length (env : SimpleEnv OpMeta) : ∀ e : Expr,
    (dist env e).2.length = env.length := by
  intro e
  cases e with
  | var s n => rw [dist]; cases SimpleEnv.get env n <;> rfl
  | operator op e => rw [dist]; exact dist_length env e
  | metaOf e m => rw [dist]; dsimp only; rw [dist_length _ m, dist_length env e]
  | leaf t => rw [dist]
  | node t cs => rw [dist]; exact distAll_length env cs
  | letE bs b =>
    rw [dist]; dsimp only
    rw [SimpleEnv.pop, List.length_dropLast, dist_length _ b, distBinds_length _ (rebind bs)]
    simp [SimpleEnv.push]
termination_by e => e.size
decreasing_by
  all_goals (first | (simp only [Expr.size]; omega) | skip)
  · have := rebind_size bs; simp only [Expr.size]; omega
theorem distBinds_length (env : SimpleEnv OpMeta) : ∀ bs : Binds,
    (distBinds env bs).2.length = env.length
  | .nil => by rw [distBinds]
  | .cons n v bs => by
    rw [distBinds]; dsimp only; rw [distBinds_length _ bs, dist_length env v]
termination_by bs => bs.size
decreasing_by all_goals (simp only [Binds.size]; omega)
theorem distAll_length (env : SimpleEnv OpMeta) : ∀ es : Exprs,
    (distAll env es).2.length = env.length
  | .nil => by rw [distAll]
  | .cons e es => by
    rw [distAll]; dsimp only; rw [distAll_length _ es, dist_length env e]
termination_by es => es.size
decreasing_by all_goals (simp only [Exprs.size]; omega)
end

/-- Without a prelude image: every use of an operator is marked with the
metadata of the innermost block that defines it, and nothing else is marked. -/
theorem distribute_marks (e : Expr) : Marked Frame.empty [] e (distribute e) := by
  have h := (dist_marked Frame.empty [] e).1
  have hb : envOf Frame.empty [] = Frame.empty :: SimpleEnv.new := rfl
  rw [hb, dist_base] at h
  exact h

/-- The marking is determined by the program: two correct markings agree. -/
theorem innermost_unique {bl : List Binds} {n : String} {op op' : OpMeta}
    (h : Innermost bl n op) (h' : Innermost bl n op') : op = op' := by
  have a := (envOf_get Frame.empty n bl).1 op h
  have b := (envOf_get Frame.empty n bl).1 op' h'
  rw [a] at b
  simpa using b

/-! ## A concrete program, and what is missing -/

def plus : OpMeta := ⟨7, .infixLeft, 75⟩
def plus' : OpMeta := ⟨9, .infixRight, 20⟩

/-- An inner block redefining an operator decides its fixity; outside it the
outer definition counts. -/
example : distribute (.letE (.cons "+" (.metaOf (.operator plus (.leaf 1)) (.leaf 2)) .nil)
      (.node 0 (.cons (.letE (.cons "+" (.operator plus' (.leaf 3)) .nil) (.var 0 "+"))
        (.cons (.var 5 "+") .nil))))
    = .letE (.cons "+" (.leaf 1) .nil)
      (.node 0 (.cons (.letE (.cons "+" (.leaf 3) .nil) (.operator plus' (.var 0 "+")))
        (.cons (.operator { plus with smid := 5 } (.var 5 "+")) .nil))) := by
  simp [distribute, dist, distAll, distBinds, rebind, expose, SimpleEnv.get, SimpleEnv.push,
    SimpleEnv.pop, SimpleEnv.new, SimpleEnv.scan, opFrame, Frame.insert, Frame.empty, callSmid, plus, plus']

/-- The block `bs` gives `n` a definition, of any kind. -/
def Defines (bs : Binds) (n : String) : Prop := ∃ v, (n, v) ∈ bs.toList

/-- What the property asks for in full: a use is marked only if the innermost
block that defines the name, in any way, defines it as an operator. -/
def RespectsInnermost (bl : List Binds) (n : String) (mark : Option OpMeta) : Prop :=
  ∀ inner bs outer, bl = inner ++ bs :: outer → (∀ b ∈ inner, ¬ Defines b n) → Defines bs n →
    ∀ op, mark = some op → DefinesOp bs n op

/-- The full property fails: an inner block that defines the name as a plain
value does not hide the outer operator's fixity.  Here the inner `+` is the
plain value `leaf 3`, yet its use is marked as the outer infix operator. -/
theorem plain_definition_does_not_hide_fixity :
    ∃ (outer inner : Binds) (s : Nat) (op : OpMeta) (i' : Binds) (o' : Binds),
      distribute (.letE outer (.letE inner (.var s "+")))
        = .letE o' (.letE i' (.operator op (.var s "+"))) ∧
      ¬ RespectsInnermost [inner, outer] "+" (some op) := by
  refine ⟨.cons "+" (.operator plus (.leaf 1)) .nil, .cons "+" (.leaf 3) .nil, 0, plus,
    .cons "+" (.leaf 3) .nil, .cons "+" (.leaf 1) .nil, ?_, ?_⟩
  · simp [distribute, dist, distBinds, rebind, expose, SimpleEnv.get, SimpleEnv.push,
      SimpleEnv.pop, SimpleEnv.new, SimpleEnv.scan, opFrame, Frame.insert, Frame.empty, callSmid, plus]
  · intro h
    obtain ⟨pre, v, e, post, he, hd, _⟩ := h [] _ _ rfl (by simp)
      ⟨.leaf 3, by simp [Binds.toList]⟩ plus rfl
    cases pre with
    | nil =>
      simp only [Binds.toList, List.nil_append, List.cons.injEq, Prod.mk.injEq] at he
      rw [← he.1.2] at hd
      cases hd
    | cons a as => simp [Binds.toList] at he

/-- The full property holds for programs in which no block redefines, as a plain
value, a name some other enclosing block defines as an operator. -/
theorem innermost_respected_partial (bl : List Binds) (n : String) (op : OpMeta)
    (hi : Innermost bl n op)
    (hp : ∀ b ∈ bl, Defines b n → ∃ op', DefinesOp b n op') :
    RespectsInnermost bl n (some op) := by
  intro inner bs outer he hn hd op' ho
  cases ho
  obtain ⟨opb, hb⟩ := hp bs (by simp [he]) hd
  have : Innermost bl n opb := by
    refine ⟨inner, bs, outer, he, ?_, hb⟩
    intro b hbm op' hd'
    obtain ⟨pre, v, e, post, hl, _⟩ := hd'
    exact hn b hbm ⟨v, by rw [hl]; simp⟩
  rw [innermost_unique hi this]
  exact hb

example : Innermost [.cons "x" (.leaf 0) .nil, .cons "+" (.operator plus (.leaf 1)) .nil] "+" plus := by
  refine innermost_cons.2 (.inr ⟨?_, innermost_cons.2 (.inl ?_)⟩)
  · rintro op ⟨pre, v, e, post, he, _⟩
    cases pre with
    | nil => simp [Binds.toList] at he
    | cons a as => simp [Binds.toList] at he
  · exact ⟨[], .operator plus (.leaf 1), .leaf 1, [], rfl, .op _ _, by simp⟩

end Verif.Scope
