import Verif.ExportLemmas

/-!
# The accumulator builds the document, and the maps keep the last value of each key
-/

namespace Verif.Export
open Verif.Arith (Num asI64 asU64 asF64)

variable {σ ω K V : Type}

/-! ## Feeding -/

theorem feed_append (E : Emitter σ ω) (s : σ) (a b : List Event) :
    E.feed s (a ++ b) =
      if (E.feed s a).2.2 then
        ((E.feed (E.feed s a).1 b).1, (E.feed s a).2.1 ++ (E.feed (E.feed s a).1 b).2.1, (E.feed (E.feed s a).1 b).2.2)
      else E.feed s a := by
  induction a generalizing s with
  | nil => simp [Emitter.feed]
  | cons e es ih =>
    simp only [List.cons_append, Emitter.feed]
    by_cases h : E.refuses s e = true
    · simp [h]
    · simp only [h]
      rw [ih]
      simp only [Bool.false_eq_true, if_false]
      split <;> simp_all

/-- An event of a document, not one of its ends. -/
def Inner : Event → Prop
  | .streamStart => False
  | .streamEnd => False
  | .docStart => False
  | .docEnd => False
  | _ => True

theorem consume_inner (F : Fmt K V) (a : Acc K V) {e} (h : Inner e) :
    (a.consume F e).result = a.result ∧ (a.consume F e).opened = a.opened := by
  cases e <;> simp only [Inner] at h <;> simp only [Acc.consume, and_self]
  · split <;> simp
  · split <;> simp

theorem feed_inner (F : Fmt K V) (tk : Bool) (u : Prim → Bool) : ∀ (es : List Event) (a : Acc K V),
    (∀ e ∈ es, Inner e) → a.result = none →
    ((tableEmitter F tk u).feed a es).2.1 = [] ∧ ((tableEmitter F tk u).feed a es).1.result = none ∧
    ((tableEmitter F tk u).feed a es).1.opened = a.opened
  | [], a, _, h => by simp [Emitter.feed, h]
  | e :: es, a, hi, h => by
    have h1 := consume_inner F a (hi e List.mem_cons_self)
    have ih := feed_inner F tk u es (a.consume F e) (fun x hx => hi x (List.mem_cons_of_mem _ hx)) (by rw [h1.1, h])
    simp only [Emitter.feed]
    split
    · simp [h]
    · simp only [tableEmitter] at ih ⊢
      rw [ih.1, ih.2.1, ih.2.2, h1.1, h1.2, h]
      simp

/-! ## Balanced events -/

/-- Events that open and close alike. -/
inductive Bal : List Event → Prop where
  | nil : Bal []
  | scalar {t p} : Bal [.scalar t p]
  | append {a b} : Bal a → Bal b → Bal (a ++ b)
  | seq {t es} : Bal es → Bal (.seqStart t :: (es ++ [.seqEnd]))
  | block {t es} : Bal es → Bal (.blockStart t :: (es ++ [.blockEnd]))

/-- Events cut short. -/
inductive Cut : List Event → Prop where
  | nil : Cut []
  | append {a b} : Bal a → Cut b → Cut (a ++ b)
  | seq {t es} : Cut es → Cut (.seqStart t :: es)
  | block {t es} : Cut es → Cut (.blockStart t :: es)

/-- The events of one value, or of none. -/
inductive Node : List Event → Prop where
  | nil : Node []
  | scalar {t p} : Node [.scalar t p]
  | seq {t es} : Bal es → Node (.seqStart t :: (es ++ [.seqEnd]))
  | block {t es} : Bal es → Node (.blockStart t :: (es ++ [.blockEnd]))

/-- The events of one value cut short. -/
inductive CutNode : List Event → Prop where
  | nil : CutNode []
  | seq {t es} : Cut es → CutNode (.seqStart t :: es)
  | block {t es} : Cut es → CutNode (.blockStart t :: es)

theorem Node.bal {es} (h : Node es) : Bal es := by
  cases h with
  | nil => exact .nil
  | scalar => exact .scalar
  | seq h => exact .seq h
  | block h => exact .block h

theorem CutNode.cut {es} (h : CutNode es) : Cut es := by
  cases h with
  | nil => exact .nil
  | seq h => exact .seq h
  | block h => exact .block h

theorem Bal.cut {es} (h : Bal es) : Cut es := by simpa using Cut.append h .nil

theorem Bal.inner {es} (h : Bal es) : ∀ e ∈ es, Inner e := by
  induction h with
  | nil => simp
  | scalar => simp [Inner]
  | append _ _ ih1 ih2 =>
    intro e he
    rcases List.mem_append.mp he with h | h
    · exact ih1 e h
    · exact ih2 e h
  | seq _ ih =>
    intro e he
    simp only [List.mem_cons, List.mem_append, List.not_mem_nil, or_false] at he
    rcases he with rfl | h | rfl
    · trivial
    · exact ih e h
    · trivial
  | block _ ih =>
    intro e he
    simp only [List.mem_cons, List.mem_append, List.not_mem_nil, or_false] at he
    rcases he with rfl | h | rfl
    · trivial
    · exact ih e h
    · trivial

theorem Cut.inner {es} (h : Cut es) : ∀ e ∈ es, Inner e := by
  induction h with
  | nil => simp
  | append h1 _ ih =>
    intro e he
    rcases List.mem_append.mp he with h | h
    · exact h1.inner e h
    · exact ih e h
  | seq _ ih =>
    intro e he
    rcases List.mem_cons.mp he with rfl | h
    · trivial
    · exact ih e h
  | block _ ih =>
    intro e he
    rcases List.mem_cons.mp he with rfl | h
    · trivial
    · exact ih e h

/-- A trace is balanced, or cut short by an error. -/
def Tr.Bal (t : Tr) : Prop := if t.ok then Export.Bal t.evs else Cut t.evs
def Tr.Node (t : Tr) : Prop := if t.ok then Export.Node t.evs else CutNode t.evs

theorem Tr.Node.bal {t : Tr} (h : t.Node) : t.Bal := by
  unfold Tr.Node at h; unfold Tr.Bal
  split <;> simp_all
  · exact h.bal
  · exact h.cut

theorem Tr.Bal.seq {a b : Tr} (ha : a.Bal) (hb : b.Bal) : (a.seq b).Bal := by
  unfold Tr.Bal at *
  unfold Tr.seq
  split
  · rename_i h
    rw [if_pos h] at ha
    simp only
    split
    · rename_i h'; rw [if_pos h'] at hb; exact .append ha hb
    · rename_i h'; rw [if_neg h'] at hb; exact .append ha hb
  · rename_i h
    rw [if_neg h] at ha
    exact ha

theorem Tr.Bal.done : Tr.done.Bal := Export.Bal.nil
theorem Tr.Bal.err : Tr.err.Bal := Cut.nil
theorem Tr.Node.err : Tr.err.Node := CutNode.nil
theorem Tr.Node.done : Tr.done.Node := Export.Node.nil

theorem bal_flatMap {α} (f : α → List Event) (xs : List α) (h : ∀ x ∈ xs, Bal (f x)) : Bal (xs.flatMap f) := by
  induction xs with
  | nil => exact .nil
  | cons x xs ih =>
    rw [List.flatMap_cons]
    exact .append (h x List.mem_cons_self) (ih fun y hy => h y (List.mem_cons_of_mem _ hy))

theorem bal_scalars {α} (f : α → Prim) (xs : List α) : Bal (xs.map fun e => Event.scalar none (f e)) := by
  induction xs with
  | nil => exact .nil
  | cons x xs ih => exact .append (a := [_]) .scalar ih

theorem nd_node : ∀ (shape : List Nat) (tag : Option String) (get : List Nat → Option Int),
    Node (emitNd tag shape get)
  | [], _, _ => .scalar
  | _ :: rest, _, _ => .seq (bal_flatMap _ _ fun _ _ => (nd_node rest none _).bal)

theorem native_node (t : Option String) (n : Native) : (emitNative t n).Node := by
  cases n with
  | sym => exact Node.scalar
  | str => exact Node.scalar
  | num => exact Node.scalar
  | zdt => exact Node.scalar
  | set xs => exact Node.seq (bal_scalars elemPrim xs)
  | vec xs => exact Node.seq (bal_scalars elemPrim xs)
  | nd s f => exact nd_node s t f
  | «opaque» => exact CutNode.nil

theorem wrap_seq {tag : TagLook} {b : Tr} (h : b.Bal) :
    ((start .seqStart tag).seq (b.seq (.send [.seqEnd]))).Node := by
  have key : ∀ t, (⟨[Event.seqStart t] ++ (b.seq (.send [.seqEnd])).evs, (b.seq (.send [.seqEnd])).ok⟩ : Tr).Node := by
    intro t
    unfold Tr.Bal at h; unfold Tr.Node Tr.seq
    cases hb : b.ok with
    | true =>
      simp only [hb, if_true] at h ⊢
      exact Export.Node.seq h
    | false =>
      simp only [hb, Bool.false_eq_true, if_false] at h ⊢
      exact CutNode.seq h
  cases tag with
  | absent => simpa [start] using key none
  | str c => simpa [start] using key c.tagText
  | fail => exact CutNode.nil

theorem wrap_block {tag : TagLook} {b : Tr} (h : b.Bal) :
    ((start .blockStart tag).seq (b.seq (.send [.blockEnd]))).Node := by
  have key : ∀ t, (⟨[Event.blockStart t] ++ (b.seq (.send [.blockEnd])).evs, (b.seq (.send [.blockEnd])).ok⟩ : Tr).Node := by
    intro t
    unfold Tr.Bal at h; unfold Tr.Node Tr.seq
    cases hb : b.ok with
    | true =>
      simp only [hb, if_true] at h ⊢
      exact Export.Node.block h
    | false =>
      simp only [hb, Bool.false_eq_true, if_false] at h ⊢
      exact CutNode.block h
  cases tag with
  | absent => simpa [start] using key none
  | str c => simpa [start] using key c.tagText
  | fail => exact CutNode.nil

theorem rend_node (v : Val) :
    (∀ top tag, (rend top tag v).Node) ∧ (items v).Bal ∧ (blockItems v).Bal ∧ (kv v).Bal := by
  induction v with
  | unit => exact ⟨fun _ _ => by rw [rend]; exact Node.scalar, .err, .err, .done⟩
  | tt => exact ⟨fun _ _ => by rw [rend]; exact Node.scalar, .err, .err, .done⟩
  | ff => exact ⟨fun _ _ => by rw [rend]; exact Node.scalar, .err, .err, .done⟩
  | fn => exact ⟨fun _ _ => by rw [rend]; exact .err, .err, .err, .done⟩
  | other => exact ⟨fun _ _ => by rw [rend]; exact .err, .err, .err, .done⟩
  | fail => exact ⟨fun _ _ => by rw [rend]; exact .err, .err, .err, .err⟩
  | bare n => exact ⟨fun _ _ => by rw [rend]; exact native_node _ _, .err, .err, .done⟩
  | box c =>
    refine ⟨fun _ tag => ?_, .err, .err, .done⟩
    rw [rend]
    cases tag <;> cases c <;> first | exact native_node _ _ | exact .err
  | nil =>
    refine ⟨fun _ tag => ?_, .done, .done, .done⟩
    rw [rend]
    have := wrap_seq (tag := tag) Tr.Bal.done
    simpa using this
  | cons h t ihh iht =>
    refine ⟨fun _ tag => ?_, ?_, ?_, ?_⟩
    · rw [rend]; exact wrap_seq ((ihh.1 _ _).bal.seq iht.2.1)
    · rw [items]; exact (ihh.1 _ _).bal.seq iht.2.1
    · rw [blockItems]; exact ihh.2.2.2.seq iht.2.2.1
    · rw [kv]; exact .done; all_goals simp
  | block i ih =>
    refine ⟨fun _ tag => ?_, .err, .err, .done⟩
    rw [rend]; exact wrap_block ih.2.2.1
  | pair k w ih =>
    refine ⟨fun _ _ => by rw [rend]; exact .err, .err, .err, ?_⟩
    rw [kv]
    split
    · exact .err
    · exact .done
    · exact (native_node _ _).bal.seq (ih.1 _ _).bal
  | kvlist l ih =>
    refine ⟨fun _ _ => by rw [rend]; exact .err, .err, .err, ?_⟩
    rw [kv]; exact ih.2.1
  | ann m w ih =>
    refine ⟨fun top tag => ?_, ?_, ?_, ?_⟩
    · rw [rend]
      split
      · split
        · exact .err
        · exact .done
        · exact ih.1 _ _
      · exact ih.1 _ _
    · rw [items]; exact ih.2.1
    · rw [blockItems]; exact ih.2.2.1
    · rw [kv]; exact ih.2.2.2

/-! ## The accumulator -/

mutual
/-- The document the accumulator builds. -/
def build (F : Fmt K V) : Data → V
  | .scalar t p => F.fromPrim t p
  | .list t xs => F.fromVec t (buildItems F xs)
  | .block t fs => F.fromPairs t (buildFields F fs)
def buildItems (F : Fmt K V) : Items → List V
  | .nil => []
  | .cons d r => build F d :: buildItems F r
def buildFields (F : Fmt K V) : Fields → List (K × V)
  | .nil => []
  | .cons k d r => (F.asKey (build F k), build F d) :: buildFields F r
end

theorem isText_dec (d : Data) : d.IsText ∨ ¬ d.IsText := Classical.em _

/-- Where a key is wanted and keys are text, the first event must be a scalar of text. -/
def KeyOk (tk : Bool) (a : Acc K V) (d : Data) : Prop := tk = true → a.expectingKey = true → d.IsText

section
variable (F : Fmt K V) (tk : Bool) (u : Prim → Bool)

theorem feed_cons {e : Event} {es : List Event} {a : Acc K V} (ha : a.result = none) (hi : Inner e)
    (hr : (tableEmitter F tk u).refuses a e = false) :
    (tableEmitter F tk u).feed a (e :: es) = (tableEmitter F tk u).feed (a.consume F e) es := by
  have h : ((tableEmitter F tk u).emit a e).2 = [] := by
    show (a.consume F e).result.toList = []
    rw [(consume_inner F a hi).1, ha]; rfl
  simp only [Emitter.feed, hr, Bool.false_eq_true, if_false, h, List.nil_append]
  rfl

theorem feed_stop {e : Event} {es : List Event} {a : Acc K V} (hr : (tableEmitter F tk u).refuses a e = true) :
    ((tableEmitter F tk u).feed a (e :: es)).2.2 = false := by
  simp [Emitter.feed, hr]

variable {F tk u} {T : Target V}

/-- What a format says of scalars and keys is what the emitter refuses. -/
structure Agrees (F : Fmt K V) (tk : Bool) (u : Prim → Bool) (T : Target V) : Prop where
  carries : ∀ p, T.carries p ↔ u p = false
  textKeys : T.textKeys ↔ tk = true

def accepted (F : Fmt K V) (a : Acc K V) (v : V) : Acc K V × List V × Bool :=
  ({ a with stack := feedStack F a.stack v }, [], true)

theorem append_ok {E : Emitter σ ω} {s s' : σ} {a b : List Event} (h : E.feed s a = (s', [], true)) :
    E.feed s (a ++ b) = E.feed s' b := by
  rw [feed_append, h]; simp

theorem append_no {E : Emitter σ ω} {s : σ} {a b : List Event} (h : (E.feed s a).2.2 = false) :
    (E.feed s (a ++ b)).2.2 = false := by
  rw [feed_append, h]; simp [h]

theorem refuses_scalar {t p} {a : Acc K V} :
    (tableEmitter F tk u).refuses a (.scalar t p) = true ↔
      u p = true ∨ (tk = true ∧ a.expectingKey = true ∧ ¬ (Data.scalar t p).IsText) := by
  simp only [Emitter.refuses, tableEmitter, Bool.or_eq_true, Bool.and_eq_true]
  cases p <;> simp [unrepresentableKey, Data.IsText]

theorem refuses_seq {t} {a : Acc K V} :
    (tableEmitter F tk u).refuses a (.seqStart t) = true ↔ tk = true ∧ a.expectingKey = true := by
  simp [Emitter.refuses, tableEmitter, unrepresentableKey]

theorem refuses_block {t} {a : Acc K V} :
    (tableEmitter F tk u).refuses a (.blockStart t) = true ↔ tk = true ∧ a.expectingKey = true := by
  simp [Emitter.refuses, tableEmitter, unrepresentableKey]

mutual
theorem feed_ser (G : Agrees F tk u T) : ∀ (d : Data) (a : Acc K V), a.result = none → a.stack ≠ [] →
    (Fits T d ∧ KeyOk tk a d → (tableEmitter F tk u).feed a (ser d) = accepted F a (build F d)) ∧
    (¬ (Fits T d ∧ KeyOk tk a d) → ((tableEmitter F tk u).feed a (ser d)).2.2 = false)
  | .scalar t p, a, ha, hs => by
    constructor
    · rintro ⟨hf, hk⟩
      have hr : (tableEmitter F tk u).refuses a (.scalar t p) = false := by
        rw [← Bool.not_eq_true, refuses_scalar]
        rintro (h | ⟨h1, h2, h3⟩)
        · rw [(G.carries p).mp hf] at h; cases h
        · exact h3 (hk h1 h2)
      rw [ser, feed_cons F tk u ha (by trivial) hr]
      rfl
    · intro h
      rw [ser]
      apply feed_stop
      rw [refuses_scalar]
      by_cases hu : u p = true
      · exact .inl hu
      · right
        have hf : Fits T (.scalar t p) := (G.carries p).mpr (by simpa using hu)
        have hk : ¬ KeyOk tk a (.scalar t p) := fun hk => h ⟨hf, hk⟩
        unfold KeyOk at hk
        refine ⟨?_, ?_, ?_⟩
        · exact Classical.byContradiction fun h1 => hk fun h => absurd h h1
        · exact Classical.byContradiction fun h1 => hk fun _ h => absurd h h1
        · exact fun h1 => hk fun _ _ => h1
  | .list t xs, a, ha, hs => by
    have key : KeyOk tk a (.list t xs) ↔ (tableEmitter F tk u).refuses a (.seqStart t) = false := by
      rw [← Bool.not_eq_true, refuses_seq]
      simp [KeyOk, Data.IsText]
    constructor
    · rintro ⟨hf, hk⟩
      rw [ser, feed_cons F tk u ha (by trivial) (key.mp hk),
        append_ok (feed_items G xs (a.consume F (.seqStart t)) ha t [] a.stack rfl |>.1 hf)]
      exact feed_cons F tk u (e := .seqEnd)
        (a := ⟨.list t ([] ++ buildItems F xs) :: a.stack, a.result, a.opened⟩) ha trivial
        (by simp [Emitter.refuses, tableEmitter, unrepresentableKey])
    · intro h
      rw [ser]
      by_cases hk : KeyOk tk a (.list t xs)
      · rw [feed_cons F tk u ha (by trivial) (key.mp hk)]
        apply append_no
        exact (feed_items G xs (a.consume F (.seqStart t)) ha t [] a.stack rfl).2 (fun hf => h ⟨hf, hk⟩)
      · apply feed_stop
        cases hr : (tableEmitter F tk u).refuses a (.seqStart t) with
        | true => rfl
        | false => exact absurd (key.mpr hr) hk
  | .block t fs, a, ha, hs => by
    have key : KeyOk tk a (.block t fs) ↔ (tableEmitter F tk u).refuses a (.blockStart t) = false := by
      rw [← Bool.not_eq_true, refuses_block]
      simp [KeyOk, Data.IsText]
    constructor
    · rintro ⟨hf, hk⟩
      rw [ser, feed_cons F tk u ha (by trivial) (key.mp hk),
        append_ok (feed_fields G fs (a.consume F (.blockStart t)) ha t [] a.stack rfl |>.1 hf)]
      exact feed_cons F tk u (e := .blockEnd)
        (a := ⟨.even t ([] ++ buildFields F fs) :: a.stack, a.result, a.opened⟩) ha trivial
        (by simp [Emitter.refuses, tableEmitter, unrepresentableKey])
    · intro h
      rw [ser]
      by_cases hk : KeyOk tk a (.block t fs)
      · rw [feed_cons F tk u ha (by trivial) (key.mp hk)]
        apply append_no
        exact (feed_fields G fs (a.consume F (.blockStart t)) ha t [] a.stack rfl).2 (fun hf => h ⟨hf, hk⟩)
      · apply feed_stop
        cases hr : (tableEmitter F tk u).refuses a (.blockStart t) with
        | true => rfl
        | false => exact absurd (key.mpr hr) hk
theorem feed_items (G : Agrees F tk u T) : ∀ (xs : Items) (a : Acc K V), a.result = none →
    ∀ t vs rest, a.stack = .list t vs :: rest →
    (FitsItems T xs → (tableEmitter F tk u).feed a (serItems xs) =
      ({ a with stack := .list t (vs ++ buildItems F xs) :: rest }, [], true)) ∧
    (¬ FitsItems T xs → ((tableEmitter F tk u).feed a (serItems xs)).2.2 = false)
  | .nil, a, ha, t, vs, rest, hs => by
    refine ⟨fun _ => ?_, fun h => absurd trivial h⟩
    rw [serItems, Emitter.feed, buildItems, List.append_nil, ← hs]
  | .cons d r, a, ha, t, vs, rest, hs => by
    have hk : KeyOk tk a d := by
      intro _ h; simp [Acc.expectingKey, hs] at h
    have h1 := feed_ser G d a ha (by simp [hs])
    have h2 := feed_items G r { a with stack := .list t (vs ++ [build F d]) :: rest } ha t _ rest rfl
    have hacc : accepted F a (build F d) = ({ a with stack := .list t (vs ++ [build F d]) :: rest }, [], true) := by
      simp [accepted, hs, feedStack, Expect.feed]
    constructor
    · rintro ⟨hd, hr⟩
      rw [serItems, append_ok ((h1.1 ⟨hd, hk⟩).trans hacc), h2.1 hr]
      simp [buildItems]
    · intro h
      rw [serItems]
      by_cases hd : Fits T d
      · rw [append_ok ((h1.1 ⟨hd, hk⟩).trans hacc)]
        exact h2.2 fun hr => h ⟨hd, hr⟩
      · exact append_no (h1.2 fun h => hd h.1)
theorem feed_fields (G : Agrees F tk u T) : ∀ (fs : Fields) (a : Acc K V), a.result = none →
    ∀ t kvs rest, a.stack = .even t kvs :: rest →
    (FitsFields T fs → (tableEmitter F tk u).feed a (serFields fs) =
      ({ a with stack := .even t (kvs ++ buildFields F fs) :: rest }, [], true)) ∧
    (¬ FitsFields T fs → ((tableEmitter F tk u).feed a (serFields fs)).2.2 = false)
  | .nil, a, ha, t, kvs, rest, hs => by
    refine ⟨fun _ => ?_, fun h => absurd trivial h⟩
    rw [serFields, Emitter.feed, buildFields, List.append_nil, ← hs]
  | .cons k d r, a, ha, t, kvs, rest, hs => by
    have hk : KeyOk tk a k ↔ (T.textKeys → k.IsText) := by
      simp [KeyOk, Acc.expectingKey, hs, G.textKeys]
    let a1 : Acc K V := { a with stack := .odd t kvs (F.asKey (build F k)) :: rest }
    let a2 : Acc K V := { a with stack := .even t (kvs ++ [(F.asKey (build F k), build F d)]) :: rest }
    have h1 := feed_ser G k a ha (by simp [hs])
    have hk2 : KeyOk tk a1 d := by
      intro _ h; simp [Acc.expectingKey, a1] at h
    have h2 := feed_ser G d a1 ha (by simp [a1])
    have h3 := feed_fields G r a2 ha t _ rest rfl
    have hacc1 : accepted F a (build F k) = (a1, [], true) := by
      simp [accepted, hs, feedStack, Expect.feed, a1]
    have hacc2 : accepted F a1 (build F d) = (a2, [], true) := by
      simp [accepted, feedStack, Expect.feed, a1, a2]
    constructor
    · rintro ⟨htk, hfk, hd, hr⟩
      rw [serFields, List.append_assoc, append_ok ((h1.1 ⟨hfk, hk.mpr htk⟩).trans hacc1),
        append_ok ((h2.1 ⟨hd, hk2⟩).trans hacc2), h3.1 hr]
      simp [buildFields, a2]
    · intro h
      rw [serFields, List.append_assoc]
      by_cases hfk : Fits T k ∧ KeyOk tk a k
      · rw [append_ok ((h1.1 hfk).trans hacc1)]
        by_cases hd : Fits T d
        · rw [append_ok ((h2.1 ⟨hd, hk2⟩).trans hacc2)]
          exact h3.2 fun hr => h ⟨hk.mp hfk.2, hfk.1, hd, hr⟩
        · exact append_no (h2.2 fun h => hd h.1)
      · exact append_no (h1.2 hfk)
end

end

/-! ## A run of an emitter over an accumulator -/

section
variable (F : Fmt K V) (tk : Bool) (u : Prim → Bool)

/-- The state when the document begins. -/
def begun : Acc K V := ⟨[.value (F.fromPairs none [])], none, true⟩

theorem renderDoc_evs (v : Val) :
    (renderDoc v).evs = .docStart :: ((rend true .absent v).evs ++ if (rend true .absent v).ok then [.docEnd] else []) ∧
    (renderDoc v).ok = (rend true .absent v).ok := by
  unfold renderDoc Tr.seq Tr.send
  cases h : (rend true .absent v).ok <;> simp [h]

theorem run_eq (v : Val) :
    (tableEmitter F tk u).run v =
      (let b := (tableEmitter F tk u).feed (begun F) ((rend true .absent v).evs ++ if (rend true .absent v).ok then [.docEnd] else [])
       (b.2.1 ++ ((tableEmitter F tk u).emit b.1 .streamEnd).2, (rend true .absent v).ok && b.2.2)) := by
  have h : ∀ es, (tableEmitter F tk u).feed ⟨[], none, false⟩ (.docStart :: es) =
      (tableEmitter F tk u).feed (begun F) es := by
    intro es; cases tk <;> rfl
  simp only [Emitter.run]
  rw [(renderDoc_evs v).1, (renderDoc_evs v).2]
  rw [show ((tableEmitter F tk u).emit (tableEmitter F tk u).init .streamStart).1 = ⟨[], none, false⟩ from rfl, h]
  rfl

/-- What is not accepted is not written. -/
theorem run_cut {es : List Event} (hi : ∀ e ∈ es, Inner e) :
    let b := (tableEmitter F tk u).feed (begun F) es
    b.2.1 ++ ((tableEmitter F tk u).emit b.1 .streamEnd).2 = [] := by
  obtain ⟨h1, h2, h3⟩ := feed_inner F tk u es (begun F) hi rfl
  have h3' : ((tableEmitter F tk u).feed (begun F) es).1.opened = true := h3
  simp only [h1, List.nil_append]
  show (Acc.consume F _ .streamEnd).result.toList = []
  simp only [Acc.consume, h3', if_true, h2]
  rfl

theorem rend_inner (v : Val) : ∀ e ∈ (rend true .absent v).evs, Inner e := by
  have h := (rend_node v).1 true .absent
  unfold Tr.Node at h
  split at h
  · exact h.bal.inner
  · exact h.cut.inner

/-- A run that fails writes nothing. -/
theorem run_fails (v : Val) (h : ((tableEmitter F tk u).run v).2 = false) :
    ((tableEmitter F tk u).run v).1 = [] := by
  rw [run_eq] at h ⊢
  simp only at h ⊢
  have hi := rend_inner v
  cases hok : (rend true .absent v).ok with
  | false =>
    simp only [Bool.false_eq_true, if_false, List.append_nil]
    exact run_cut F tk u hi
  | true =>
    simp only [hok, if_true, Bool.true_and] at h ⊢
    have hno : ((tableEmitter F tk u).feed (begun F) (rend true .absent v).evs).2.2 = false := by
      cases hb : ((tableEmitter F tk u).feed (begun F) (rend true .absent v).evs).2.2 with
      | false => rfl
      | true =>
        rw [feed_append, if_pos hb] at h
        simp [Emitter.feed, Emitter.refuses, tableEmitter, unrepresentableKey] at h
    have : (tableEmitter F tk u).feed (begun F) ((rend true .absent v).evs ++ [.docEnd]) =
        (tableEmitter F tk u).feed (begun F) (rend true .absent v).evs := by
      rw [feed_append, hno]; rfl
    rw [this]
    exact run_cut F tk u hi

/-- The kind of an expectation. -/
def SameKind : Expect K V → Expect K V → Prop
  | .value _, .value _ => True
  | .list _ _, .list _ _ => True
  | .even _ _, .even _ _ => True
  | .even _ _, .odd _ _ _ => True
  | .odd _ _ _, .even _ _ => True
  | .odd _ _ _, .odd _ _ _ => True
  | _, _ => False

theorem SameKind.refl (x : Expect K V) : SameKind x x := by cases x <;> trivial
theorem SameKind.trans {x y z : Expect K V} (h1 : SameKind x y) (h2 : SameKind y z) : SameKind x z := by
  cases x <;> cases y <;> first | (exact absurd h1 id) | (cases z <;> first | trivial | exact absurd h2 id)
theorem SameKind.feed (x : Expect K V) (v : V) : SameKind x (x.feed F v) := by cases x <;> trivial

/-- Balanced events leave the stack as it was but for what the top has taken. -/
theorem bal_stack {es : List Event} (h : Bal es) : ∀ (a : Acc K V) top rest, a.result = none →
    a.stack = top :: rest → ((tableEmitter F tk u).feed a es).2.2 = true →
    ∃ top', ((tableEmitter F tk u).feed a es).1 = { a with stack := top' :: rest } ∧ SameKind top top' := by
  have single : ∀ (e : Event) (a : Acc K V), ((tableEmitter F tk u).feed a [e]).2.2 = true →
      ((tableEmitter F tk u).feed a [e]).1 = a.consume F e := by
    intro e a h
    simp only [Emitter.feed] at h ⊢
    split at h
    · cases h
    · rename_i hr; simp [hr]; rfl
  induction h with
  | nil => intro a top rest _ hs _; exact ⟨top, by simp [Emitter.feed, ← hs], .refl _⟩
  | scalar =>
    intro a top rest _ hs h
    rw [single _ _ h]
    exact ⟨_, by simp [Acc.consume, hs, feedStack]; rfl, SameKind.feed F _ _⟩
  | @append x y h1 h2 ih1 ih2 =>
    intro a top rest ha hs h
    rw [feed_append] at h ⊢
    cases hx : ((tableEmitter F tk u).feed a x).2.2 with
    | false => rw [hx] at h; simp [hx] at h
    | true =>
      simp only [hx, if_true] at h ⊢
      obtain ⟨t1, e1, k1⟩ := ih1 a top rest ha hs hx
      rw [e1] at h ⊢
      obtain ⟨t2, e2, k2⟩ := ih2 { a with stack := t1 :: rest } t1 rest ha rfl h
      exact ⟨t2, e2, k1.trans k2⟩
  | @seq t es hb ih =>
    intro a top rest ha hs h
    cases hr : (tableEmitter F tk u).refuses a (.seqStart t) with
    | true => rw [feed_stop F tk u hr] at h; cases h
    | false =>
      rw [feed_cons F tk u ha (by trivial) hr] at h ⊢
      rw [feed_append] at h ⊢
      cases hx : ((tableEmitter F tk u).feed (a.consume F (.seqStart t)) es).2.2 with
      | false => rw [hx] at h; simp [hx] at h
      | true =>
        simp only [hx, if_true] at h ⊢
        obtain ⟨t1, e1, k1⟩ := ih (a.consume F (.seqStart t)) (.list t []) a.stack ha rfl hx
        rw [e1] at h ⊢
        rw [single _ _ h]
        cases t1 with
        | list t' xs =>
          exact ⟨top.feed F (F.fromVec t' xs), by simp only [Acc.consume, hs, feedStack], SameKind.feed F _ _⟩
        | _ => exact absurd k1 id
  | @block t es hb ih =>
    intro a top rest ha hs h
    cases hr : (tableEmitter F tk u).refuses a (.blockStart t) with
    | true => rw [feed_stop F tk u hr] at h; cases h
    | false =>
      rw [feed_cons F tk u ha (by trivial) hr] at h ⊢
      rw [feed_append] at h ⊢
      cases hx : ((tableEmitter F tk u).feed (a.consume F (.blockStart t)) es).2.2 with
      | false => rw [hx] at h; simp [hx] at h
      | true =>
        simp only [hx, if_true] at h ⊢
        obtain ⟨t1, e1, k1⟩ := ih (a.consume F (.blockStart t)) (.even t []) a.stack ha rfl hx
        rw [e1] at h ⊢
        rw [single _ _ h]
        cases t1 with
        | even t' xs =>
          exact ⟨top.feed F (F.fromPairs t' xs), by simp only [Acc.consume, hs, feedStack], SameKind.feed F _ _⟩
        | odd t' xs k =>
          exact ⟨top, by simp only [Acc.consume, hs], .refl _⟩
        | _ => exact absurd k1 id

theorem finish {a : Acc K V} {v : V} (h : a = ⟨[.value v], none, true⟩) :
    (tableEmitter F tk u).feed a [.docEnd] = (⟨[.value v], none, false⟩, [], true) ∧
    ((tableEmitter F tk u).emit ⟨[.value v], none, false⟩ .streamEnd).2 = [v] := by
  subst h; exact ⟨by cases tk <;> rfl, rfl⟩

/-- A run that succeeds writes one document. -/
theorem run_succeeds (v : Val) (h : ((tableEmitter F tk u).run v).2 = true) :
    ∃ doc, ((tableEmitter F tk u).run v).1 = [doc] := by
  rw [run_eq] at h ⊢
  simp only [Bool.and_eq_true] at h ⊢
  have hn := (rend_node v).1 true .absent
  unfold Tr.Node at hn
  rw [if_pos h.1] at hn
  simp only [h.1, if_true] at h ⊢
  have hi := rend_inner v
  have h2 := h.2
  rw [feed_append] at h2 ⊢
  cases hx : ((tableEmitter F tk u).feed (begun F) (rend true .absent v).evs).2.2 with
  | false => rw [hx] at h2; simp [hx] at h2
  | true =>
    simp only [if_true]
    obtain ⟨top', e1, k1⟩ := bal_stack F tk u hn.bal (begun F) _ [] rfl rfl hx
    have hw := (feed_inner F tk u _ (begun F) hi rfl).1
    cases top' with
    | value w =>
      have := finish F tk u (a := ((tableEmitter F tk u).feed (begun F) (rend true .absent v).evs).1) (v := w)
        (by rw [e1]; rfl)
      rw [this.1, this.2, hw]
      exact ⟨w, rfl⟩
    | _ => exact absurd k1 id

variable {F tk u} {T : Target V}

/-- Data that the format can carry is built; other data is refused. -/
theorem run_data (G : Agrees F tk u T) {v : Val} {d : Data} (hv : rend true .absent v = .send (ser d)) :
    (Fits T d → (tableEmitter F tk u).run v = ([build F d], true)) ∧
    (¬ Fits T d → (tableEmitter F tk u).run v = ([], false)) := by
  have hk : KeyOk tk (begun F) d := by
    intro _ h; simp [Acc.expectingKey, begun] at h
  have key := feed_ser G d (begun F) rfl (by simp [begun])
  constructor
  · intro hf
    have h1 := key.1 ⟨hf, hk⟩
    rw [run_eq, hv]
    simp only [Tr.send_evs, Tr.send_ok, if_true]
    rw [append_ok h1]
    have := finish F tk u (a := (⟨[.value (build F d)], none, true⟩ : Acc K V)) (v := build F d) rfl
    rw [show ({ begun F with stack := feedStack F (begun F).stack (build F d) } : Acc K V) =
      ⟨[.value (build F d)], none, true⟩ from rfl, this.1, this.2]
    rfl
  · intro hf
    have h1 := key.2 fun h => hf h.1
    have h2 : ((tableEmitter F tk u).run v).2 = false := by
      rw [run_eq, hv]
      simp only [Tr.send_evs, Tr.send_ok, if_true, Bool.true_and]
      exact append_no h1
    have h3 := run_fails F tk u v h2
    exact Prod.ext h3 h2

/-- A value to be left out at the root gives the empty table. -/
theorem run_hidden {v : Val} (h : Hidden v) :
    (tableEmitter F tk u).run v = ([F.fromPairs none []], true) := by
  obtain ⟨m, w, rfl, hm⟩ := h
  have : rend true .absent (.ann m w) = Tr.done := by rw [rend, if_pos rfl, hides_iff.mp hm]
  rw [run_eq, this]
  cases tk <;> rfl

end

/-- What the accumulator builds stands for the data. -/
structure Faithful (F : Fmt K V) (T : Target V) : Prop where
  scalar : ∀ t p, T.carries p → T.scalar t p (F.fromPrim t p)
  list : ∀ t vs, T.list t vs (F.fromVec t vs)
  table : ∀ t (kvs : List (V × V)),
    (T.textKeys → ∀ p ∈ kvs, ∃ t s, p.1 = F.fromPrim t (.sym s) ∨ p.1 = F.fromPrim t (.str s)) →
    T.table t kvs (F.fromPairs t (kvs.map fun p => (F.asKey p.1, p.2)))

variable {F : Fmt K V} {T : Target V}

mutual
theorem build_repr (H : Faithful F T) : ∀ d : Data, Fits T d → Repr T d (build F d)
  | .scalar t p, h => .scalar (H.scalar t p h)
  | .list t xs, h => .list (buildItems_repr H xs h) (H.list t _)
  | .block t fs, h => by
    obtain ⟨kvs, h1, h2, h3⟩ := buildFields_repr H fs h
    have := H.table t kvs h3
    rw [← h2] at this
    exact .block h1 this
theorem buildItems_repr (H : Faithful F T) : ∀ xs : Items, FitsItems T xs → ReprItems T xs (buildItems F xs)
  | .nil, _ => .nil
  | .cons d r, h => .cons (build_repr H d h.1) (buildItems_repr H r h.2)
theorem buildFields_repr (H : Faithful F T) : ∀ fs : Fields, FitsFields T fs →
    ∃ kvs, ReprFields T fs kvs ∧ buildFields F fs = (kvs.map fun p => (F.asKey p.1, p.2)) ∧
      (T.textKeys → ∀ p ∈ kvs, ∃ t s, p.1 = F.fromPrim t (.sym s) ∨ p.1 = F.fromPrim t (.str s))
  | .nil, _ => ⟨[], .nil, rfl, fun _ p hp => absurd hp (by simp)⟩
  | .cons k d r, h => by
    obtain ⟨kvs, h1, h2, h3⟩ := buildFields_repr H r h.2.2.2
    refine ⟨(build F k, build F d) :: kvs, .cons (build_repr H k h.2.1) (build_repr H d h.2.2.1) h1,
      by simp [buildFields, h2], ?_⟩
    intro ht p hp
    rcases List.mem_cons.mp hp with rfl | hp
    · have hk := h.1 ht
      cases k with
      | scalar t p =>
        cases p with
        | sym s => exact ⟨t, s, .inl rfl⟩
        | str s => exact ⟨t, s, .inr rfl⟩
        | _ => exact absurd hk id
      | _ => exact absurd hk id
    · exact h3 ht p hp
end

end Verif.Export
