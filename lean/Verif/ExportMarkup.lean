import Verif.ExportMaps

/-!
# Text and markup
-/

namespace Verif.Export

variable (D : Display)

theorem asText_eq (p : Prim) : asText D p = textOf D p := by
  cases p with
  | bool b => cases b <;> rfl
  | _ => rfl

/-! ## Text -/

/-- The line of an event. -/
def lineOf : Event → List String
  | .scalar _ p => [textOf D p]
  | _ => []

theorem text_feed (es : List Event) : (textEmitter D).feed () es = ((), es.flatMap (lineOf D), true) := by
  induction es with
  | nil => rfl
  | cons e es ih =>
    have hr : (textEmitter D).refuses () e = false := by cases e <;> rfl
    have he : (textEmitter D).emit () e = ((), lineOf D e) := by
      cases e <;> simp [textEmitter, lineOf, asText_eq]
    simp only [Emitter.feed, hr, Bool.false_eq_true, if_false, he, ih, List.flatMap_cons]

mutual
theorem ser_lines : ∀ d : Data, (ser d).flatMap (lineOf D) = lines D d
  | .scalar t p => by simp [ser, lineOf, lines]
  | .list t xs => by simp [ser, lineOf, lines, ser_linesItems xs]
  | .block t fs => by simp [ser, lineOf, lines, ser_linesFields fs]
theorem ser_linesItems : ∀ xs : Items, (serItems xs).flatMap (lineOf D) = linesItems D xs
  | .nil => by simp [serItems, linesItems]
  | .cons d r => by simp [serItems, linesItems, ser_lines d, ser_linesItems r]
theorem ser_linesFields : ∀ fs : Fields, (serFields fs).flatMap (lineOf D) = linesFields D fs
  | .nil => by simp [serFields, linesFields]
  | .cons k d r => by simp [serFields, linesFields, ser_lines k, ser_lines d, ser_linesFields r]
end

theorem text_run (v : Val) :
    (textEmitter D).run v = ((rend true .absent v).evs.flatMap (lineOf D), (rend true .absent v).ok) := by
  simp only [Emitter.run]
  rw [(renderDoc_evs v).1, (renderDoc_evs v).2]
  rw [show ((textEmitter D).emit (textEmitter D).init .streamStart).1 = () from rfl, text_feed]
  cases (rend true .absent v).ok <;> simp [lineOf, textEmitter]

/-! ## Markup -/

variable {D}

theorem mfeed_cons {m : MState} {e : Event} {es : List Event} (hr : m.unacceptable e = false)
    (hw : (m.emit D e).2 = []) : (htmlEmitter D).feed m (e :: es) = (htmlEmitter D).feed (m.emit D e).1 es := by
  have hr' : (htmlEmitter D).refuses m e = false := by cases e <;> exact hr
  simp only [Emitter.feed, hr', Bool.false_eq_true, if_false]
  rw [show (htmlEmitter D).emit m e = m.emit D e from rfl, hw]
  rfl

theorem mfeed_attrs {fs as} (h : AttrsOf D fs as) : ∀ (m : MState) (bs : List (String × String)) (rest : List MExpect),
    m.stack = .even bs :: rest →
    (htmlEmitter D).feed m (serFields fs) = ({ m with stack := .even (bs ++ as) :: rest }, [], true) := by
  induction h with
  | nil => intro m bs rest hs; rw [serFields, Emitter.feed, List.append_nil, ← hs]
  | @cons t u k v r as hr ih =>
    intro m bs rest hs
    simp only [serFields, ser, List.cons_append, List.nil_append]
    rw [mfeed_cons (by simp [MState.unacceptable, hs]) (by simp [MState.emit, hs])]
    have e1 : (m.emit D (.scalar t k)).1 = { m with stack := .odd bs (textOf D k) :: rest } := by
      simp [MState.emit, hs, MExpect.feedStr, asText_eq]
    rw [e1, mfeed_cons (by simp [MState.unacceptable]) (by simp [MState.emit])]
    have e2 : (({ m with stack := .odd bs (textOf D k) :: rest } : MState).emit D (.scalar u v)).1 =
        { m with stack := .even (bs ++ [(textOf D k, textOf D v)]) :: rest } := by
      simp [MState.emit, MExpect.feedStr, asText_eq]
    rw [e2, ih _ (bs ++ [(textOf D k, textOf D v)]) rest rfl]
    simp

mutual
theorem mfeed_element {d e} (h : ElementOf D d e) (m : MState) :
    (htmlEmitter D).feed m (ser d) = (m.close e m.stack, [], true) := by
  cases h with
  | @full t u w p fs as cs is ha hc =>
    simp only [ser, serItems, List.cons_append, List.nil_append]
    rw [mfeed_cons (by rfl) (by rfl)]
    rw [mfeed_cons (by rfl) (by rfl)]
    rw [mfeed_cons (by rfl) (by rfl)]
    rw [List.append_assoc, List.append_assoc]
    rw [append_ok (mfeed_attrs ha _ [] _ rfl)]
    rw [List.cons_append, mfeed_cons (by rfl) (by rfl)]
    rw [show ∀ x : List Event, [] ++ x = x from fun _ => rfl]
    refine (append_ok (mfeed_content hc _ (asText D p) ([] ++ as) [] m.stack rfl)).trans ?_
    rw [mfeed_cons (by rfl) (by rfl)]
    simp only [Emitter.feed, MState.emit, List.nil_append, asText_eq]
    cases m.stack <;> rfl
  | @bare t u p =>
    simp only [ser, serItems, List.cons_append, List.nil_append]
    rw [mfeed_cons (by rfl) (by rfl)]
    rw [mfeed_cons (by rfl) (by rfl)]
    rw [mfeed_cons (by rfl) (by rfl)]
    simp only [Emitter.feed, MState.emit, MExpect.feedStr, asText_eq]
    cases m.stack <;> rfl
theorem mfeed_content {cs is} (h : ContentOf D cs is) (m : MState) (t : String) (as : List (String × String))
    (c : List Item) (rest : List MExpect) (hs : m.stack = .opened t as c :: rest) :
    (htmlEmitter D).feed m (serItems cs) = ({ m with stack := .opened t as (c ++ is) :: rest }, [], true) := by
  cases h with
  | nil => rw [serItems, Emitter.feed, List.append_nil, ← hs]
  | @text t' p r is hr =>
    simp only [serItems, ser, List.cons_append, List.nil_append]
    rw [mfeed_cons (by simp [MState.unacceptable, hs]) (by simp [MState.emit, hs])]
    have e1 : (m.emit D (.scalar t' p)).1 = { m with stack := .opened t as (c ++ [.content (textOf D p)]) :: rest } := by
      simp [MState.emit, hs, MExpect.feedStr, asText_eq]
    rw [e1, mfeed_content hr _ t as (c ++ [.content (textOf D p)]) rest rfl]
    simp
  | @element d e r is he hr =>
    rw [serItems, append_ok (mfeed_element he m), hs]
    rw [show m.close e (.opened t as c :: rest) = { m with stack := .opened t as (c ++ [.element e]) :: rest } from rfl]
    rw [mfeed_content hr _ t as (c ++ [.element e]) rest rfl]
    simp
end

theorem html_run_eq (v : Val) :
    (htmlEmitter D).run v =
      (let b := (htmlEmitter D).feed ⟨[], none⟩ ((rend true .absent v).evs ++ if (rend true .absent v).ok then [.docEnd] else [])
       (b.2.1 ++ (b.1.emit D .streamEnd).2, (rend true .absent v).ok && b.2.2)) := by
  simp only [Emitter.run]
  rw [(renderDoc_evs v).1, (renderDoc_evs v).2]
  rfl

/-- An element is written as it is. -/
theorem html_run_element {v d e} (hv : rend true .absent v = .send (ser d)) (h : ElementOf D d e) :
    (htmlEmitter D).run v = ([e], true) := by
  rw [html_run_eq, hv]
  simp only [Tr.send_evs, Tr.send_ok, if_true]
  rw [append_ok (mfeed_element h ⟨[], none⟩)]
  rfl

/-- At the root a scalar or a block is refused. -/
theorem html_run_root {v : Val} {d} (hv : rend true .absent v = .send (ser d)) (h : ∀ t xs, d ≠ .list t xs) :
    (htmlEmitter D).run v = ([], false) := by
  rw [html_run_eq, hv]
  cases d with
  | list t xs => exact absurd rfl (h t xs)
  | scalar t p => rfl
  | block t fs => simp [ser, Emitter.feed, Emitter.refuses, htmlEmitter, MState.unacceptable, MState.emit]

/-! ### Nothing is written before the root is closed -/

/-- How an event changes the depth. -/
def depth : Event → Nat → Nat
  | .seqStart _, n => n + 1
  | .blockStart _, n => n + 1
  | .seqEnd, n => n - 1
  | .blockEnd, n => n - 1
  | _, n => n

theorem memit_depth {m : MState} {e : Event} (hi : Inner e) (hr : m.unacceptable e = false) (h0 : m.stack ≠ []) :
    (m.emit D e).2 = [] ∧
    (m.emit D e).1.stack.length =
      depth e m.stack.length ∧
    (2 ≤ m.stack.length ∨ (e ≠ .seqEnd) → (m.emit D e).1.result = m.result) := by
  obtain ⟨st, res⟩ := m
  cases st with
  | nil => exact absurd rfl h0
  | cons top rest =>
    cases e with
    | scalar t p => simp [MState.emit, depth]
    | seqStart t => simp [MState.emit, depth]
    | blockStart t => simp [MState.emit, depth]
    | seqEnd =>
      cases top <;> cases rest <;> simp [MState.emit, MState.close, MState.unacceptable, depth] at hr ⊢
    | blockEnd =>
      cases top <;> cases rest <;> simp [MState.emit, MState.unacceptable, depth] at hr ⊢
    | _ => exact absurd hi id

theorem mrefuses (m : MState) (e : Event) : (htmlEmitter D).refuses m e = m.unacceptable e := by cases e <;> rfl

theorem mfeed_step (m : MState) (e : Event) (es : List Event) :
    (htmlEmitter D).feed m (e :: es) =
      if m.unacceptable e then (m, [], false)
      else (((htmlEmitter D).feed (m.emit D e).1 es).1, (m.emit D e).2 ++ ((htmlEmitter D).feed (m.emit D e).1 es).2.1,
        ((htmlEmitter D).feed (m.emit D e).1 es).2.2) := by
  simp only [Emitter.feed, mrefuses]; rfl

/-- Balanced events within an element write nothing, close nothing around them, and end where they began. -/
theorem mbal {es : List Event} (h : Bal es) : ∀ m : MState, m.stack ≠ [] →
    ((htmlEmitter D).feed m es).2.1 = [] ∧ ((htmlEmitter D).feed m es).1.result = m.result ∧
    (((htmlEmitter D).feed m es).2.2 = true → ((htmlEmitter D).feed m es).1.stack.length = m.stack.length) := by
  have single : ∀ (m : MState) (e : Event), m.stack ≠ [] → Inner e →
      ((htmlEmitter D).feed m [e]).2.1 = [] ∧
      ((2 ≤ m.stack.length ∨ e ≠ .seqEnd) → ((htmlEmitter D).feed m [e]).1.result = m.result) ∧
      (((htmlEmitter D).feed m [e]).2.2 = true → ((htmlEmitter D).feed m [e]).1.stack.length =
        depth e m.stack.length) := by
    intro m e h0 hi
    rw [mfeed_step]
    cases hr : m.unacceptable e with
    | true => simp
    | false =>
      obtain ⟨a, b, c⟩ := memit_depth (D := D) hi hr h0
      simp only [Bool.false_eq_true, if_false, Emitter.feed, a, List.append_nil, true_and]
      exact ⟨c, fun _ => b⟩
  induction h with
  | nil => intro m _; simp [Emitter.feed]
  | scalar =>
    intro m h0
    obtain ⟨a, b, c⟩ := single m (.scalar _ _) h0 trivial
    exact ⟨a, b (.inr (by simp)), c⟩
  | @append x y _ _ ih1 ih2 =>
    intro m h0
    obtain ⟨a, b, c⟩ := ih1 m h0
    rw [feed_append]
    cases hx : ((htmlEmitter D).feed m x).2.2 with
    | false => simp [a, b, hx]
    | true =>
      have hl := c hx
      have h1 : ((htmlEmitter D).feed m x).1.stack ≠ [] := by
        intro e; rw [e] at hl; apply h0; exact List.length_eq_zero_iff.mp hl.symm
      obtain ⟨a', b', c'⟩ := ih2 _ h1
      simp only [if_true, a, a', List.append_nil, true_and]
      exact ⟨b'.trans b, fun h => (c' h).trans hl⟩
  | @seq t es hb ih =>
    intro m h0
    have h1 : ((m.emit D (.seqStart t)).1).stack = .empty :: m.stack := rfl
    rw [mfeed_cons (by rfl) (by rfl), feed_append]
    obtain ⟨a, b, c⟩ := ih (m.emit D (.seqStart t)).1 (by rw [h1]; simp)
    cases hx : ((htmlEmitter D).feed (m.emit D (.seqStart t)).1 es).2.2 with
    | false =>
      simp only [Bool.false_eq_true, if_false, a, hx, true_and]
      exact ⟨b, fun h => absurd h (by simp)⟩
    | true =>
      have hl := c hx
      rw [h1] at hl
      simp only [List.length_cons] at hl
      have h2 : ((htmlEmitter D).feed (m.emit D (.seqStart t)).1 es).1.stack ≠ [] := by
        intro e; rw [e] at hl; simp at hl
      obtain ⟨a', b', c'⟩ := single _ .seqEnd h2 trivial
      have h3 : 0 < m.stack.length := by
        rcases List.eq_nil_or_concat m.stack with h | ⟨_, _, h⟩
        · exact absurd h h0
        · rw [h]; simp
      simp only [if_true, a, a', List.append_nil, true_and]
      refine ⟨(b' (.inl (by omega))).trans b, fun h => ?_⟩
      rw [c' h]; simp only [depth, hl]; omega
  | @block t es hb ih =>
    intro m h0
    have h1 : ((m.emit D (.blockStart t)).1).stack = .even [] :: m.stack := rfl
    have hne : m.stack.isEmpty = false := by cases hh : m.stack <;> simp_all
    rw [mfeed_cons (by simp [MState.unacceptable, hne]) (by rfl), feed_append]
    obtain ⟨a, b, c⟩ := ih (m.emit D (.blockStart t)).1 (by rw [h1]; simp)
    cases hx : ((htmlEmitter D).feed (m.emit D (.blockStart t)).1 es).2.2 with
    | false =>
      simp only [Bool.false_eq_true, if_false, a, hx, true_and]
      exact ⟨b, fun h => absurd h (by simp)⟩
    | true =>
      have hl := c hx
      rw [h1] at hl
      simp only [List.length_cons] at hl
      have h2 : ((htmlEmitter D).feed (m.emit D (.blockStart t)).1 es).1.stack ≠ [] := by
        intro e; rw [e] at hl; simp at hl
      obtain ⟨a', b', c'⟩ := single _ .blockEnd h2 trivial
      simp only [if_true, a, a', List.append_nil, true_and]
      refine ⟨(b' (.inr (by simp))).trans b, fun h => ?_⟩
      rw [c' h]; simp only [depth, hl]; omega

theorem mcut {es : List Event} (h : Cut es) : ∀ m : MState, m.stack ≠ [] →
    ((htmlEmitter D).feed m es).2.1 = [] ∧ ((htmlEmitter D).feed m es).1.result = m.result := by
  induction h with
  | nil => intro m _; simp [Emitter.feed]
  | @append x y hx hy ih =>
    intro m h0
    obtain ⟨a, b, c⟩ := mbal (D := D) hx m h0
    rw [feed_append]
    cases hk : ((htmlEmitter D).feed m x).2.2 with
    | false => simp [a, b]
    | true =>
      have hl := c hk
      have h1 : ((htmlEmitter D).feed m x).1.stack ≠ [] := by
        intro e; rw [e] at hl; apply h0; exact List.length_eq_zero_iff.mp hl.symm
      obtain ⟨a', b'⟩ := ih _ h1
      simp only [if_true, a, a', List.append_nil, true_and]
      exact b'.trans b
  | @seq t es _ ih =>
    intro m h0
    rw [mfeed_cons (by rfl) (by rfl)]
    exact ih _ (by simp [MState.emit])
  | @block t es _ ih =>
    intro m h0
    have hne : m.stack.isEmpty = false := by cases hh : m.stack <;> simp_all
    rw [mfeed_cons (by simp [MState.unacceptable, hne]) (by rfl)]
    exact ih _ (by simp [MState.emit])

theorem mfeed_node {es : List Event} (h : Node es) :
    ((htmlEmitter D).feed ⟨[], none⟩ es).2.1 = [] ∧
    (((htmlEmitter D).feed ⟨[], none⟩ es).2.2 = false → ((htmlEmitter D).feed ⟨[], none⟩ es).1.result = none) := by
  cases h with
  | nil => simp [Emitter.feed]
  | scalar => exact ⟨rfl, fun _ => rfl⟩
  | block => rw [mfeed_step]; simp [MState.unacceptable]
  | @seq t es hb =>
    rw [mfeed_cons (by rfl) (by rfl), feed_append]
    obtain ⟨a, b, c⟩ := mbal (D := D) hb (MState.emit D ⟨[], none⟩ (.seqStart t)).1 (by simp [MState.emit])
    cases hx : ((htmlEmitter D).feed (MState.emit D ⟨[], none⟩ (.seqStart t)).1 es).2.2 with
    | false =>
      simp only [Bool.false_eq_true, if_false, a, true_and]
      intro _; rw [b]; rfl
    | true =>
      have hl := c hx
      simp only [if_true, a, List.nil_append]
      rw [mfeed_step]
      cases hr : (((htmlEmitter D).feed (MState.emit D ⟨[], none⟩ (.seqStart t)).1 es).1).unacceptable .seqEnd with
      | true => exact ⟨rfl, fun _ => b⟩
      | false =>
        have h2 : ((htmlEmitter D).feed (MState.emit D ⟨[], none⟩ (.seqStart t)).1 es).1.stack ≠ [] := by
          intro e; rw [e] at hl; simp [MState.emit] at hl
        obtain ⟨a', _, _⟩ := memit_depth (D := D) (e := .seqEnd) trivial hr h2
        simp [Emitter.feed, a']

/-- A run that fails writes nothing. -/
theorem html_run_fails (v : Val) (h : ((htmlEmitter D).run v).2 = false) : ((htmlEmitter D).run v).1 = [] := by
  rw [html_run_eq] at h ⊢
  simp only at h ⊢
  have hn := (rend_node v).1 true .absent
  unfold Tr.Node at hn
  have stop : ∀ m : MState, m.result = none → (m.emit D .streamEnd).2 = [] := by
    intro m hm; simp [MState.emit, hm]
  cases hok : (rend true .absent v).ok with
  | false =>
    rw [hok] at hn
    simp only [Bool.false_eq_true, if_false] at hn
    simp only [Bool.false_eq_true, if_false, List.append_nil]
    generalize (rend true .absent v).evs = evs at hn
    cases hn with
    | nil => rfl
    | @seq t es hc =>
      rw [mfeed_cons (by rfl) (by rfl)]
      obtain ⟨a, b⟩ := mcut (D := D) hc (MState.emit D ⟨[], none⟩ (.seqStart t)).1 (by simp [MState.emit])
      rw [a, stop _ (by rw [b]; rfl)]; rfl
    | block => rw [mfeed_step]; simp [MState.unacceptable, MState.emit]
  | true =>
    rw [hok] at hn
    simp only [if_true] at hn
    simp only [hok, if_true, Bool.true_and] at h ⊢
    obtain ⟨a, b⟩ := mfeed_node (D := D) hn
    have hno : ((htmlEmitter D).feed ⟨[], none⟩ (rend true .absent v).evs).2.2 = false := by
      cases hb : ((htmlEmitter D).feed ⟨[], none⟩ (rend true .absent v).evs).2.2 with
      | false => rfl
      | true =>
        rw [feed_append, if_pos hb] at h
        simp [Emitter.feed, mrefuses, MState.unacceptable] at h
    rw [feed_append, hno]
    simp only [Bool.false_eq_true, if_false]
    rw [a, stop _ (b hno)]; rfl

end Verif.Export
