import Verif.ParseBlock
import Verif.ParseSpec

/-!
# Lemmas about the parser
-/

namespace Verif.Parse

open Verif.Lex (Kind)

/-! ## Calls on the sink -/

/-- The number of open nodes after some calls. -/
def opScan : Nat → List Op → Option Nat
  | d, [] => some d
  | d, .start _ :: o => opScan (d + 1) o
  | 0, .finish :: _ => none
  | d + 1, .finish :: o => opScan d o
  | d, .token _ :: o => opScan d o
  | d, .accept es :: o => if scan 0 es = some 0 then opScan d o else none

/-- Every node started is finished, and no other. -/
def OpBal (o : List Op) : Prop := opScan 0 o = some 0

/-- The tokens among calls. -/
def opToks (o : List Op) : List Kind := evToks (simpleEvents o)

theorem opScan_append (a b : List Op) : ∀ d, opScan d (a ++ b) = (opScan d a).bind (opScan · b) := by
  induction a with
  | nil => intro d; simp [opScan]
  | cons e a ih =>
    intro d
    cases e with
    | start k => simp [opScan, ih]
    | token k => simp [opScan, ih]
    | accept es =>
      simp only [List.cons_append, opScan]
      split
      · exact ih d
      · rfl
    | finish =>
      cases d with
      | zero => simp [opScan]
      | succ d => simp [opScan, ih]

theorem opScan_shift (a : List Op) : ∀ {d e}, opScan d a = some e → ∀ j, opScan (d + j) a = some (e + j) := by
  induction a with
  | nil =>
    intro d e h j
    simp [opScan] at h ⊢
    exact h
  | cons x a ih =>
    intro d e h j
    cases x with
    | start k =>
      simp only [opScan] at h ⊢
      have := ih h j
      rw [show d + j + 1 = d + 1 + j by omega]
      exact this
    | token k => simp only [opScan] at h ⊢; exact ih h j
    | accept es =>
      simp only [opScan] at h ⊢
      split at h
      · rename_i he; rw [if_pos he]; exact ih h j
      · simp at h
    | finish =>
      cases d with
      | zero => simp [opScan] at h
      | succ d =>
        simp only [opScan] at h
        rw [show d + 1 + j = (d + j) + 1 by omega]
        simp only [opScan]
        exact ih h j

theorem simpleEvents_append (a b : List Op) : simpleEvents (a ++ b) = simpleEvents a ++ simpleEvents b := by
  simp [simpleEvents]

theorem opToks_append (a b : List Op) : opToks (a ++ b) = opToks a ++ opToks b := by
  simp [opToks, simpleEvents_append, evToks_append]

theorem scan_of_opScan (o : List Op) : ∀ {d e}, opScan d o = some e → scan d (simpleEvents o) = some e := by
  induction o with
  | nil => intro d e h; exact h
  | cons x o ih =>
    intro d e h
    have hs : simpleEvents (x :: o) = simpleEvents [x] ++ simpleEvents o := simpleEvents_append [x] o
    rw [hs]
    cases x with
    | start k => exact ih h
    | token k => exact ih h
    | accept es =>
      simp only [opScan] at h
      split at h
      · rename_i he
        show scan d (([es].flatten) ++ _) = _
        simp only [List.flatten_cons, List.flatten_nil, List.append_nil]
        rw [scan_append, Bal.scan he d]
        exact ih h
      · simp at h
    | finish =>
      cases d with
      | zero => simp [opScan] at h
      | succ d => exact ih h

theorem OpBal.append {a b : List Op} (ha : OpBal a) (hb : OpBal b) : OpBal (a ++ b) := by
  unfold OpBal
  rw [opScan_append, ha]
  exact hb

theorem OpBal.node {a : List Op} (ha : OpBal a) (k : Kind) : OpBal (.start k :: a ++ [.finish]) := by
  unfold OpBal
  show opScan 1 (a ++ [.finish]) = some 0
  have := opScan_shift a ha 1
  rw [opScan_append, this]
  rfl

theorem OpBal.bal {o : List Op} (h : OpBal o) : Bal (simpleEvents o) := scan_of_opScan o h

/-- Inside a node the sink takes down all it is sent. -/
theorem run_inside (o : List Op) : ∀ (j j' : Nat) (s : Sink), opScan j o = some j' → s.depth = j + 1 →
    o.foldl Sink.call s = { s with depth := j' + 1, buffer := s.buffer ++ simpleEvents o } := by
  induction o with
  | nil =>
    intro j j' s h hd
    simp [opScan] at h
    subst h
    obtain ⟨a, b, c, d, e⟩ := s
    simp [simpleEvents] at hd ⊢
    exact hd
  | cons x o ih =>
    intro j j' s h hd
    have hs : simpleEvents (x :: o) = simpleEvents [x] ++ simpleEvents o := simpleEvents_append [x] o
    rw [List.foldl_cons, hs, ← List.append_assoc]
    cases x with
    | start k => rw [ih (j + 1) j' _ h (by simp [Sink.call, hd])]; rfl
    | token k =>
      have : s.call (.token k) = { s with buffer := s.buffer ++ [.token k] } := by
        simp only [Sink.call]
        rw [if_neg (by omega)]
      rw [this, ih j j' { s with buffer := s.buffer ++ [.token k] } h hd]
      rfl
    | accept es =>
      simp only [opScan] at h
      split at h
      · rw [ih j j' (s.call (.accept es)) h hd]
        simp [Sink.call, simpleEvents]
      · simp at h
    | finish =>
      cases j with
      | zero => simp [opScan] at h
      | succ j =>
        rw [ih j j' (s.call .finish) h (by simp [Sink.call, hd])]
        rfl

theorem run_node {body : List Op} (hb : OpBal body) (k : Kind) (s : Sink) (hd : s.depth = 0) :
    (Op.start k :: body ++ [Op.finish]).foldl Sink.call s =
      { s with buffer := s.buffer ++ (.start k :: simpleEvents body ++ [.finish]) } := by
  rw [List.cons_append, List.foldl_cons, List.foldl_append]
  rw [run_inside body 0 0 _ hb (by simp [Sink.call, hd])]
  simp [Sink.call, hd]

/-! ## What a part of the parser does -/

/-- `m` run on `ts` ends well, with what `Q` says, or (if `C` allows it) by taking the range of a token past the
end. -/
def Good {α : Type} (C : Prop) (m : PM α) (ts : List PTok) (Q : α → List Op → List PTok → Prop) : Prop :=
  match m ts with
  | .ok (a, o, ts') => Q a o ts'
  | .crash c => c = .rangeAtEnd ∧ C
  | .fuel => False

theorem Good.mono {α : Type} {C : Prop} {m : PM α} {ts : List PTok} {Q R : α → List Op → List PTok → Prop}
    (h : Good C m ts Q) (hq : ∀ a o ts', Q a o ts' → R a o ts') : Good C m ts R := by
  unfold Good at *
  split at h
  · rename_i he; rw [he] at *; exact hq _ _ _ h
  · rename_i he; rw [he] at *; exact h
  · exact h.elim

theorem Good.bind {α β : Type} {C : Prop} {m : PM α} {f : α → PM β} {ts : List PTok}
    {Q : α → List Op → List PTok → Prop} {R : β → List Op → List PTok → Prop} (h : Good C m ts Q)
    (hf : ∀ a o ts', Q a o ts' → Good C (f a) ts' fun b o' ts'' => R b (o ++ o') ts'') : Good C (m >>= f) ts R := by
  show Good C (PM.bind m f) ts R
  unfold Good PM.bind at *
  split at h
  · rename_i a o ts' he
    rw [he] at *
    have := hf a o ts' h
    dsimp only
    split at this
    · rename_i hg; rw [hg]; exact this
    · rename_i hg; rw [hg]; exact this
    · exact this.elim
  · rename_i he; rw [he]; exact h
  · exact h.elim

theorem Good.pure {α : Type} {C : Prop} {a : α} {ts : List PTok} {Q : α → List Op → List PTok → Prop}
    (h : Q a [] ts) : Good C (pure a : PM α) ts Q := h

theorem Good.peek {α : Type} {C : Prop} {f : Option PTok → PM α} {ts : List PTok}
    {Q : α → List Op → List PTok → Prop} (h : Good C (f ts.head?) ts Q) : Good C (peek >>= f) ts Q :=
  Good.bind (Q := fun a o ts' => a = ts.head? ∧ o = [] ∧ ts' = ts) ⟨rfl, rfl, rfl⟩ (by
    rintro a o ts' ⟨rfl, rfl, rfl⟩
    exact h)

theorem Good.look {α : Type} {C : Prop} {f : List PTok → PM α} {ts : List PTok}
    {Q : α → List Op → List PTok → Prop} (h : Good C (f ts) ts Q) : Good C (look >>= f) ts Q :=
  Good.bind (Q := fun a o ts' => a = ts ∧ o = [] ∧ ts' = ts) ⟨rfl, rfl, rfl⟩ (by
    rintro a o ts' ⟨rfl, rfl, rfl⟩
    exact h)

/-- What is left does not begin with the colon of a format specification. -/
def Joint (X ts' : List PTok) : Prop :=
  X.getLast?.map PTok.kind = some .stringInterpolationTarget → ts'.head?.map PTok.kind ≠ some .colon

theorem Joint.nil (ts : List PTok) : Joint [] ts := by intro h; simp at h

theorem Joint.one {t : PTok} (h : t.kind ≠ .stringInterpolationTarget) (ts : List PTok) : Joint [t] ts := by
  intro h'; simp at h'; exact (h h').elim

theorem Joint.append {X Y c : List PTok} (h : Joint X (Y ++ c)) (h' : Joint Y c) : Joint (X ++ Y) c := by
  cases hy : Y.getLast? with
  | none =>
    have : Y = [] := List.getLast?_eq_none_iff.1 hy
    subst this
    simpa using h
  | some y =>
    unfold Joint at *
    rw [List.getLast?_append, hy]
    rw [hy] at h'
    exact h'

/-- The tokens consumed are the ones sent to the sink; somewhere in a string. -/
def SegI (ts : List PTok) (o : List Op) (ts' : List PTok) : Prop :=
  ∃ X, ts = X ++ ts' ∧ opToks o = X.map PTok.kind ∧ OpBal o

/-- The tokens consumed are the ones sent to the sink. -/
def Seg (ts : List PTok) (o : List Op) (ts' : List PTok) : Prop :=
  ∃ X, ts = X ++ ts' ∧ opToks o = X.map PTok.kind ∧ OpBal o ∧ Joint X ts'

theorem SegI.refl (ts : List PTok) : SegI ts [] ts := ⟨[], rfl, rfl, rfl⟩
theorem Seg.refl (ts : List PTok) : Seg ts [] ts := ⟨[], rfl, rfl, rfl, Joint.nil ts⟩

theorem SegI.trans {a b c : List PTok} {o o' : List Op} (h : SegI a o b) (h' : SegI b o' c) : SegI a (o ++ o') c := by
  obtain ⟨X, rfl, h1, h2⟩ := h
  obtain ⟨Y, rfl, h3, h4⟩ := h'
  exact ⟨X ++ Y, by simp, by rw [opToks_append, h1, h3, List.map_append], h2.append h4⟩

theorem Seg.trans {a b c : List PTok} {o o' : List Op} (h : Seg a o b) (h' : Seg b o' c) : Seg a (o ++ o') c := by
  obtain ⟨X, rfl, h1, h2, h5⟩ := h
  obtain ⟨Y, rfl, h3, h4, h6⟩ := h'
  exact ⟨X ++ Y, by simp, by rw [opToks_append, h1, h3, List.map_append], h2.append h4, h5.append h6⟩

theorem SegI.len {a b : List PTok} {o : List Op} (h : SegI a o b) : b.length ≤ a.length := by
  obtain ⟨X, rfl, _, _⟩ := h
  simp
theorem Seg.len {a b : List PTok} {o : List Op} (h : Seg a o b) : b.length ≤ a.length := by
  obtain ⟨X, rfl, _⟩ := h
  simp

theorem opToks_node (k : Kind) (body : List Op) : opToks (.start k :: body ++ [.finish]) = opToks body := by
  rw [opToks_append]
  show opToks body ++ [] = opToks body
  rw [List.append_nil]

theorem SegI.node {a b : List PTok} {o : List Op} (h : SegI a o b) (k : Kind) :
    SegI a (.start k :: o ++ [.finish]) b := by
  obtain ⟨X, h1, h2, h3⟩ := h
  exact ⟨X, h1, by rw [opToks_node, h2], h3.node k⟩
theorem Seg.node {a b : List PTok} {o : List Op} (h : Seg a o b) (k : Kind) : Seg a (.start k :: o ++ [.finish]) b := by
  obtain ⟨X, h1, h2, h3, h4⟩ := h
  exact ⟨X, h1, by rw [opToks_node, h2], h3.node k, h4⟩

theorem SegI.token (t : PTok) (ts : List PTok) : SegI (t :: ts) [.token t.kind] ts := ⟨[t], rfl, rfl, rfl⟩
theorem Seg.token {t : PTok} (h : t.kind ≠ .stringInterpolationTarget) (ts : List PTok) :
    Seg (t :: ts) [.token t.kind] ts := ⟨[t], rfl, rfl, rfl, Joint.one h ts⟩

/-- The last token consumed is not the target of an interpolation, or nothing is left. -/
def EndsWell (ts ts' : List PTok) : Prop :=
  ts' = [] ∨ ∃ X t, ts = X ++ t :: ts' ∧ t.kind ≠ .stringInterpolationTarget

theorem EndsWell.trans {a b c : List PTok} {o : List Op} (h : SegI a o b) (h' : EndsWell b c) : EndsWell a c := by
  obtain ⟨X, rfl, _⟩ := h
  rcases h' with h' | ⟨Y, t, rfl, ht⟩
  · exact .inl h'
  · exact .inr ⟨X ++ Y, t, by simp, ht⟩

theorem SegI.seg {a b : List PTok} {o : List Op} (h : SegI a o b) (h' : EndsWell a b) : Seg a o b := by
  obtain ⟨X, rfl, h1, h2⟩ := h
  refine ⟨X, rfl, h1, h2, ?_⟩
  rcases h' with rfl | ⟨Y, t, hY, ht⟩
  · intro _; simp
  · have : X = Y ++ [t] := List.append_cancel_right (bs := b) (by simpa using hY)
    subst this
    intro hh
    simp at hh
    exact (ht hh).elim

/-- `m` sends on what it consumes. -/
def SegM {α : Type} (C : Prop) (m : PM α) (ts : List PTok) : Prop := Good C m ts fun _ o ts' => Seg ts o ts'

theorem SegM.bind {α β : Type} {C : Prop} {m : PM α} {f : α → PM β} {ts : List PTok} (h : SegM C m ts)
    (hf : ∀ a o ts', Seg ts o ts' → SegM C (f a) ts') : SegM C (m >>= f) ts :=
  Good.bind h fun a o ts' h1 => (hf a o ts' h1).mono fun _ _ _ h2 => h1.trans h2

theorem SegM.pure {α : Type} {C : Prop} (a : α) (ts : List PTok) : SegM C (pure a : PM α) ts := Seg.refl ts

theorem good_node {α : Type} {C : Prop} {m : PM α} {k : Kind} {ts : List PTok} {Q : α → List Op → List PTok → Prop}
    (h : Good C m ts fun a o ts' => Q a (.start k :: o ++ [.finish]) ts') : Good C (node k m) ts Q := by
  unfold node
  refine Good.bind (Q := fun _ o ts' => o = [.start k] ∧ ts' = ts) ⟨rfl, rfl⟩ ?_
  rintro _ _ _ ⟨rfl, rfl⟩
  refine Good.bind h ?_
  intro a o ts' hq
  refine Good.bind (Q := fun _ o' ts'' => o' = [.finish] ∧ ts'' = ts') ⟨rfl, rfl⟩ ?_
  rintro _ _ _ ⟨rfl, rfl⟩
  exact Good.pure (by simpa using hq)

theorem segM_node {α : Type} {C : Prop} {m : PM α} {k : Kind} {ts : List PTok} (h : SegM C m ts) :
    SegM C (node k m) ts := good_node (h.mono fun _ _ _ hs => hs.node k)

theorem take_cons {C : Prop} (t : PTok) (ts : List PTok) :
    Good C (take t.kind) (t :: ts) fun _ o ts' => o = [.token t.kind] ∧ ts' = ts := ⟨rfl, rfl⟩

/-- `tryAccept`: it consumes if it accepts. -/
theorem good_tryAccept {C : Prop} {k : Kind} (hk : k ≠ .stringInterpolationTarget) (ts : List PTok) :
    Good C (tryAccept k) ts fun b o ts' => Seg ts o ts' ∧ (b = true → ts'.length < ts.length) ∧ (b = false → ts' = ts) := by
  unfold tryAccept
  refine Good.peek ?_
  cases ts with
  | nil => exact Good.pure ⟨Seg.refl _, by simp, by simp⟩
  | cons t ts =>
    simp only [List.head?_cons]
    split
    · rename_i h
      subst h
      refine Good.bind (take_cons t ts) ?_
      rintro _ _ _ ⟨rfl, rfl⟩
      exact Good.pure ⟨Seg.token hk _, by simp, by simp⟩
    · exact Good.pure ⟨Seg.refl _, by simp, by simp⟩

theorem segM_tryAccept {C : Prop} {k : Kind} (hk : k ≠ .stringInterpolationTarget) (ts : List PTok) :
    SegM C (tryAccept k) ts :=
  (good_tryAccept hk ts).mono fun _ _ _ h => h.1

theorem tryAccept_hit {C : Prop} (t : PTok) (ts : List PTok) :
    Good C (tryAccept t.kind) (t :: ts) fun b o ts' => b = true ∧ o = [.token t.kind] ∧ ts' = ts := by
  unfold tryAccept
  refine Good.peek ?_
  simp only [List.head?_cons, ↓reduceIte]
  refine Good.bind (take_cons t ts) ?_
  rintro _ _ _ ⟨rfl, rfl⟩
  exact Good.pure ⟨rfl, rfl, rfl⟩

theorem seg_trivia (ts : List PTok) : Seg ts (triviaLoop ts).1 (triviaLoop ts).2 := by
  induction ts with
  | nil => exact Seg.refl _
  | cons t ts ih =>
    unfold triviaLoop
    split
    · rename_i h
      exact (Seg.token (by intro hh; rw [hh] at h; simp [Kind.isTrivial] at h) ts).trans ih
    · exact Seg.refl _

theorem segM_trivia {C : Prop} (ts : List PTok) : SegM C addTrivia ts := seg_trivia ts

/-- What is left of `recoverTo`, with a node open or not. -/
theorem seg_recover {close : Kind} {stopAt : List Kind} (hc : close ≠ .stringInterpolationTarget)
    (hst : .colon ∉ stopAt) (opn : Kind) (ts : List PTok) : ∀ (d : Nat) (has : Bool),
    ∃ X, ts = X ++ (recoverLoop close stopAt opn d has ts).2 ∧
      opToks (recoverLoop close stopAt opn d has ts).1 = X.map PTok.kind ∧
      opScan (if has then 1 else 0) (recoverLoop close stopAt opn d has ts).1 = some 0 ∧
      ((recoverLoop close stopAt opn d has ts).2.head?.map PTok.kind ≠ some .colon ∨
        ∃ Y t, X = Y ++ [t] ∧ t.kind ≠ .stringInterpolationTarget) := by
  induction ts with
  | nil =>
    intro d has
    refine ⟨[], rfl, ?_, ?_, .inl (by simp [recoverLoop])⟩ <;> cases has <;> rfl
  | cons t ts ih =>
    intro d has
    unfold recoverLoop
    dsimp only
    by_cases h1 : t.kind = close ∧ d = 0
    · rw [if_pos h1]
      refine ⟨[t], rfl, ?_, ?_, .inr ⟨[], t, rfl, by rw [h1.1]; exact hc⟩⟩
      · rw [opToks_append]
        cases has <;> simp [opToks, simpleEvents, evToks, h1.1]
      · cases has <;> rfl
    · rw [if_neg h1]
      by_cases h2 : t.kind ∈ stopAt
      · rw [if_pos h2]
        refine ⟨[], rfl, ?_, ?_, .inl ?_⟩
        · cases has <;> rfl
        · cases has <;> rfl
        · intro hh
          simp at hh
          rw [hh] at h2
          exact hst h2
      · rw [if_neg h2]
        obtain ⟨X, hx1, hx2, hx3, hx4⟩ := ih (if t.kind = opn ∨ isOpen t.kind = true then d + 1
          else if isClose t.kind = true ∧ d > 0 then d - 1 else d) true
        refine ⟨t :: X, by rw [List.cons_append, ← hx1], ?_, ?_, ?_⟩
        · rw [opToks_append, List.map_cons, ← hx2]
          have : ∀ l, opToks (Op.token t.kind :: l) = t.kind :: opToks l := by intro l; rfl
          rw [this]
          cases has <;> simp [opToks, simpleEvents, evToks]
        · rw [opScan_append]
          cases has with
          | true => exact hx3
          | false => exact hx3
        · rcases hx4 with h | ⟨Y, u, rfl, hu⟩
          · exact .inl h
          · exact .inr ⟨t :: Y, u, rfl, hu⟩

theorem segM_recover {C : Prop} {close : Kind} {stopAt : List Kind} (hc : close ≠ .stringInterpolationTarget)
    (hst : .colon ∉ stopAt) (opn : Kind) (ts : List PTok) : SegM C (recoverTo close stopAt opn) ts := by
  obtain ⟨X, h1, h2, h3, h4⟩ := seg_recover hc hst opn ts 0 false
  refine ⟨X, h1, h2, h3, ?_⟩
  intro hl
  rcases h4 with h | ⟨Y, t, rfl, ht⟩
  · exact h
  · simp at hl; exact (ht hl).elim

/-! ## Strings -/

theorem isEnd_of_patternEnd {k e : Kind} (h : patternEnd k = some e) : isPatternEnd e = true := by
  unfold patternEnd at h
  split at h
  · cases h; rfl
  · split at h
    · cases h; rfl
    · split at h
      · cases h; rfl
      · simp at h

/-- A token that stays inside the interpolation. -/
theorem strOk_stay {e k : Kind} {ks : List Kind} (he : isPatternEnd e = true) (h : strOk e true (k :: ks) = true)
    (hk : k ≠ .closeBrace) (hk2 : isPatternEnd k = false) : strOk e true ks = true := by
  unfold strOk at h
  rw [if_neg (by intro hh; subst hh; simp [he] at hk2), if_neg hk] at h
  split at h
  · simp at h
  · exact h

theorem good_stray {C : Prop} {e : Kind} (he : isPatternEnd e = true) (ts : List PTok)
    (h : strOk e true (ts.map PTok.kind) = true) :
    Good C (stray e) ts fun _ o ts' => SegI ts o ts' ∧ strOk e false (ts'.map PTok.kind) = true := by
  show SegI ts (strayLoop e ts).1 (strayLoop e ts).2 ∧ strOk e false ((strayLoop e ts).2.map PTok.kind) = true
  induction ts with
  | nil => exact ⟨SegI.refl _, rfl⟩
  | cons t ts ih =>
    unfold strayLoop
    dsimp only
    simp only [List.map_cons, strOk] at h
    by_cases h1 : t.kind = .closeBrace
    · rw [if_pos h1]
      refine ⟨by rw [← h1]; exact SegI.token t ts, ?_⟩
      rw [if_neg (by rw [h1]; rintro rfl; simp [isPatternEnd] at he), if_pos h1] at h
      exact h
    · rw [if_neg h1]
      by_cases h2 : t.kind = .stringLiteralContent ∨ t.kind = .stringPatternEnd ∨ t.kind = .cStringPatternEnd ∨
        t.kind = .rawStringPatternEnd ∨ t.kind = e
      · rw [if_pos h2]
        refine ⟨SegI.refl _, ?_⟩
        simp only [List.map_cons, strOk]
        by_cases h3 : t.kind = e
        · rw [if_pos h3]
        · rw [if_neg h3, if_neg h1] at h
          rw [if_pos] at h
          · simp at h
          · simp only [isPatternEnd, Bool.or_eq_true, decide_eq_true_eq]
            grind
      · rw [if_neg h2]
        have h3 : t.kind ≠ e := by grind
        rw [if_neg h3, if_neg h1] at h
        split at h
        · simp at h
        · obtain ⟨a, b⟩ := ih h
          exact ⟨(SegI.token t ts).trans a, b⟩

/-- What is consumed inside an interpolation leaves it inside. -/
def InStr (e : Kind) (ts : List PTok) (o : List Op) (ts' : List PTok) : Prop :=
  SegI ts o ts' ∧ strOk e true (ts'.map PTok.kind) = true

theorem good_takeIn {C : Prop} {e n : Kind} {t : PTok} {ts : List PTok} (he : isPatternEnd e = true)
    (h : strOk e true ((t :: ts).map PTok.kind) = true) (h1 : t.kind ≠ .closeBrace) (h2 : isPatternEnd t.kind = false) :
    Good C (takeIn n t.kind) (t :: ts) fun _ o ts' => InStr e (t :: ts) o ts' ∧ ts' = ts :=
  good_node ((take_cons t ts).mono (by
    rintro _ _ _ ⟨rfl, rfl⟩
    exact ⟨⟨(SegI.token t _).node n, strOk_stay he h h1 h2⟩, rfl⟩))

theorem InStr.trans {e : Kind} {a b c : List PTok} {o o' : List Op} (h : InStr e a o b) (h' : InStr e b o' c) :
    InStr e a (o ++ o') c := ⟨h.1.trans h'.1, h'.2⟩

theorem good_takeIfIn {C : Prop} {e n k : Kind} {ts : List PTok} (he : isPatternEnd e = true)
    (h : strOk e true (ts.map PTok.kind) = true) (h1 : k ≠ .closeBrace) (h2 : isPatternEnd k = false) :
    Good C (takeIfIn n k) ts fun _ o ts' => InStr e ts o ts' := by
  unfold takeIfIn
  refine Good.peek ?_
  cases ts with
  | nil => exact Good.pure ⟨SegI.refl _, h⟩
  | cons t ts =>
    simp only [List.head?_cons]
    split
    · rename_i hk
      subst hk
      exact (good_takeIn he h h1 h2).mono fun _ _ _ hq => hq.1
    · exact Good.pure ⟨SegI.refl _, h⟩

theorem good_dots {C : Prop} {e : Kind} (he : isPatternEnd e = true) : ∀ (fuel : Nat) (ts : List PTok),
    ts.length < fuel → strOk e true (ts.map PTok.kind) = true →
    Good C (dots fuel) ts fun _ o ts' => InStr e ts o ts' := by
  intro fuel
  induction fuel with
  | zero => intro ts h; omega
  | succ fuel ih =>
    intro ts hl h
    unfold dots
    refine Good.peek ?_
    cases ts with
    | nil => exact Good.pure ⟨SegI.refl _, h⟩
    | cons t ts =>
      simp only [List.head?_cons]
      split
      · rename_i hk
        rw [← hk.1]
        refine Good.bind (good_takeIn he h (by rw [hk.1]; decide) (by rw [hk.1]; decide)) ?_
        rintro _ o _ ⟨hi, rfl⟩
        refine Good.peek ?_
        rename_i ts
        cases ts with
        | nil => exact Good.pure (by simpa using hi)
        | cons u us =>
          simp only [List.head?_cons]
          split
          · rename_i hu
            rw [← hu]
            refine Good.bind (good_takeIn he hi.2 (by rw [hu]; decide) (by rw [hu]; decide)) ?_
            rintro _ o' _ ⟨hi', rfl⟩
            refine (ih _ (by simp at hl; omega) hi'.2).mono ?_
            intro _ o'' ts'' h''
            exact hi.trans (hi'.trans h'')
          · exact Good.pure (by simpa using hi)
      · exact Good.pure ⟨SegI.refl _, h⟩

theorem good_interpolation {C : Prop} {e : Kind} (he : isPatternEnd e = true) (ts : List PTok)
    (h : strOk e true (ts.map PTok.kind) = true) :
    Good C interpolationContent ts fun _ o ts' => InStr e ts o ts' := by
  unfold interpolationContent
  have h1 : Good C interpolationTarget ts fun _ o ts' => InStr e ts o ts' := by
    unfold interpolationTarget
    refine Good.look ?_
    dsimp only
    split
    · refine good_node ?_
      refine (Good.bind (good_takeIfIn he h (by decide) (by decide)) ?_ :
        Good C _ ts fun _ o ts' => InStr e ts o ts').mono fun _ _ _ hq => ⟨hq.1.node _, hq.2⟩
      intro _ o ts' hi
      refine (good_dots he _ ts' ?_ hi.2).mono fun _ _ _ hq => hi.trans hq
      have := hi.1.len
      omega
    · exact good_takeIfIn he h (by decide) (by decide)
  refine Good.bind h1 ?_
  intro _ o ts' hi
  unfold interpolationFormat tryAccept
  cases ts' with
  | nil =>
    refine Good.bind (Q := fun b o ts' => b = false ∧ o = [] ∧ ts' = []) (Good.peek ⟨rfl, rfl, rfl⟩) ?_
    rintro _ _ _ ⟨rfl, rfl, rfl⟩
    exact Good.pure (by simpa using hi)
  | cons t us =>
    by_cases hk : t.kind = .colon
    · have := tryAccept_hit (C := C) t us
      rw [hk] at this
      refine Good.bind (this.mono (R := fun b o ts' => b = true ∧ o = [.token t.kind] ∧ ts' = us) ?_) ?_
      · rintro _ _ _ ⟨rfl, rfl, rfl⟩; exact ⟨rfl, by rw [hk], rfl⟩
      · rintro _ _ _ ⟨rfl, rfl, rfl⟩
        have hin : InStr e (t :: _) [.token t.kind] _ :=
          ⟨SegI.token t _, strOk_stay he hi.2 (by rw [hk]; decide) (by rw [hk]; decide)⟩
        simp only [↓reduceIte]
        exact (good_takeIfIn he hin.2 (by decide) (by decide)).mono fun _ _ _ hq => hi.trans (InStr.trans hin hq)
    · refine Good.bind (Q := fun b o ts' => b = false ∧ o = [] ∧ ts' = t :: us) (Good.peek ?_) ?_
      · simp only [List.head?_cons]
        rw [if_neg hk]
        exact ⟨rfl, rfl, rfl⟩
      · rintro _ _ _ ⟨rfl, rfl, rfl⟩
        exact Good.pure (by simpa using hi)

theorem segM_takeIn {C : Prop} {n : Kind} (t : PTok) (ts : List PTok) :
    Good C (takeIn n t.kind) (t :: ts) fun _ o ts' => SegI (t :: ts) o ts' ∧ ts' = ts :=
  good_node ((take_cons t ts).mono (by
    rintro _ _ _ ⟨rfl, rfl⟩
    exact ⟨(SegI.token t _).node n, rfl⟩))

theorem segM_pattern {C : Prop} {e : Kind} (he : isPatternEnd e = true) : ∀ (fuel : Nat) (ts : List PTok),
    ts.length < fuel → strOk e false (ts.map PTok.kind) = true →
    Good C (patternLoop e fuel) ts fun _ o ts' => SegI ts o ts' ∧ EndsWell ts ts' := by
  have he' : e ≠ .stringInterpolationTarget := by rintro rfl; simp [isPatternEnd] at he
  intro fuel
  induction fuel with
  | zero => intro ts h; omega
  | succ fuel ih =>
    intro ts hl h
    unfold patternLoop
    refine Good.peek ?_
    cases ts with
    | nil => exact Good.pure ⟨SegI.refl _, .inl rfl⟩
    | cons t ts =>
      simp only [List.head?_cons]
      simp only [List.map_cons, strOk] at h
      have hl' : ts.length < fuel := by simp at hl; omega
      by_cases h0 : t.kind = e
      · rw [if_pos h0, ← h0]
        refine (take_cons t ts).mono ?_
        rintro _ _ _ ⟨rfl, rfl⟩
        exact ⟨SegI.token t _, .inr ⟨[], t, rfl, by rw [h0]; exact he'⟩⟩
      rw [if_neg h0] at h ⊢
      have one : ∀ k n, t.kind = k → strOk e false (ts.map PTok.kind) = true →
          Good C (do takeIn n k; patternLoop e fuel) (t :: ts)
            fun _ o ts' => SegI (t :: ts) o ts' ∧ EndsWell (t :: ts) ts' := by
        rintro k n rfl hs
        refine Good.bind (segM_takeIn t ts) ?_
        rintro _ o _ ⟨hseg, rfl⟩
        exact (ih _ hl' hs).mono fun _ _ _ hq => ⟨hseg.trans hq.1, EndsWell.trans hseg hq.2⟩
      by_cases h1 : t.kind = .stringLiteralContent
      · rw [if_pos h1]
        rw [if_pos (.inl h1)] at h
        exact one _ _ h1 h
      rw [if_neg h1]
      by_cases h2 : t.kind = .stringEscapedOpen
      · rw [if_pos h2]
        rw [if_pos (.inr (.inl h2))] at h
        exact one _ _ h2 h
      rw [if_neg h2]
      by_cases h3 : t.kind = .stringEscapedClose
      · rw [if_pos h3]
        rw [if_pos (.inr (.inr h3))] at h
        exact one _ _ h3 h
      rw [if_neg h3]
      rw [if_neg (by grind)] at h
      by_cases h4 : t.kind = .openBrace
      · rw [if_pos h4] at h ⊢
        rw [← h4]
        have hin : Good C (node .stringInterpolation do
            take t.kind
            interpolationContent
            stray e) (t :: ts) fun _ o ts' => SegI (t :: ts) o ts' ∧ strOk e false (ts'.map PTok.kind) = true ∧
              ts'.length ≤ ts.length := by
          refine good_node ?_
          refine Good.bind (take_cons t ts) ?_
          rintro _ _ _ ⟨rfl, rfl⟩
          refine Good.bind (good_interpolation he _ h) ?_
          intro _ o ts' hi
          refine (good_stray he ts' hi.2).mono ?_
          intro _ o' ts'' hq
          have hseg := ((SegI.token t _).trans (hi.1.trans hq.1)).node .stringInterpolation
          refine ⟨by simpa using hseg, hq.2, ?_⟩
          exact Nat.le_trans hq.1.len hi.1.len
        refine Good.bind hin ?_
        intro _ o ts' hq
        exact (ih ts' (by omega) hq.2.1).mono fun _ _ _ hq' => ⟨hq.1.trans hq'.1, EndsWell.trans hq.1 hq'.2⟩
      · rw [if_neg h4] at h
        simp at h

end Verif.Parse
