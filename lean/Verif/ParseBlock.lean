import Verif.ParseSink

/-!
# A block sink keeps its tokens
-/

namespace Verif.Parse

open Verif.Lex (Kind)

/-- An item sent to the sink at its top level. -/
def callItem (s : Sink) : Item → Sink
  | .tok k => topToken k s
  | .node k f body => { s with buffer := s.buffer ++ (Item.node k f body).evs }

/-- What follows a colon loses tokens: `tr` says whether trivia came in between. -/
def nextBad : Bool → List Item → Bool
  | _, [] => false
  | tr, x :: xs =>
    if x.triv then nextBad true xs
    else
      match x with
      | .tok k => k = .colon || (!tr && k = .backtick)
      | .node k _ _ => k = .argTuple || (!tr && isHeadStart k)

/-- No colon is followed by what loses tokens. -/
def ColonsFine : List Item → Prop
  | [] => True
  | x :: xs => (x = .tok .colon → nextBad false xs = false) ∧ ColonsFine xs

theorem ColonsFine.at {a r : List Item} (h : ColonsFine (a ++ .tok .colon :: r)) : nextBad false r = false := by
  induction a with
  | nil => exact h.1 rfl
  | cons x a ih => exact ih h.2

theorem nextBad_prefix (a b : List Item) : ∀ tr, nextBad tr (a ++ b) = false → nextBad tr a = false := by
  induction a with
  | nil => intros; rfl
  | cons x a ih =>
    intro tr h
    simp only [List.cons_append, nextBad] at h ⊢
    split at h
    · rename_i ht; rw [if_pos ht]; exact ih _ h
    · rename_i ht; rw [if_neg ht]; exact h

/-- The state of the pending declaration: `L` are the items so far, `buf` those in the buffer. -/
inductive DeclInv (L buf : List Item) : Option Decl → Prop
  | none : DeclInv L buf none
  | await (R : List Item) : buf = .tok .backtick :: R → DeclInv L buf (some ⟨some [], [], [], []⟩)
  | colon (d : Decl) (L0 : List Item) : L = L0 ++ .tok .colon :: buf → d.body = [] → d.colon = [.token .colon] →
      (d.md = Option.none ∨ ∃ M, M ≠ [] ∧ d.md = some (evsOf M) ∧ AllOk M) → Bal d.head → DeclInv L buf (some d)

/-- The state of the sink after the items `L`. -/
structure SInv (L : List Item) (s : Sink) : Prop where
  ex : ∃ buf, s.buffer = evsOf buf ∧ AllOk buf ∧ DeclInv L buf s.decl
  bal : Bal s.committed
  bm : s.blockMeta = []
  depth : s.depth = 0
  toks : evToks s.committed ++ (s.decl.elim [] declToks) ++ evToks s.buffer = L.flatMap Item.toks

theorem sinv_init : SInv [] {} :=
  ⟨⟨[], rfl, by intro x hx; simp at hx, .none⟩, Bal.nil, rfl, rfl, rfl⟩

theorem DeclInv.snoc {L buf : List Item} {d : Option Decl} (h : DeclInv L buf d) (it : Item) :
    DeclInv (L ++ [it]) (buf ++ [it]) d := by
  cases h with
  | none => exact .none
  | await R h => exact .await (R ++ [it]) (by rw [h]; rfl)
  | colon d L0 h1 h2 h3 h4 h5 => exact .colon d L0 (by rw [h1]; simp) h2 h3 h4 h5

theorem DeclInv.ok {L buf : List Item} {d : Decl} (h : DeclInv L buf (some d)) {body : List Ev} (hb : Bal body) :
    d.body = [] ∧ DeclOk { d with body := body } ∧ declToks { d with body := body } = declToks d ++ evToks body := by
  cases h with
  | await R h => exact ⟨rfl, ⟨Bal.nil, Bal.nil, Bal.nil, hb⟩, by simp [declToks, evToks]⟩
  | colon d L0 h1 h2 h3 h4 h5 =>
    refine ⟨h2, ⟨?_, h5, ?_, hb⟩, by simp [declToks, evToks, h2]⟩
    · rcases h4 with h | ⟨M, _, h, hM⟩
      · show Bal (d.md.getD []); rw [h]; exact Bal.nil
      · show Bal (d.md.getD []); rw [h]; exact hM.bal
    · show Bal d.colon; rw [h3]; exact Bal.token _

/-- What the buffer is, committed. -/
theorem flush_spec {L : List Item} {s : Sink} (h : SInv L s) (b : List Ev) (hb : Bal b) :
    let s' := flush { s with buffer := b }
    evToks s'.committed = evToks s.committed ++ s.decl.elim [] declToks ++ evToks b ∧ Bal s'.committed ∧
      s'.blockMeta = [] ∧ s'.buffer = [] ∧ s'.decl = none ∧ s'.depth = 0 := by
  obtain ⟨buf, _, _, hi⟩ := h.ex
  have h1 := h.bal
  have h2 := h.bm
  have h3 := h.depth
  obtain ⟨cm, bm, bf, dc, dp⟩ := s
  dsimp only at h1 h2 h3 hi
  subst h2 h3
  unfold flush
  cases dc with
  | none =>
    obtain ⟨a1, a2, a3, a4, a5, a6⟩ := commitMeta_spec ⟨cm, b, [], none, 0⟩ h1 hb
    exact ⟨by simpa using a1, a2, a3, a4, a5, a6⟩
  | some d =>
    obtain ⟨b1, b2, b3⟩ := hi.ok hb
    obtain ⟨a1, a2, a3, a4, a5, a6⟩ := commitDecl_spec ⟨cm, [], d.body, some { d with body := b }, 0⟩ _ rfl h1 b2
    rw [b3] at a1
    exact ⟨by simpa using a1, a2, a3, a4.trans b1, a5, a6⟩

theorem allOk_nil : AllOk [] := by intro x hx; simp at hx

theorem toks_tok (k : Kind) : (Item.tok k).toks = [k] := rfl

theorem flat_snoc (L : List Item) (it : Item) : (L ++ [it]).flatMap Item.toks = L.flatMap Item.toks ++ it.toks := by
  simp

/-- Something put in the buffer. -/
theorem sinv_push {L : List Item} {s : Sink} {it : Item} (h : SInv L s) (hit : it.Ok) :
    SInv (L ++ [it]) { s with buffer := s.buffer ++ it.evs } := by
  obtain ⟨buf, hb, hok, hi⟩ := h.ex
  refine ⟨⟨buf ++ [it], ?_, hok.append (by intro x hx; simp at hx; subst hx; exact hit), hi.snoc it⟩, h.bal, h.bm, h.depth, ?_⟩
  · show s.buffer ++ it.evs = _
    rw [hb, evsOf_append, evsOf_cons, evsOf_nil, List.append_nil]
  · show evToks s.committed ++ (s.decl.elim [] declToks) ++ evToks (s.buffer ++ it.evs) = _
    rw [evToks_append, ← List.append_assoc, h.toks, flat_snoc]
    rfl

theorem sinv_backtick {L : List Item} {s : Sink} (h : SInv L s)
    (hf : ∀ L0 R, L = L0 ++ .tok .colon :: R → nextBad false (R ++ [.tok .backtick]) = false) :
    SInv (L ++ [.tok .backtick]) (topToken .backtick s) := by
  obtain ⟨buf, hb, hok, hi⟩ := h.ex
  have ht := h.toks
  unfold topToken
  rw [if_pos rfl]
  have fin : ∀ s' : Sink, Bal s'.committed → s'.blockMeta = [] → s'.depth = 0 → s'.buffer = [] →
      evToks s'.committed = L.flatMap Item.toks →
      SInv (L ++ [.tok .backtick])
        { s' with decl := some ⟨some [], [], [], []⟩, buffer := s'.buffer ++ [.token .backtick] } := by
    intro s' h1 h2 h3 h4 h5
    refine ⟨⟨[.tok .backtick], ?_, ?_, .await [] rfl⟩, h1, h2, h3, ?_⟩
    · show s'.buffer ++ _ = _; rw [h4]; rfl
    · intro x hx; simp at hx; subst hx; trivial
    · show evToks s'.committed ++ declToks _ ++ evToks (s'.buffer ++ _) = _
      rw [h4, h5, flat_snoc]
      simp [declToks, evToks, toks_tok]
  dsimp only
  by_cases he : s.buffer = []
  · rw [if_pos he]
    have hbn : buf = [] := by rw [hb] at he; exact evsOf_eq_nil.1 he
    refine fin s h.bal h.bm h.depth he ?_
    rw [he] at ht
    cases hi' : s.decl with
    | none => rw [hi'] at ht; simpa [evToks] using ht
    | some d =>
      rw [hi'] at hi
      cases hi with
      | await R hR => rw [hbn] at hR; simp at hR
      | colon d L0 h1 h2 h3 h4 h5 =>
        have := hf L0 buf h1
        rw [hbn] at this
        simp [nextBad, Item.triv, Kind.isTrivial] at this
  · rw [if_neg he]
    obtain ⟨a1, a2, a3, a4, a5, a6⟩ := flush_spec h s.buffer (by rw [hb]; exact hok.bal)
    exact fin _ a2 a3 a6 a4 (a1.trans ht)

theorem comma_flush {L : List Item} {s : Sink} (hp : SInv L s) :
    SInv L (match s.decl with
      | some d => if d.md.isSome then s else flush s
      | none => s) := by
  obtain ⟨buf, hb, hok, hi⟩ := hp.ex
  split
  · split
    · exact hp
    · obtain ⟨a1, a2, a3, a4, a5, a6⟩ := flush_spec hp s.buffer (by rw [hb]; exact hok.bal)
      refine ⟨⟨[], a4, allOk_nil, by rw [show (flush s).decl = none from a5]; exact .none⟩, a2, a3, a6, ?_⟩
      rw [show (flush s).decl = none from a5, show (flush s).buffer = [] from a4,
        show evToks (flush s).committed = _ from a1, ← hp.toks]
      simp [evToks]
  · exact hp

theorem sinv_comma {L : List Item} {s : Sink} (h : SInv L s) :
    SInv (L ++ [.tok .comma]) (topToken .comma s) := by
  unfold topToken
  rw [if_neg (by decide), if_neg (by decide), if_pos rfl]
  exact comma_flush (sinv_push (it := .tok .comma) h trivial)

theorem split_all_bad (R : List Item) : ∀ (tr : Bool),
    (∀ it ∈ R, headRest it = true) ∨ (tr = false ∧ ∃ x h', R = x :: h' ∧ headStart x = true) →
    nextBad tr (R ++ [.tok .colon]) = true := by
  induction R with
  | nil => intro tr _; simp [nextBad, Item.triv, Kind.isTrivial]
  | cons x xs ih =>
    intro tr hc
    simp only [List.cons_append, nextBad]
    split
    · rename_i hx
      rcases hc with hc | ⟨_, y, t, hy, hs⟩
      · exact ih true (.inl fun it hit => hc it (by simp [hit]))
      · simp at hy
        rw [← hy.1] at hs
        cases x <;> simp [Item.triv, headStart] at hx hs
    · rename_i hx
      cases x with
      | tok k =>
        exfalso
        rcases hc with hc | ⟨_, y, t, hy, hs⟩
        · have := hc (.tok k) (by simp)
          simp [headRest, Item.triv] at this hx
          simp [this] at hx
        · simp at hy
          rw [← hy.1] at hs
          simp [headStart] at hs
      | node k f body =>
        dsimp only
        rcases hc with hc | ⟨ht, y, t, hy, hs⟩
        · have := hc (.node k f body) (by simp)
          simp [headRest] at this
          simp [this]
        · simp at hy
          rw [← hy.1] at hs
          simp [headStart] at hs
          simp [hs, ht]

/-- After a colon. -/
theorem after_colon {L : List Item} {cm : List Ev} {md : Option (List Ev)} {head : List Ev}
    (hb : Bal cm) (hmd : md = none ∨ ∃ M, M ≠ [] ∧ md = some (evsOf M) ∧ AllOk M) (hh : Bal head)
    (ht : evToks cm ++ evToks (md.getD []) ++ evToks head = L.flatMap Item.toks) :
    SInv (L ++ [.tok .colon]) ⟨cm, [], [], some ⟨md, head, [.token .colon], []⟩, 0⟩ := by
  refine ⟨⟨[], rfl, allOk_nil, .colon _ L rfl rfl rfl hmd hh⟩, hb, rfl, rfl, ?_⟩
  rw [flat_snoc, ← ht]
  simp [declToks, evToks, toks_tok]

/-- A sink with nothing pending. -/
theorem sink_eta {s : Sink} {b : List Ev} (h1 : s.blockMeta = []) (h2 : s.buffer = b) (h3 : s.decl = none)
    (h4 : s.depth = 0) : s = ⟨s.committed, [], b, none, 0⟩ := by
  obtain ⟨cm, bm, bf, dc, dp⟩ := s
  simp_all

theorem sinv_colon {L : List Item} {s : Sink} (h : SInv L s)
    (hf : ∀ L0 R, L = L0 ++ .tok .colon :: R → nextBad false (R ++ [.tok .colon]) = false) :
    SInv (L ++ [.tok .colon]) (topToken .colon s) := by
  obtain ⟨buf, hb, hok, hi⟩ := h.ex
  have ht := h.toks
  obtain ⟨r, hd, hsplit, hsp, hc⟩ := splitHead_items hok
  have hokr : AllOk r := fun x hx => hok x (by rw [hsplit]; simp [hx])
  have hokh : AllOk hd := fun x hx => hok x (by rw [hsplit]; simp [hx])
  have hbt : evToks s.buffer = evToks (evsOf r) ++ evToks (evsOf hd) := by
    rw [hb, hsplit, evsOf_append, evToks_append]
  unfold topToken
  rw [if_neg (by decide), if_pos rfl, hb, hsp]
  dsimp only
  -- once nothing is pending
  have clean : ∀ cm, Bal cm → evToks cm ++ evToks (evsOf hd) = L.flatMap Item.toks →
      SInv (L ++ [.tok .colon]) (openDecl .colon (if evsOf hd = [] then
        headFromMeta (evsOf hd) ⟨cm, [], [], none, 0⟩ else (evsOf hd, ⟨cm, [], [], none, 0⟩))) := by
    intro cm h1 h2
    have hm : headFromMeta (evsOf hd) ⟨cm, [], [], none, 0⟩ = (evsOf hd, ⟨cm, [], [], none, 0⟩) := rfl
    rw [hm, ite_self]
    exact after_colon (md := none) h1 (.inl rfl) hokh.bal (by simpa [evToks] using h2)
  -- once the rest of the buffer is committed
  have flushed : ∀ d0, s.decl = d0 → r ≠ [] → SInv (L ++ [.tok .colon]) (openDecl .colon (if evsOf hd = [] then
        headFromMeta (evsOf hd) (flush { s with buffer := evsOf r })
        else (evsOf hd, flush { s with buffer := evsOf r }))) := by
    intro d0 hd0 _
    obtain ⟨a1, a2, a3, a4, a5, a6⟩ := flush_spec h (evsOf r) hokr.bal
    rw [sink_eta a3 a4 a5 a6]
    refine clean _ a2 ?_
    rw [a1, ← ht, hbt]
    simp
  cases hdecl : s.decl with
  | none =>
    by_cases hr : evsOf r = []
    · have hfc : flushColon { s with buffer := evsOf r } = ⟨s.committed, [], [], none, 0⟩ := by
        unfold flushColon
        rw [if_pos hr]
        have := sink_eta (s := { s with buffer := evsOf r }) h.bm hr hdecl h.depth
        rw [this]
      have hfc' : flushColon ⟨s.committed, s.blockMeta, evsOf r, none, s.depth⟩ = ⟨s.committed, [], [], none, 0⟩ := by
        have := hfc
        rw [hdecl] at this
        exact this
      rw [hfc']
      refine clean _ h.bal ?_
      rw [← ht, hbt, hdecl, hr]
      simp [evToks]
    · have hfc : flushColon ⟨s.committed, s.blockMeta, evsOf r, none, s.depth⟩ = flush { s with buffer := evsOf r } := by
        unfold flushColon
        rw [if_neg hr, hdecl]
      rw [hfc]
      exact flushed _ rfl (by rw [ne_eq, ← evsOf_eq_nil]; exact hr)
  | some d =>
    rw [hdecl] at hi ht
    simp only [Option.elim] at ht
    -- what is left of the buffer is not empty
    have hrne : r ≠ [] := by
      intro hr
      subst hr
      simp at hsplit
      subst hsplit
      have hc' : (∀ it ∈ buf, headRest it = true) ∨ (false = false ∧ ∃ x h', buf = x :: h' ∧ headStart x = true) := by
        rcases hc with hc | hc | hc
        · left; rw [hc]; simp
        · exact .inl hc.2
        · exact .inr ⟨rfl, hc⟩
      cases hi with
      | await R hR =>
        rcases hc' with hc | ⟨_, x, t, hx, hs⟩
        · have := hc (.tok .backtick) (by rw [hR]; simp)
          simp [headRest, Kind.isTrivial] at this
        · rw [hR] at hx; simp at hx
          rw [← hx.1] at hs
          simp [headStart] at hs
      | colon d L0 h1 h2 h3 h4 h5 =>
        have hbad := hf L0 buf h1
        have := split_all_bad buf false hc'
        rw [hbad] at this
        simp at this
    have hrn : ¬ evsOf r = [] := by rw [evsOf_eq_nil]; exact hrne
    cases hi with
    | await R hR =>
      have hfc : flushColon ⟨s.committed, s.blockMeta, evsOf r, some ⟨some [], [], [], []⟩, s.depth⟩ =
          ⟨s.committed, [], [], some ⟨some (evsOf r), [], [], []⟩, 0⟩ := by
        unfold flushColon
        rw [if_neg hrn]
        dsimp only
        rw [if_pos rfl, h.bm, h.depth]
      rw [hfc]
      -- metadata was awaited: the buffer is the metadata
      have hfirst : ∃ r', r = .tok .backtick :: r' := by
        cases r with
        | nil => exact absurd rfl hrne
        | cons x r' =>
          rw [hR] at hsplit
          simp at hsplit
          exact ⟨r', by rw [hsplit.1]⟩
      obtain ⟨r', hr'⟩ := hfirst
      have plain : SInv (L ++ [.tok .colon])
          (openDecl .colon (evsOf hd, ⟨s.committed, [], [], some ⟨some (evsOf r), [], [], []⟩, 0⟩)) := by
        refine after_colon (md := some (evsOf r)) h.bal (.inr ⟨r, hrne, rfl, hokr⟩) hokh.bal ?_
        rw [← ht, hbt]
        simp [declToks, evToks]
      by_cases hhd : evsOf hd = []
      · rw [if_pos hhd]
        have hhn : hd = [] := evsOf_eq_nil.1 hhd
        unfold headFromMeta
        dsimp only
        cases hx : extractLast (evsOf r) with
        | none => exact plain
        | some p =>
          obtain ⟨e, m'⟩ := p
          obtain ⟨q, hq1, hq2, hq3, hq4, hq5⟩ := extractLast_items hokr hx
          refine after_colon (md := some m') h.bal (.inr ⟨q, ?_, by rw [hq1], hq2⟩) hq4 ?_
          · exact hq5 .backtick r' hr' (by decide)
          · rw [← ht, hbt, hhn]
            simp [declToks, evToks, evsOf_nil, hq3]
      · rw [if_neg hhd]
        exact plain
    | colon d L0 h1 h2 h3 h4 h5 =>
      have hmd : d.md ≠ some [] := by
        rcases h4 with h4 | ⟨M, hM, h4, _⟩
        · rw [h4]; simp
        · rw [h4]
          simp only [ne_eq, Option.some.injEq]
          rw [evsOf_eq_nil]
          exact hM
      have hfc : flushColon ⟨s.committed, s.blockMeta, evsOf r, some d, s.depth⟩ = flush { s with buffer := evsOf r } := by
        unfold flushColon
        rw [if_neg hrn]
        dsimp only
        rw [if_neg hmd, hdecl]
      rw [hfc]
      exact flushed _ rfl hrne

theorem sinv_step {L : List Item} {s : Sink} {it : Item} (h : SInv L s) (hit : it.Ok)
    (hf : ∀ L0 R, L = L0 ++ .tok .colon :: R → nextBad false (R ++ [it]) = false) :
    SInv (L ++ [it]) (callItem s it) := by
  cases it with
  | node k f body => exact sinv_push h hit
  | tok k =>
    show SInv _ (topToken k s)
    by_cases h1 : k = .backtick
    · subst h1; exact sinv_backtick h hf
    by_cases h2 : k = .colon
    · subst h2; exact sinv_colon h hf
    by_cases h3 : k = .comma
    · subst h3; exact sinv_comma h
    unfold topToken
    rw [if_neg h1, if_neg h2, if_neg h3]
    exact sinv_push h trivial

theorem sinv_run (its : List Item) : ∀ (L : List Item) (s : Sink), SInv L s → AllOk its → ColonsFine (L ++ its) →
    SInv (L ++ its) (its.foldl callItem s) := by
  induction its with
  | nil => intro L s h _ _; simpa using h
  | cons it its ih =>
    intro L s h hok hf
    have hstep : SInv (L ++ [it]) (callItem s it) := by
      refine sinv_step h (hok it (by simp)) ?_
      intro L0 R hL
      rw [hL] at hf
      have hf' : ColonsFine (L0 ++ .tok .colon :: (R ++ it :: its)) := by simpa using hf
      have := hf'.at
      rw [show R ++ it :: its = (R ++ [it]) ++ its by simp] at this
      exact nextBad_prefix _ _ _ this
    have := ih (L ++ [it]) (callItem s it) hstep (fun x hx => hok x (by simp [hx])) (by simpa using hf)
    simpa using this

theorem complete_spec {L : List Item} {s : Sink} (h : SInv L s) :
    evToks s.complete = L.flatMap Item.toks ∧ Bal s.complete := by
  obtain ⟨buf, hb, hok, hi⟩ := h.ex
  have ht := h.toks
  unfold Sink.complete
  by_cases he : s.buffer = []
  · rw [if_neg (by simp [he])]
    rw [he] at ht
    cases hd : s.decl with
    | none =>
      rw [hd] at ht
      rw [if_neg (by simp)]
      exact ⟨by simpa [evToks] using ht, h.bal⟩
    | some d =>
      rw [if_pos (by simp)]
      rw [hd] at hi ht
      have hbody := (hi.ok Bal.nil).1
      have hok' : DeclOk d := by
        have := (hi.ok Bal.nil).2.1
        rw [← hbody] at this
        exact this
      have := commitDecl_spec s d hd h.bal hok'
      refine ⟨?_, this.2.1⟩
      rw [this.1, ← ht]
      simp [evToks]
  · rw [if_pos he]
    obtain ⟨a1, a2, _⟩ := flush_spec h s.buffer (by rw [hb]; exact hok.bal)
    exact ⟨a1.trans ht, a2⟩

/-- A block sink keeps its tokens, in order. -/
theorem block_keeps {its : List Item} (hok : AllOk its) (hf : ColonsFine its) :
    evToks ((its.foldl callItem {}).complete) = its.flatMap Item.toks ∧ Bal ((its.foldl callItem {}).complete) := by
  have := sinv_run its [] {} sinv_init hok hf
  exact complete_spec (by simpa using this)

end Verif.Parse
