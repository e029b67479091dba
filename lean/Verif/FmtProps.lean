import Verif.FmtColumn

/-!
# C82, C83: what `eu fmt` keeps, and what formatting again does

`format` is the default mode of the formatter: a text in, a text out.
-/

namespace Verif.Fmt

open Verif.Lex
open Verif.Parse (Tree Res parseUnit ptoks PTok numbered Keeps ColonsOk colonBad colonsOk colonsOk_iff parse_keeps_tokens_partial)

theorem Fair.keeps {cc : CharClass} (hs : cc.Sane) {src : List Char} {ts : List Tok} (h : Fair cc src ts) :
    Keeps (ptoks src ts) (parseUnit (ptoks src ts)) := (parse_keeps_tokens_partial hs h.toks h.colons h.brackets).1

theorem Fair.texts {cc : CharClass} {src : List Char} {ts : List Tok} (h : tokens cc src = some ts) :
    ∀ t ∈ ts, ∃ a, text src t = some a ∧ a ≠ [] := by
  obtain ⟨ts', h1, _, h3⟩ := tokens_total cc src
  rw [h] at h1
  cases h1
  exact h3

theorem Fair.lexes {cc : CharClass} {src : List Char} {ts : List Tok} (h : tokens cc src = some ts) :
    Lexes cc none false src (pieces src ts) := by
  obtain ⟨ts', h1, h2⟩ := tokens_lexes cc src
  rw [h] at h1
  cases h1
  exact h2

/-- Whether a newline is added. -/
def adds (out : List Char) : Bool := out ≠ [] ∧ out.getLast? ≠ some '\n'

theorem endLine_adds (out : List Char) : endLine out = out ++ (if adds out then ['\n'] else []) := by
  unfold endLine adds
  by_cases h : out ≠ [] ∧ out.getLast? ≠ some '\n'
  · rw [if_pos h, if_pos (decide_eq_true h)]
  · rw [if_neg h, if_neg (by simpa using h), List.append_nil]

/-- The pieces of the formatted text. -/
def outP (ps : List (Kind × List Char)) : List (Kind × List Char) :=
  if adds (flat (fixP 0 ps)) then addTail (fixP 0 ps) else fixP 0 ps

theorem outP_clean (ps : List (Kind × List Char)) : Clean (outP ps) := by
  unfold outP
  split
  · exact addTail_clean (fixP_clean _ _)
  · exact fixP_clean _ _

theorem outP_flat (ps : List (Kind × List Char)) : flat (outP ps) = endLine (flat (fixP 0 ps)) := by
  rw [endLine_adds]
  unfold outP
  split
  · exact flat_addTail _
  · simp

theorem outP_solid (ps : List (Kind × List Char)) : solid (outP ps) = solid ps := by
  unfold outP
  split
  · rw [addTail_solids, fixP_solids]
  · rw [fixP_solids]

theorem outP_kinds (ps : List (Kind × List Char)) : (outP ps).map Prod.fst = ps.map Prod.fst ∨
    (outP ps).map Prod.fst = ps.map Prod.fst ++ [.whitespace] := by
  unfold outP
  split
  · rcases addTail_kinds (fixP 0 ps) with ⟨h, _⟩ | h
    · left; rw [h, fixP_kinds]
    · right; rw [h, fixP_kinds]
  · left; rw [fixP_kinds]

/-- What formatting gives, and its tokens. -/
theorem format_core {cc : CharClass} (hb : Blanks cc) (hs : cc.Sane) {src : List Char} {ts : List Tok} (h : Fair cc src ts) :
    ∃ out ts', format cc src = some out ∧ tokens cc out = some ts' ∧ pieces out ts' = outP (pieces src ts) ∧
      flat (outP (pieces src ts)) = out := by
  have hr := relex hb hs (Fair.lexes h.toks) h.whole h.kept (adds (flat (fixP 0 (pieces src ts)))) (fun _ => h.last) 0
  rw [← endLine_adds] at hr
  obtain ⟨ts', h1, h2⟩ := lexes_tokens hr
  exact ⟨_, ts', format_eq h.toks (h.keeps hs), h1, h2, outP_flat _⟩

theorem fixP_last {ps : List (Kind × List Char)} {p : Kind × List Char} (hp : p.1 ≠ .whitespace) : ∀ col,
    (fixP col ps).getLast? = some p → ps.getLast? = some p := by
  induction ps with
  | nil => intro col h; cases h
  | cons q ps ih =>
    intro col h
    rw [fixP] at h
    cases ps with
    | nil =>
      simp only [fixP, List.getLast?_singleton, Option.some.injEq] at h ⊢
      subst h
      dsimp only at hp
      rw [token_solid hp]
    | cons r ps =>
      rw [fixP, List.getLast?_cons_cons, ← fixP] at h
      rw [List.getLast?_cons_cons]
      exact ih _ h

theorem addTail_last (ps : List (Kind × List Char)) : ∃ t, (addTail ps).getLast? = some (.whitespace, t) := by
  induction ps using addTail.induct with
  | case1 => exact ⟨_, rfl⟩
  | case2 p h => rw [addTail, if_pos h]; exact ⟨_, rfl⟩
  | case3 p h => rw [addTail, if_neg h]; exact ⟨_, rfl⟩
  | case4 p q ps ih =>
    obtain ⟨t, ih⟩ := ih
    refine ⟨t, ?_⟩
    rw [addTail, List.getLast?_cons, ih]
    rfl

theorem outP_last {ps : List (Kind × List Char)} (h : ∀ p, ps.getLast? = some p → closed p.1 p.2 = true) :
    ∀ p, (outP ps).getLast? = some p → closed p.1 p.2 = true := by
  intro p hp
  by_cases hk : p.1 = .whitespace
  · rw [hk]; rfl
  · unfold outP at hp
    split at hp
    · obtain ⟨t, ht⟩ := addTail_last (fixP 0 ps)
      rw [ht] at hp
      cases hp
      exact absurd rfl hk
    · exact h p (fixP_last hk _ hp)

/-- The formatted text is again one that is formatted well. -/
theorem fair_again {cc : CharClass} (hb : Blanks cc) (hs : cc.Sane) {src : List Char} {ts : List Tok} (h : Fair cc src ts)
    {out : List Char} {ts' : List Tok} (hf : format cc src = some out) (ht : tokens cc out = some ts') :
    Fair cc out ts' ∧ pieces out ts' = outP (pieces src ts) := by
  obtain ⟨out', ts'', h1, h2, h3, h4⟩ := format_core hb hs h
  rw [hf] at h1
  cases h1
  rw [ht] at h2
  cases h2
  have hkinds : ts'.map Tok.kind = ts.map Tok.kind ∨ ts'.map Tok.kind = ts.map Tok.kind ++ [.whitespace] := by
    rw [← pieces_kinds out, ← pieces_kinds src, h3]
    exact outP_kinds _
  refine ⟨⟨ht, by rw [h3, h4], ?_, by rw [h3]; exact outP_last h.last, ?_, ?_⟩, h3⟩
  · intro p hp hpk
    have hc := outP_clean (pieces src ts) p (by rw [← h3]; exact hp) hpk
    unfold pieces at hp
    obtain ⟨t, htm, rfl⟩ := List.mem_map.mp hp
    obtain ⟨a, ha, hne⟩ := Fair.texts ht t htm
    dsimp only at hc ⊢
    rw [ha] at hc ⊢
    cases a with
    | nil => exact absurd rfl hne
    | cons c a => exact ⟨c, by simp, (hc c (by simp)).2⟩
  · rcases hkinds with h5 | h5
    · rw [h5]; exact h.colons
    · rw [h5]; exact colonsOk_ws _ _ h.colons
  · rcases hkinds with h5 | h5
    · rw [h5]; exact h.brackets
    · rw [h5]
      have := h.brackets
      simpa using this

/-! ## C82: formatting keeps the program -/

/-- C82 for fair texts: formatting succeeds, and reading the formatted text gives the same tokens, white space apart: the
same kinds and the same texts, in the same order.  White space stays where it is, so that at most a final newline is
new.

Missing: the texts that are not fair.  The property is false of some (below). -/
theorem format_keeps_tokens_partial {cc : CharClass} (hb : Blanks cc) (hs : cc.Sane) {src : List Char} {ts : List Tok}
    (h : Fair cc src ts) : ∃ out ts', format cc src = some out ∧ tokens cc out = some ts' ∧
      solid (pieces out ts') = solid (pieces src ts) ∧
      (ts'.map Tok.kind = ts.map Tok.kind ∨ ts'.map Tok.kind = ts.map Tok.kind ++ [.whitespace]) := by
  obtain ⟨out, ts', h1, h2, h3, h4⟩ := format_core hb hs h
  refine ⟨out, ts', h1, h2, by rw [h3, outP_solid], ?_⟩
  rw [← pieces_kinds out, ← pieces_kinds src, h3]
  exact outP_kinds _

/-- If the text ends with white space then the formatted text has the same syntax tree. -/
theorem format_keeps_tree_partial {cc : CharClass} (hb : Blanks cc) (hs : cc.Sane) {src : List Char} {ts : List Tok}
    (h : Fair cc src ts) (hw : (ts.map Tok.kind).getLast? = some .whitespace) : ∃ out ts' t, format cc src = some out ∧
      tokens cc out = some ts' ∧ parseUnit (ptoks src ts) = .ok t ∧ parseUnit (ptoks out ts') = .ok t := by
  obtain ⟨out, ts', h1, h2, h3, h4⟩ := format_core hb hs h
  obtain ⟨t, ht, _⟩ := h.keeps hs
  refine ⟨out, ts', t, h1, h2, ht, ?_⟩
  rw [← ht]
  congr 1
  have hbl := lexes_blank hb hs (Fair.lexes h.toks)
  have hdot := fixP_dots hb (pieces src ts) hbl 0
  rw [ptoks_pieces (Fair.texts h.toks), ptoks_pieces (Fair.texts h2), h3, ← hdot]
  unfold outP
  split
  · have hl : ∀ ps : List (Kind × List Char), (ps.map Prod.fst).getLast? = some .whitespace →
        (∀ p ∈ ps, p.1 = .whitespace → p.2 ≠ [] ∧ p.2 ≠ ['.']) →
        (addTail ps).map (fun p => (⟨p.1, p.2 == ['.']⟩ : PTok)) = ps.map fun p => ⟨p.1, p.2 == ['.']⟩ := by
      intro ps
      induction ps using addTail.induct with
      | case1 => intro h; cases h
      | case2 p h =>
        intro _ h2
        rw [addTail, if_pos h]
        have := h2 p (by simp) h
        have e1 : (p.2 == ['.']) = false := by rw [beq_eq_false_iff_ne]; exact this.2
        have e2 : ((p.2 ++ ['\n']) == ['.']) = false := by
          rw [beq_eq_false_iff_ne]
          intro h0
          have := congrArg List.getLast? h0
          simp at this
        simp only [List.map_cons, List.map_nil, h, e1]
        rw [e2]
      | case3 p h => intro h1; simp [h] at h1
      | case4 p q ps ih =>
        intro h1 h2
        rw [List.map_cons, List.map_cons, List.getLast?_cons_cons, ← List.map_cons] at h1
        rw [addTail, List.map_cons, ih h1 (fun x hx => h2 x (by simp [hx]))]
        rfl
    refine hl _ ?_ ?_
    · rw [fixP_kinds, pieces_kinds]; exact hw
    · have key : ∀ ps : List (Kind × List Char), Kept ps → (∀ p ∈ ps, p.1 = .whitespace → ∀ c ∈ p.2, cc.whitespace c = true) →
          ∀ col, ∀ p ∈ fixP col ps, p.1 = .whitespace → p.2 ≠ [] ∧ p.2 ≠ ['.'] := by
        intro ps
        induction ps with
        | nil => intro _ _ col p hp; cases hp
        | cons q ps ih =>
          intro hk hbl col p hp hpk
          rw [fixP] at hp
          rcases List.mem_cons.mp hp with rfl | hp
          · dsimp only at hpk ⊢
            rw [hpk, token_ws]
            refine ⟨normalize_ne (hk q (by simp) hpk) col, ?_⟩
            intro he
            have := normalize_mem hb (hbl q (by simp) hpk) col '.' (by rw [he]; simp)
            exact hb.ne this (by decide) (by decide) rfl
          · exact ih (fun x hx => hk x (by simp [hx])) (fun x hx => hbl x (by simp [hx])) _ p hp hpk
      exact key _ h.kept hbl 0
  · rfl

/-! ## C83: formatting again changes nothing -/

/-- Whatever the text, the formatted text ends with a newline, unless it is empty. -/
theorem format_ends {cc : CharClass} {src out : List Char} (h : format cc src = some out) : Ended out := by
  unfold format at h
  split at h
  · cases h
  · split at h
    · cases h
      exact ended_endLine _
    · cases h

/-- A fair text needs no formatting exactly if there are no tabs and carriage returns in its white space and it ends with
a newline. -/
theorem needs_formatting_iff_partial {cc : CharClass} (hb : Blanks cc) (hs : cc.Sane) {src : List Char} {ts : List Tok}
    (h : Fair cc src ts) : needsFormatting cc src = some false ↔ Clean (pieces src ts) ∧ Ended src := by
  obtain ⟨out, ts', h1, h2, h3, h4⟩ := format_core hb hs h
  unfold needsFormatting
  rw [h1]
  simp only [Option.map_some, Option.some.injEq, bne_eq_false_iff_eq]
  constructor
  · rintro rfl
    rw [h.toks] at h2
    cases h2
    exact ⟨by rw [h3]; exact outP_clean _, format_ends h1⟩
  · rintro ⟨hc, he⟩
    rw [format_eq h.toks (h.keeps hs)] at h1
    cases h1
    rw [fixP_id hc, h.whole, endLine_id he]

/-- C83 for fair texts: the formatted text has no tabs or carriage returns in its white space, ends with a newline, and
is what formatting it gives; `needs_formatting` says so. -/
theorem format_again_partial {cc : CharClass} (hb : Blanks cc) (hs : cc.Sane) {src : List Char} {ts : List Tok}
    (h : Fair cc src ts) : ∃ out ts', format cc src = some out ∧ tokens cc out = some ts' ∧ Clean (pieces out ts') ∧
      Ended out ∧ format cc out = some out ∧ needsFormatting cc out = some false := by
  obtain ⟨out, ts', h1, h2, h3, h4⟩ := format_core hb hs h
  have hf := (fair_again hb hs h h1 h2).1
  have hc : Clean (pieces out ts') := by rw [h3]; exact outP_clean _
  have hn := (needs_formatting_iff_partial hb hs hf).mpr ⟨hc, format_ends h1⟩
  refine ⟨out, ts', h1, h2, hc, format_ends h1, ?_, hn⟩
  unfold needsFormatting at hn
  cases hx : format cc out with
  | none => rw [hx] at hn; cases hn
  | some o =>
    rw [hx] at hn
    simp only [Option.map_some, Option.some.injEq, bne_eq_false_iff_eq] at hn
    rw [hn]

/-! ## C84: the layout is kept -/

/-- C84 for texts whose other tokens have no tabs or carriage returns in them: the formatted text is the text with its
carriage returns taken out, each tab replaced by blanks up to the next column that is a multiple of eight, and a newline
at the end if there is none. -/
theorem format_layout_partial {cc : CharClass} (hs : cc.Sane) {src : List Char} {ts : List Tok} (h : tokens cc src = some ts)
    (hw : flat (pieces src ts) = src) (hc : ColonsOk false (ts.map Tok.kind)) (hb : .bracketOpen ∉ ts.map Tok.kind)
    (ht : ∀ p ∈ solid (pieces src ts), '\t' ∉ p.2 ∧ '\r' ∉ p.2) :
    format cc src = some (endLine (expandTabs 0 (src.filter (· ≠ '\r')))) := by
  rw [format_eq h (parse_keeps_tokens_partial hs h hc hb).1, fixP_expand _ (lexes_marks (Fair.lexes h)) ?_, hw]
  intro p hp hpk
  exact ht p (by simp [solid, hp, hpk])

/-! ## The hypotheses are met -/

theorem ascii_blanks : Blanks ascii where
  newline := rfl
  space := rfl
  alphabetic := by
    intro c hc
    simp only [ascii, Bool.or_eq_true, decide_eq_true_eq] at hc
    rcases hc with ((rfl | rfl) | rfl) | rfl <;> rfl
  alphanumeric := by
    intro c hc
    simp only [ascii, Bool.or_eq_true, decide_eq_true_eq] at hc
    rcases hc with ((rfl | rfl) | rfl) | rfl <;> rfl
  category := fun _ _ => rfl
  ascii := by
    intro c hc _
    simp only [Lex.ascii, Bool.or_eq_true, decide_eq_true_eq] at hc
    rcases hc with ((rfl | rfl) | rfl) | rfl <;> decide
  bullet := by decide

/-- Two lines, `a:⇥"x{y:%d}"⇥# z` and `⇥b: :c`, with tabs, the line ending of Windows and no newline at the end. -/
def sample : List Char :=
  ['a', ':', '\t', '"', 'x', '{', 'y', ':', '%', 'd', '}', '"', '\t', '#', ' ', 'z', '\r', '\n', '\t', 'b', ':',
      ' ', ':', 'c']

-- the comment has the carriage return
/-- `Fair`, computed. -/
def fairB (cc : CharClass) (src : List Char) : Bool :=
  match tokens cc src with
  | none => false
  | some ts =>
    flat (pieces src ts) = src && (pieces src ts).all (fun p => p.1 != .whitespace || p.2.any (· != '\r')) &&
      (pieces src ts).getLast?.all (fun p => closed p.1 p.2) && colonsOk false (ts.map Tok.kind) &&
      !(ts.map Tok.kind).contains .bracketOpen

theorem fairB_fair {cc : CharClass} {src : List Char} (h : fairB cc src = true) : ∃ ts, Fair cc src ts := by
  unfold fairB at h
  cases ht : tokens cc src with
  | none => rw [ht] at h; cases h
  | some ts =>
    rw [ht] at h
    simp only [Bool.and_eq_true, decide_eq_true_eq, Bool.not_eq_true'] at h
    obtain ⟨⟨⟨⟨h1, h2⟩, h3⟩, h4⟩, h5⟩ := h
    refine ⟨ts, ht, h1, ?_, ?_, colonsOk_iff _ _ h4, ?_⟩
    · intro p hp hk
      have := List.all_eq_true.mp h2 p hp
      simpa [hk] using this
    · intro p hp
      rw [hp] at h3
      exact h3
    · intro hm
      have := List.contains_iff_mem.mpr hm
      rw [h5] at this
      cases this

theorem sample_fair : ∃ ts, Fair ascii sample ts := fairB_fair (by decide +kernel)

example : format ascii sample = some (['a', ':'] ++ List.replicate 6 ' ' ++ ['"', 'x', '{', 'y', ':', '%', 'd', '}', '"'] ++
    List.replicate 7 ' ' ++ ['#', ' ', 'z', '\r', '\n'] ++ List.replicate 8 ' ' ++ ['b', ':', ' ', ':', 'c', '\n']) := by
  decide +kernel

/-- `a,⇥b` and `⇥:'c⏎` `'⇥d`: commas, and a token over two lines. -/
def sample2 : List Char :=
  ['a', ',', '\t', 'b', '\r', '\n', '\t', ':', '\'', 'c', '\n', '\'', '\t', 'd']

theorem sample2_fit : ∃ ts, tokens ascii sample2 = some ts ∧ flat (pieces sample2 ts) = sample2 ∧
    ColonsOk false (ts.map Tok.kind) ∧ .bracketOpen ∉ ts.map Tok.kind ∧
    ∀ p ∈ solid (pieces sample2 ts), '\t' ∉ p.2 ∧ '\r' ∉ p.2 :=
  ⟨_, rfl, by decide +kernel, colonsOk_iff _ _ (by decide +kernel), by decide +kernel, by decide +kernel⟩

example : format ascii sample2 = some (['a', ',', ' ', ' ', ' ', ' ', ' ', ' ', 'b', '\n'] ++ List.replicate 8 ' ' ++
    [':', '\'', 'c', '\n', '\''] ++ List.replicate 7 ' ' ++ ['d', '\n']) := by decide +kernel

-- a text that ends with white space: `a:⇥b⇥`
example : ∃ ts, tokens ascii ['a', ':', '\t', 'b', '\t'] = some ts ∧ (ts.map Tok.kind).getLast? = some .whitespace ∧
    format ascii ['a', ':', '\t', 'b', '\t'] =
      some (['a', ':'] ++ List.replicate 6 ' ' ++ ['b'] ++ List.replicate 7 ' ' ++ ['\n']) :=
  ⟨_, rfl, by decide +kernel, by decide +kernel⟩

/-! ## The properties are false in general -/

/-- What a text is formatted to (`out`), the tokens of both other than white space (`old`, `new`), and whether what is
checked of quotes lets the tokens of both pass. -/
structure Report where
  out : List Char
  old : List (Kind × List Char)
  new : List (Kind × List Char)
  oldOk : Bool
  newOk : Bool
  deriving DecidableEq

def report (src : List Char) : Option Report :=
  match format ascii src, tokens ascii src with
  | some out, some ts =>
    match tokens ascii out with
    | some ts' => some ⟨out, solid (pieces src ts), solid (pieces out ts'),
        (pieces src ts).all (fun p => quotesOk p.1 p.2), (pieces out ts').all (fun p => quotesOk p.1 p.2)⟩
    | none => none
  | _, _ => none

/-- C82 is false of `x: a⏎b` with the line ending of the old Macintosh, a carriage return: what is formatted has one name
for two. -/
theorem carriage_return_joins : report ['x', ':', ' ', 'a', '\r', 'b'] = some ⟨['x', ':', ' ', 'a', 'b', '\n'],
    [(.unquotedIdentifier, ['x']), (.colon, [':']), (.unquotedIdentifier, ['a']), (.unquotedIdentifier, ['b'])],
    [(.unquotedIdentifier, ['x']), (.colon, [':']), (.unquotedIdentifier, ['a', 'b'])], true, true⟩ := by decide +kernel

/-- A quoted symbol that is not closed is accepted; what is formatted has a newline in it. -/
theorem open_symbol_grows : report ['x', ':', ' ', ':', '\'', 'b'] = some ⟨['x', ':', ' ', ':', '\'', 'b', '\n'],
    [(.unquotedIdentifier, ['x']), (.colon, [':']), (.symbol, [':', '\'', 'b'])],
    [(.unquotedIdentifier, ['x']), (.colon, [':']), (.symbol, [':', '\'', 'b', '\n'])], true, true⟩ := by decide +kernel

/-- C83 is false of a text that ends with an opening quote: the quote alone is accepted (it begins and ends with a
quote), but in what is formatted there is a newline after it, and that is an open string, which is refused. -/
theorem open_quote_refused : report ['x', ':', ' ', '"'] = some ⟨['x', ':', ' ', '"', '\n'],
    [(.unquotedIdentifier, ['x']), (.colon, [':']), (.string, ['"'])],
    [(.unquotedIdentifier, ['x']), (.colon, [':']), (.string, ['"', '\n'])], true, false⟩ := by decide +kernel

/-- The blanks in the interpolations of strings are lost, so the layout is not kept: `"{ x}"`. -/
theorem interpolation_blanks_lost : (report ['"', '{', ' ', 'x', '}', '"']).map Report.out =
    some ['"', '{', 'x', '}', '"', '\n'] := by decide +kernel

end Verif.Fmt
