import Verif.LexLemmas

/-!
# Properties of tokenising (C34, C45)
-/

namespace Verif.Lex

/-! ## Independent specification: the text of a token -/

/-- What is left of a text after `n` bytes, if that is between two characters. -/
def dropBytes : List Char → Nat → Option (List Char)
  | cs, 0 => some cs
  | [], _ + 1 => none
  | c :: cs, n + 1 => if c.utf8Size ≤ n + 1 then dropBytes cs (n + 1 - c.utf8Size) else none

/-- The first `n` bytes of a text, if they are whole characters. -/
def takeBytes : List Char → Nat → Option (List Char)
  | _, 0 => some []
  | [], _ + 1 => none
  | c :: cs, n + 1 => if c.utf8Size ≤ n + 1 then (takeBytes cs (n + 1 - c.utf8Size)).map (c :: ·) else none

/-- `&src[t.start..t.stop]`: `none` where Rust panics. -/
def text (src : List Char) (t : Tok) : Option (List Char) :=
  if t.start ≤ t.stop then (dropBytes src t.start).bind (takeBytes · (t.stop - t.start)) else none

/-- The texts of the tokens put together: `none` if one of them does not exist. -/
def allText (src : List Char) : List Tok → Option (List Char)
  | [] => some []
  | t :: ts => (text src t).bind fun a => (allText src ts).map (a ++ ·)

/-- The mode before the `i`th token. -/
def modeAt (ts : List Tok) (i : Nat) : Mode := (ts.take i).foldl (fun m t => step m t.kind) .outside

/-! ## Lemmas -/

theorem dropBytes_append (a b : List Char) : dropBytes (a ++ b) (bytes a) = some b := by
  induction a with
  | nil => cases b <;> rfl
  | cons c a ih =>
    have hp := utf8Size_pos c
    simp only [bytes, List.cons_append]
    obtain ⟨n, hn⟩ : ∃ n, c.utf8Size + bytes a = n + 1 := ⟨c.utf8Size + bytes a - 1, by omega⟩
    rw [hn, dropBytes, if_pos (by omega)]
    have : n + 1 - c.utf8Size = bytes a := by omega
    rw [this, ih]

theorem takeBytes_append (a b : List Char) : takeBytes (a ++ b) (bytes a) = some a := by
  induction a with
  | nil => cases b <;> rfl
  | cons c a ih =>
    have hp := utf8Size_pos c
    simp only [bytes, List.cons_append]
    obtain ⟨n, hn⟩ : ∃ n, c.utf8Size + bytes a = n + 1 := ⟨c.utf8Size + bytes a - 1, by omega⟩
    rw [hn, takeBytes, if_pos (by omega)]
    have : n + 1 - c.utf8Size = bytes a := by omega
    rw [this, ih]
    rfl

theorem text_mid (pre mid post : List Char) (k : Kind) :
    text (pre ++ (mid ++ post)) ⟨k, bytes pre, bytes pre + bytes mid⟩ = some mid := by
  unfold text
  rw [if_pos (by dsimp only; omega)]
  dsimp only
  rw [dropBytes_append, Nat.add_sub_cancel_left]
  exact takeBytes_append mid post

theorem tiles_texts {ws m p cs ts m'} (h : Tiles ws m p cs ts m') : ∀ pre, p = bytes pre →
    ∃ out, allText (pre ++ cs) ts = some out ∧ out.filter (fun c => !ws c) = cs.filter (fun c => !ws c) ∧
      (∀ t ∈ ts, ∃ a, text (pre ++ cs) t = some a ∧ a ≠ []) := by
  induction h with
  | nil => intro pre _; exact ⟨[], rfl, rfl, by simp⟩
  | @tok m p cs rest k ts m' hne hal _ ih =>
    intro pre hp
    obtain ⟨out, h1, h2, h3⟩ := ih (pre ++ cs) (by rw [bytes_append, hp])
    have ht : text (pre ++ (cs ++ rest)) ⟨k, p, p + bytes cs⟩ = some cs := by
      subst hp; exact text_mid pre cs rest k
    refine ⟨cs ++ out, ?_, by simp [h2], ?_⟩
    · unfold allText
      rw [ht]
      simp only [List.append_assoc] at h1
      simp [h1]
    · intro t htm
      rcases List.mem_cons.mp htm with rfl | htm
      · exact ⟨cs, ht, hne⟩
      · have := h3 t htm
        simpa using this
  | @gap p c rest ts m' hw _ ih =>
    intro pre hp
    obtain ⟨out, h1, h2, h3⟩ := ih (pre ++ [c]) (by rw [bytes_append, hp]; rfl)
    simp only [List.append_assoc, List.cons_append, List.nil_append] at h1 h3
    exact ⟨out, h1, by simp [h2, hw], h3⟩

/-- Without gaps. -/
theorem tiles_nogap {ws m p cs ts m'} (h : Tiles ws m p cs ts m') (hw : ∀ c ∈ cs, ws c = false) : ∀ pre, p = bytes pre →
    allText (pre ++ cs) ts = some cs := by
  intro pre hp
  induction h generalizing pre with
  | nil => rfl
  | @tok m p cs rest k ts m' hne hal _ ih =>
    have h1 := ih (fun c hc => hw c (by simp [hc])) (pre ++ cs) (by rw [bytes_append, hp])
    have ht : text (pre ++ (cs ++ rest)) ⟨k, p, p + bytes cs⟩ = some cs := by
      subst hp; exact text_mid pre cs rest k
    unfold allText
    rw [ht]
    simp only [List.append_assoc] at h1
    simp [h1]
  | @gap p c rest ts m' hws _ ih =>
    rw [hw c (by simp)] at hws
    cases hws

/-- Without interpolations. -/
theorem tiles_nointerp {ws m p cs ts m'} (h : Tiles ws m p cs ts m') (hm : m ≠ .interp)
    (hk : ∀ i, (ts.take i).foldl (fun m t => step m t.kind) m ≠ .interp) : ∀ pre, p = bytes pre →
    allText (pre ++ cs) ts = some cs := by
  intro pre hp
  induction h generalizing pre with
  | nil => rfl
  | @tok m p cs rest k ts m' hne hal _ ih =>
    have hk' : ∀ i, (ts.take i).foldl (fun m t => step m t.kind) (step m k) ≠ .interp := by
      intro i
      have := hk (i + 1)
      simpa using this
    have h1 := ih (by simpa using hk' 0) hk' (pre ++ cs) (by rw [bytes_append, hp])
    have ht : text (pre ++ (cs ++ rest)) ⟨k, p, p + bytes cs⟩ = some cs := by
      subst hp; exact text_mid pre cs rest k
    unfold allText
    rw [ht]
    simp only [List.append_assoc] at h1
    simp [h1]
  | gap => exact absurd rfl hm

theorem tiles_ordered {ws m p cs ts m'} (h : Tiles ws m p cs ts m') :
    (∀ t ∈ ts, p ≤ t.start ∧ t.start < t.stop ∧ t.stop ≤ p + bytes cs) ∧ ts.Pairwise (fun a b => a.stop ≤ b.start) := by
  induction h with
  | nil => simp
  | @tok m p cs rest k ts m' hne hal _ ih =>
    have hp := bytes_pos hne
    refine ⟨?_, ?_⟩
    · intro t ht
      rw [bytes_append]
      rcases List.mem_cons.mp ht with rfl | ht
      · dsimp only; omega
      · have := ih.1 t ht; omega
    · refine List.pairwise_cons.mpr ⟨fun t ht => ?_, ih.2⟩
      have := ih.1 t ht; dsimp only; omega
  | @gap p c rest ts m' hw _ ih =>
    refine ⟨fun t ht => ?_, ih.2⟩
    have := ih.1 t ht
    simp only [bytes]; omega

/-- Tokens outside interpolations are next to each other. -/
theorem tiles_contiguous {ws m p cs ts m'} (h : Tiles ws m p cs ts m') : ∀ (i : Nat) (a b : Tok), ts[i]? = some a →
    ts[i + 1]? = some b → (ts.take (i + 1)).foldl (fun m t => step m t.kind) m ≠ .interp → a.stop = b.start := by
  have start : ∀ {ws m p cs ts m'}, Tiles ws m p cs ts m' → m ≠ .interp → ∀ b : Tok, ts[0]? = some b → b.start = p := by
    intro ws m p cs ts m' h hm b hb
    cases h with
    | nil => simp at hb
    | tok _ _ _ => simp at hb; rw [← hb]
    | gap _ _ => exact absurd rfl hm
  induction h with
  | nil => intro i a b ha; simp at ha
  | @tok m p cs rest k ts m' hne hal ht ih =>
    intro i a b ha hb hm
    cases i with
    | zero =>
      simp only [List.getElem?_cons_zero, Option.some.injEq] at ha
      simp only [Nat.zero_add, List.getElem?_cons_succ] at hb
      rw [start ht (by simpa using hm) b hb, ← ha]
    | succ i =>
      simp only [List.getElem?_cons_succ] at ha hb
      exact ih i a b ha hb (by simpa using hm)
  | @gap p c rest ts m' hw _ ih => exact ih

theorem tokens_tiles (cc : CharClass) (src : List Char) :
    ∃ ts, tokens cc src = some ts ∧ Tiles cc.whitespace .outside 0 src ts .outside :=
  run_tiles cc src.length (St.init src) (src.length + 1) rfl (Nat.le_refl _) (Nat.le_refl _)

theorem adj_index {m prev ts} (h : Adj m prev ts) : ∀ (i : Nat) (t : Tok), ts[i]? = some t →
    (isApply t.kind = true → (ts.take i).foldl (fun m t => step m t.kind) m = .outside ∧
      ∃ k, (if i = 0 then prev else (ts[i - 1]?).map Tok.kind) = some k ∧ k.isCallableTerminal = true) ∧
    ((ts.take i).foldl (fun m t => step m t.kind) m = .outside → isPlainOpen t.kind = true →
      ∀ k, (if i = 0 then prev else (ts[i - 1]?).map Tok.kind) = some k → k.isCallableTerminal = false) := by
  induction ts generalizing m prev with
  | nil => intro i t h; simp at h
  | cons a ts ih =>
    intro i t ht
    obtain ⟨h1, h2, h3⟩ := h
    cases i with
    | zero =>
      simp only [List.getElem?_cons_zero, Option.some.injEq] at ht
      subst ht
      exact ⟨h1, h2⟩
    | succ i =>
      simp only [List.getElem?_cons_succ] at ht
      have := ih h3 i t ht
      cases i with
      | zero => simpa using this
      | succ i => simpa using this

theorem tokens_adj {cc : CharClass} (hcc : cc.Sane) {src : List Char} {ts : List Tok} (h : tokens cc src = some ts) :
    Adj .outside none ts :=
  run_adj hcc (src.length + 1) .outside none (St.init src) ts
    ⟨rfl, fun _ => rfl, by simp, by simp, by simp⟩ h

/-! ## C34: tokenising is total and loses nothing but white space in interpolations -/

/-- For every text and whatever the Unicode tables, the lexer ends; the tokens are in order, do not overlap and are
not empty; each begins and ends between two characters of the text, so taking its text does not panic. -/
theorem tokens_total (cc : CharClass) (src : List Char) : ∃ ts, tokens cc src = some ts ∧
    ts.Pairwise (fun a b => a.stop ≤ b.start) ∧ ∀ t ∈ ts, ∃ a, text src t = some a ∧ a ≠ [] := by
  obtain ⟨ts, h1, h2⟩ := tokens_tiles cc src
  obtain ⟨_, _, _, h3⟩ := tiles_texts h2 [] rfl
  exact ⟨ts, h1, (tiles_ordered h2).2, h3⟩

/-- The characters that are not white space are all there, in order. -/
theorem tokens_keep_nonspace (cc : CharClass) (src : List Char) (ts : List Tok) (h : tokens cc src = some ts) :
    ∃ out, allText src ts = some out ∧ out.filter (fun c => !cc.whitespace c) = src.filter (fun c => !cc.whitespace c) := by
  obtain ⟨ts', h1, h2⟩ := tokens_tiles cc src
  rw [h] at h1
  cases h1
  obtain ⟨out, g1, g2, _⟩ := tiles_texts h2 [] rfl
  exact ⟨out, g1, g2⟩

/-- C34, for texts without interpolations: the tokens' texts put together are the source.  Missing: texts with white
space in an interpolation, see `tokens_lossy`. -/
theorem tokens_lossless_partial (cc : CharClass) (src : List Char) (ts : List Tok) (h : tokens cc src = some ts)
    (hi : (∀ i, modeAt ts i ≠ .interp) ∨ (∀ c ∈ src, cc.whitespace c = false)) : allText src ts = some src := by
  obtain ⟨ts', h1, h2⟩ := tokens_tiles cc src
  rw [h] at h1
  cases h1
  rcases hi with hi | hi
  · exact tiles_nointerp h2 (by simp) hi [] rfl
  · exact tiles_nogap h2 hi [] rfl

/-- Outside interpolations each token begins where the one before ends. -/
theorem tokens_contiguous (cc : CharClass) (src : List Char) (ts : List Tok) (h : tokens cc src = some ts) (i : Nat)
    (a b : Tok) (ha : ts[i]? = some a) (hb : ts[i + 1]? = some b) (hm : modeAt ts (i + 1) ≠ .interp) : a.stop = b.start := by
  obtain ⟨ts', h1, h2⟩ := tokens_tiles cc src
  rw [h] at h1
  cases h1
  exact tiles_contiguous h2 i a b ha hb hm

/-- The tables for ASCII; what they say of the other characters is irrelevant to the witnesses below. -/
def ascii : CharClass where
  alphabetic := isAsciiLetter
  alphanumeric c := isAsciiLetter c || isAsciiDigit c
  whitespace c := c = ' ' || c = '\t' || c = '\n' || c = '\r'
  category _ := .otherCategory

theorem ascii_sane : ascii.Sane := ⟨rfl, rfl, by decide, by decide, rfl⟩

/-- C34 is false in general: the text `"{ x}"` is tokenised with nothing for the blank, so that the tokens' texts put
together are `"{x}"`.  The syntax tree is then one byte shorter than the source and the position of everything after it
is wrong (parse.rs computes positions from the lengths of the tokens). -/
theorem tokens_lossy : ∃ ts, tokens ascii ['"', '{', ' ', 'x', '}', '"'] = some ts ∧
    allText ['"', '{', ' ', 'x', '}', '"'] ts = some ['"', '{', 'x', '}', '"'] :=
  ⟨_, rfl, by decide +kernel⟩

-- the hypotheses are met: `a: "x" # é`
example : ∃ ts, tokens ascii ['a', ':', ' ', '"', 'x', '"', ' ', '#', 'é'] = some ts ∧
    (ts.map Tok.kind) = [.unquotedIdentifier, .colon, .whitespace, .string, .whitespace, .comment] ∧
    (ts.map Tok.stop) = [1, 2, 3, 6, 7, 10] ∧ allText ['a', ':', ' ', '"', 'x', '"', ' ', '#', 'é'] ts =
      some ['a', ':', ' ', '"', 'x', '"', ' ', '#', 'é'] := ⟨_, rfl, by decide +kernel, by decide +kernel, by decide +kernel⟩
-- a pattern: `"a{b}c"`
example : ∃ ts, tokens ascii ['"', 'a', '{', 'b', '}', 'c', '"'] = some ts ∧
    (ts.map Tok.kind) = [.stringPatternStart, .stringLiteralContent, .openBrace, .stringInterpolationTarget, .closeBrace,
      .stringLiteralContent, .stringPatternEnd] := ⟨_, rfl, by decide +kernel⟩

/-! ## C45: call syntax -/

/-- A parenthesis, bracket or brace is read as the beginning of a call only if the token just before it can be called,
and touches it. -/
theorem apply_touches {cc : CharClass} (hcc : cc.Sane) {src : List Char} {ts : List Tok} (h : tokens cc src = some ts)
    {i : Nat} {t : Tok} (ht : ts[i]? = some t) (ha : isApply t.kind = true) :
    ∃ j a, i = j + 1 ∧ ts[j]? = some a ∧ a.kind.isCallableTerminal = true ∧ a.stop = t.start := by
  have hadj : Adj .outside none ts := tokens_adj hcc h
  obtain ⟨hm, k, hk, hc⟩ := (adj_index hadj i t ht).1 ha
  cases i with
  | zero => simp at hk
  | succ j =>
    simp only [Nat.add_one_ne_zero, if_false, Nat.add_sub_cancel, Option.map_eq_some_iff] at hk
    obtain ⟨a, ha', rfl⟩ := hk
    exact ⟨j, a, rfl, ha', hc, tokens_contiguous cc src ts h j a t ha' ht (by unfold modeAt; rw [hm]; simp)⟩

/-- Conversely, one that is not inside a string and directly follows a token that can be called is always read as the
beginning of a call. -/
theorem plain_open_apart {cc : CharClass} (hcc : cc.Sane) {src : List Char} {ts : List Tok} (h : tokens cc src = some ts)
    {j : Nat} {a t : Tok} (ha : ts[j]? = some a) (ht : ts[j + 1]? = some t) (hm : modeAt ts (j + 1) = .outside)
    (hc : a.kind.isCallableTerminal = true) : isPlainOpen t.kind = false := by
  have hadj : Adj .outside none ts := tokens_adj hcc h
  have := (adj_index hadj (j + 1) t ht).2 hm
  cases hp : isPlainOpen t.kind with
  | false => rfl
  | true =>
    have := this hp a.kind (by simp [ha])
    rw [hc] at this
    cases this

/-- The kinds of brackets the lexer calls reserved do not occur, and neither do kinds of nodes. -/
theorem kinds_allowed (cc : CharClass) (src : List Char) (ts : List Tok) (h : tokens cc src = some ts) (i : Nat) (t : Tok)
    (ht : ts[i]? = some t) : allowed (modeAt ts i) t.kind = true := by
  obtain ⟨ts', h1, h2⟩ := tokens_tiles cc src
  rw [h] at h1
  cases h1
  have : ∀ {m p cs ts m'}, Tiles cc.whitespace m p cs ts m' → ∀ (i : Nat) (t : Tok), ts[i]? = some t →
      allowed ((ts.take i).foldl (fun m t => step m t.kind) m) t.kind = true := by
    intro m p cs ts m' h
    induction h with
    | nil => intro i t h; simp at h
    | tok _ hal _ ih =>
      intro i t ht
      cases i with
      | zero => simp at ht; subst ht; exact hal
      | succ i => exact ih i t (by simpa using ht)
    | gap _ _ ih => exact ih
  exact this h2 i t ht

-- `f(x) (y)`: the first parenthesis begins a call and the second does not
example : ∃ ts, tokens ascii ['f', '(', 'x', ')', ' ', '(', 'y', ')'] = some ts ∧
    (ts.map Tok.kind) = [.unquotedIdentifier, .openParenApply, .unquotedIdentifier, .closeParen, .whitespace, .openParen,
      .unquotedIdentifier, .closeParen] := ⟨_, rfl, by decide +kernel⟩
-- a comment between them
example : ∃ ts, tokens ascii ['f', '#', 'c', '\n', '(', 'y', ')'] = some ts ∧
    (ts.map Tok.kind) = [.unquotedIdentifier, .comment, .whitespace, .openParen, .unquotedIdentifier, .closeParen] :=
  ⟨_, rfl, by decide +kernel⟩

end Verif.Lex
