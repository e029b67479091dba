import Verif.ParseLex
import Verif.ParseEnds

/-!
# C44: parsing never crashes and keeps every token

A source text goes through the lexer (`tokens`, which is total: `Lex.tokens_total`) and then the parser, which makes a
unit or an expression of the tokens.  `Tree.leaves` is the list of the tokens of a tree, left to right, as their number
in the source and their kind; `numbered 0` is the list of the tokens of the source in the same form.
-/

namespace Verif.Parse

open Verif.Lex

/-- The tree has the tokens of the source, all of them, in order. -/
def Keeps (ts : List PTok) (r : Res Tree) : Prop := ∃ t, r = .ok t ∧ t.leaves = numbered 0 ts

/-- Parsing stops, whatever the tokens. -/
theorem parse_terminates (ts : List PTok) : parseUnit ts ≠ .fuel ∧ parseExpression ts ≠ .fuel :=
  ⟨unit_ends ts, expression_ends ts⟩

/-- C44 for texts in which no colon is followed directly by a backtick, a name or an opening bracket, or after white
space by another colon, and in which no Unicode bracket is opened.

Missing: the other texts.  The property is false of some (below); it does hold of some texts the hypotheses exclude, such
as `a:(b)`, where what follows the colon is not itself followed by a colon. -/
theorem parse_keeps_tokens_partial {cc : CharClass} (hcc : cc.Sane) {src : List Char} {ts : List Tok}
    (h : tokens cc src = some ts) (hc : ColonsOk false (ts.map Tok.kind)) (hb : .bracketOpen ∉ ts.map Tok.kind) :
    Keeps (ptoks src ts) (parseUnit (ptoks src ts)) ∧ Keeps (ptoks src ts) (parseExpression (ptoks src ts)) := by
  have hs := tokens_safe hcc h hc
  have h1 := parseUnit_safe hs
  have h2 := parseExpression_safe hs
  constructor
  · split at h1
    · rename_i t ht; exact ⟨t, ht, h1⟩
    · exact (hb h1.2).elim
    · exact h1.elim
  · split at h2
    · rename_i t ht; exact ⟨t, ht, h2⟩
    · exact (hb h2.2).elim
    · exact h2.elim

/-- With Unicode brackets the only thing that can go wrong is that the text ends before the bracket is closed. -/
theorem parse_outcomes_partial {cc : CharClass} (hcc : cc.Sane) {src : List Char} {ts : List Tok}
    (h : tokens cc src = some ts) (hc : ColonsOk false (ts.map Tok.kind)) :
    (Keeps (ptoks src ts) (parseUnit (ptoks src ts)) ∨ parseUnit (ptoks src ts) = .crash .rangeAtEnd) ∧
    (Keeps (ptoks src ts) (parseExpression (ptoks src ts)) ∨ parseExpression (ptoks src ts) = .crash .rangeAtEnd) := by
  have hs := tokens_safe hcc h hc
  have h1 := parseUnit_safe hs
  have h2 := parseExpression_safe hs
  constructor
  · split at h1
    · rename_i t ht; exact .inl ⟨t, ht, h1⟩
    · rename_i ht; exact .inr (by rw [ht, h1.1])
    · exact h1.elim
  · split at h2
    · rename_i t ht; exact .inl ⟨t, ht, h2⟩
    · rename_i ht; exact .inr (by rw [ht, h2.1])
    · exact h2.elim

/-! ## The hypotheses are met -/

/-- `ColonsOk`, computed. -/
def colonsOk : Bool → List Kind → Bool
  | _, [] => true
  | p, k :: ks => (k != .colon || p || !colonBad false ks) && colonsOk (k = .stringInterpolationTarget) ks

theorem colonsOk_iff (ks : List Kind) : ∀ p, colonsOk p ks = true → ColonsOk p ks := by
  induction ks with
  | nil => intros; trivial
  | cons k ks ih =>
    intro p h
    simp only [colonsOk, Bool.and_eq_true, Bool.or_eq_true, bne_iff_ne, ne_eq, Bool.not_eq_true'] at h
    refine ⟨?_, ih _ h.2⟩
    intro hk hp
    rcases h.1 with (h1 | h1) | h1
    · exact (h1 hk).elim
    · rw [hp] at h1; cases h1
    · exact h1

-- a: "x{y.z:%d}" b
-- (c + d): [1, 2
example : ∃ ts, tokens ascii ['a', ':', ' ', '"', 'x', '{', 'y', '.', 'z', ':', '%', 'd', '}', '"', ' ', 'b', '\n',
      '(', 'c', ' ', '+', ' ', 'd', ')', ':', ' ', '[', '1', ',', ' ', '2'] = some ts ∧
    ColonsOk false (ts.map Tok.kind) ∧ .bracketOpen ∉ ts.map Tok.kind ∧ ts.length = 30 :=
  ⟨_, rfl, colonsOk_iff _ _ (by decide +kernel), by decide +kernel, by decide +kernel⟩

-- ` { x: 1 } f(x): )
example : ∃ ts, tokens ascii ['`', ' ', '{', ' ', 'x', ':', ' ', '1', ' ', '}', ' ', 'f', '(', 'x', ')', ':', ' ', ')'] =
      some ts ∧
    ColonsOk false (ts.map Tok.kind) ∧ .bracketOpen ∉ ts.map Tok.kind ∧ ts.length = 18 :=
  ⟨_, rfl, colonsOk_iff _ _ (by decide +kernel), by decide +kernel, by decide +kernel⟩

/-! ## The property is false in general -/

/-- The parser panics on this text: the tokens it has put in the tree are not those of the source. -/
def LosesTokens (src : List Char) : Prop :=
  ∃ ts, tokens ascii src = some ts ∧ parseUnit (ptoks src ts) = .crash .tokensDiffer

/-- How parsing a text crashes. -/
def crashOf (r : Res Tree) : Option Crash :=
  match r with
  | .crash c => some c
  | _ => none

/-- The same, computed. -/
def crashes (cc : CharClass) (src : List Char) (p : List PTok → Res Tree) (c : Crash) : Bool :=
  match tokens cc src with
  | some ts => crashOf (p (ptoks src ts)) = some c
  | none => false

theorem of_crashes {cc : CharClass} {src : List Char} {p : List PTok → Res Tree} {c : Crash}
    (h : crashes cc src p c = true) : ∃ ts, tokens cc src = some ts ∧ p (ptoks src ts) = .crash c := by
  unfold crashes crashOf at h
  split at h
  · rename_i ts ht
    refine ⟨ts, ht, ?_⟩
    split at h
    · rename_i heq; rw [heq]; simp at h; rw [h]
    · simp at h
  · cases h

/-- ``a:` `` : a declaration with a backtick directly after its colon. -/
theorem backtick_panics : LosesTokens ['a', ':', '`'] :=
  of_crashes (by decide +kernel)

/-- ``a:`b c: d`` -/
theorem metadata_panics : LosesTokens ['a', ':', '`', 'b', ' ', 'c', ':', ' ', 'd'] :=
  of_crashes (by decide +kernel)

/-- `a: : b` : two colons with a space between. -/
theorem spaced_colons_panic : LosesTokens ['a', ':', ' ', ':', ' ', 'b'] :=
  of_crashes (by decide +kernel)

/-- `a:(b): c` : an operator definition directly after a colon. -/
theorem paren_after_colon_panics : LosesTokens ['a', ':', '(', 'b', ')', ':', ' ', 'c'] :=
  of_crashes (by decide +kernel)

/-- ASCII with one pair of Unicode brackets, `⟦` and `⟧`. -/
def withBrackets : CharClass :=
  { ascii with category := fun c => if c = '⟦' then .openPunctuation else if c = '⟧' then .closePunctuation
      else .otherCategory }

theorem withBrackets_sane : withBrackets.Sane := ⟨rfl, rfl, by decide, by decide, rfl⟩

/-- `⟦ x` : a Unicode bracket that is not closed before the text ends. -/
theorem open_bracket_panics : ∃ ts, tokens withBrackets ['⟦', ' ', 'x'] = some ts ∧
    parseUnit (ptoks ['⟦', ' ', 'x'] ts) = .crash .rangeAtEnd := of_crashes (by decide +kernel)

-- and the hypotheses of `parse_outcomes_partial` are met with brackets: `a: ⟦ b: c ⟧`
example : ∃ ts, tokens withBrackets ['a', ':', ' ', '⟦', ' ', 'b', ':', ' ', 'c', ' ', '⟧'] = some ts ∧
    ColonsOk false (ts.map Tok.kind) ∧ .bracketOpen ∈ ts.map Tok.kind :=
  ⟨_, rfl, colonsOk_iff _ _ (by decide +kernel), by decide +kernel⟩

end Verif.Parse
