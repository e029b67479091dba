import Verif.LexModel

/-!
# Specification of tokenising, and lemmas
-/

namespace Verif.Lex

/-- The length in bytes (UTF-8). -/
def bytes : List Char → Nat
  | [] => 0
  | c :: cs => c.utf8Size + bytes cs

/-- Where the text of a source is: outside string patterns, in the text of one, in an interpolation of one. -/
inductive Mode where
  | outside | pattern | interp
  deriving DecidableEq, Repr

/-- The mode after a token. -/
def step (m : Mode) (k : Kind) : Mode :=
  match k with
  | .stringPatternStart | .cStringPatternStart | .rawStringPatternStart => .pattern
  | .stringPatternEnd | .cStringPatternEnd | .rawStringPatternEnd => .outside
  | .openBrace => if m = .pattern then .interp else m
  | .closeBrace => if m = .interp then .pattern else m
  | _ => m

/-- The tokens that can occur in each mode. -/
def allowed (m : Mode) (k : Kind) : Bool :=
  match k with
  | .stringPatternStart | .cStringPatternStart | .rawStringPatternStart => m = .outside
  | .stringPatternEnd | .cStringPatternEnd | .rawStringPatternEnd => m ≠ .outside
  | .openBrace => true
  | .closeBrace => m ≠ .pattern
  | .colon | .operatorIdentifier => m ≠ .pattern
  | .stringLiteralContent => m = .pattern
  | .stringInterpolationTarget | .stringFormatSpec => m = .interp
  | .stringEscapedOpen | .stringEscapedClose => m ≠ .outside
  | .openBraceApply | .backtick | .openSquare | .openSquareApply | .closeSquare | .comma | .whitespace | .comment
  | .openParen | .openParenApply | .closeParen | .unquotedIdentifier | .singleQuoteIdentifier | .number | .string
  | .symbol | .cString | .rawString | .tString | .sString | .bracketOpen | .bracketClose | .errorReservedChar =>
    m = .outside
  | _ => false

/-- `Tiles ws m p cs ts m'`: the tokens `ts` are, in order and without overlap, non-empty pieces of `cs`, which is
at byte `p`; what is between them is white space in interpolations. -/
inductive Tiles (ws : Char → Bool) : Mode → Nat → List Char → List Tok → Mode → Prop
  | nil {m p} : Tiles ws m p [] [] m
  | tok {m p cs rest k ts m'} : cs ≠ [] → allowed m k = true → Tiles ws (step m k) (p + bytes cs) rest ts m' →
      Tiles ws m p (cs ++ rest) (⟨k, p, p + bytes cs⟩ :: ts) m'
  | gap {p c rest ts m'} : ws c = true → Tiles ws .interp (p + c.utf8Size) rest ts m' →
      Tiles ws .interp p (c :: rest) ts m'

theorem bytes_append (a b : List Char) : bytes (a ++ b) = bytes a + bytes b := by
  induction a with
  | nil => simp [bytes]
  | cons c a ih => simp [bytes, ih]; omega

theorem utf8Size_pos (c : Char) : 0 < c.utf8Size := Char.utf8Size_pos c

theorem bytes_pos {a : List Char} (h : a ≠ []) : 0 < bytes a := by
  cases a with
  | nil => exact absurd rfl h
  | cons c a => have := utf8Size_pos c; simp [bytes]; omega

theorem Tiles.append {ws m m' m'' p a b ts us} (h : Tiles ws m p a ts m') :
    Tiles ws m' (p + bytes a) b us m'' → Tiles ws m p (a ++ b) (ts ++ us) m'' := by
  induction h with
  | nil => intro h2; simpa [bytes] using h2
  | tok hne ha _ ih =>
    intro h2
    rw [List.append_assoc, List.cons_append]
    refine .tok hne ha (ih ?_)
    rw [bytes_append] at h2
    rwa [Nat.add_assoc]
  | gap hw _ ih =>
    intro h2
    refine .gap hw (ih ?_)
    simp only [bytes] at h2
    rwa [Nat.add_assoc]

theorem Tiles.gaps {ws p g rest ts m'} (hg : ∀ c ∈ g, ws c = true)
    (h : Tiles ws .interp (p + bytes g) rest ts m') : Tiles ws .interp p (g ++ rest) ts m' := by
  induction g generalizing p with
  | nil => simpa [bytes] using h
  | cons c g ih =>
    refine .gap (hg c (by simp)) (ih (fun x hx => hg x (by simp [hx])) ?_)
    simp only [bytes] at h
    rwa [Nat.add_assoc]

theorem Tiles.length_le {ws m p cs ts m'} (h : Tiles ws m p cs ts m') : ts.length ≤ cs.length := by
  induction h with
  | nil => simp
  | tok hne _ _ ih =>
    have := List.length_pos_iff.mpr hne
    simp; omega
  | gap _ _ ih => simp; omega

/-! ## Consuming -/

/-- `cur` is what is left after some of `cs`, which is at `l`. -/
def Took (cs : List Char) (l : Nat) (taken : List Char) (cur : Cur) : Prop :=
  cs = taken ++ cur.chars ∧ cur.loc = l + bytes taken

theorem consume_took (p : Char → Bool) (cs : List Char) (l : Nat) :
    ∃ taken, Took cs l taken (consume p cs l) ∧ (∀ c ∈ taken, p c = true) ∧
      ∀ c rest, (consume p cs l).chars = c :: rest → p c = false := by
  induction cs generalizing l with
  | nil => exact ⟨[], ⟨rfl, rfl⟩, by simp, by simp [consume]⟩
  | cons c cs ih =>
    unfold consume
    cases hp : p c with
    | true =>
      simp only [if_true]
      obtain ⟨taken, ⟨h1, h2⟩, h3, h4⟩ := ih (l + c.utf8Size)
      refine ⟨c :: taken, ⟨by simp only [List.cons_append, ← h1], by simp only [bytes]; omega⟩, ?_, h4⟩
      intro x hx
      rcases List.mem_cons.mp hx with rfl | hx
      · exact hp
      · exact h3 x hx
    | false =>
      simp only [Bool.false_eq_true, if_false]
      refine ⟨[], ⟨rfl, rfl⟩, by simp, ?_⟩
      intro x rest hx
      cases hx
      exact hp

theorem consume_took' (p : Char → Bool) (cs : List Char) (l : Nat) : ∃ taken, Took cs l taken (consume p cs l) := by
  obtain ⟨t, h, _⟩ := consume_took p cs l
  exact ⟨t, h⟩

theorem cLiteral_took (cs : List Char) (l : Nat) : ∃ taken, Took cs l taken (cLiteral cs l) := by
  induction cs, l using cLiteral.induct with
  | case1 l => exact ⟨[], rfl, rfl⟩
  | case2 l => exact ⟨['\\'], rfl, rfl⟩
  | case3 c cs l ih =>
    obtain ⟨t, h1, h2⟩ := ih
    unfold cLiteral
    have : '\\'.utf8Size = 1 := rfl
    exact ⟨'\\' :: c :: t, by simp only [List.cons_append, ← h1], by simp only [bytes, this]; omega⟩
  | case4 c cs l _ _ hc =>
    refine ⟨[], ?_, ?_⟩ <;> (rw [cLiteral.eq_def]; split <;> simp_all [bytes])
  | case5 c cs l h1 h2 hc ih =>
    obtain ⟨t, g1, g2⟩ := ih
    have e : cLiteral (c :: cs) l = cLiteral cs (l + c.utf8Size) := (cLiteral.eq_4 l c cs h1 h2).trans (if_neg hc)
    rw [e]
    exact ⟨c :: t, by simp only [List.cons_append, ← g1], by simp only [bytes]; omega⟩

theorem squoteEnd_took (cs : List Char) (l : Nat) : ∃ taken, Took cs l taken (squoteEnd cs l) := by
  obtain ⟨t, ⟨h1, h2⟩, _, h4⟩ := consume_took (· != '\'') cs l
  unfold squoteEnd
  dsimp only
  split
  · next c rest he =>
    have hc := h4 c rest he
    simp only [bne_eq_false_iff_eq] at hc
    subst hc
    refine ⟨t ++ ['\''], ?_, ?_⟩
    · rw [h1, he]; simp
    · simp only [bytes_append, bytes]; rw [h2]; show _ = l + (bytes t + (1 + 0)); omega
  · exact ⟨t, h1, h2⟩

theorem dqLoop_spec (isC : Bool) (cs : List Char) (l : Nat) :
    ((dqLoop isC cs l).2.2 = true → cs = (dqLoop isC cs l).1 ++ '"' :: (dqLoop isC cs l).2.1.chars ∧
      (dqLoop isC cs l).2.1.loc = l + bytes (dqLoop isC cs l).1 + 1) ∧
    ((dqLoop isC cs l).2.2 = false → cs = (dqLoop isC cs l).1 ∧ (dqLoop isC cs l).2.1 = ⟨[], l + bytes (dqLoop isC cs l).1⟩) := by
  induction cs, l using dqLoop.induct with
  | isC => exact isC
  | case1 l => simp [dqLoop, bytes]
  | case2 l cs => simp [dqLoop, bytes]
  | case3 l => exact ⟨fun h => by simp [dqLoop] at h, fun _ => ⟨rfl, rfl⟩⟩
  | case4 c cs l h ih =>
    have h1 : '\\'.utf8Size = 1 := rfl
    have e : dqLoop isC ('\\' :: c :: cs) l = ('\\' :: c :: (dqLoop isC cs (l + 1 + c.utf8Size)).1,
        (dqLoop isC cs (l + 1 + c.utf8Size)).2) := by
      rw [dqLoop]; simp [h]
    rw [e]
    refine ⟨fun hc => ?_, fun hc => ?_⟩
    · obtain ⟨g1, g2⟩ := ih.1 hc
      refine ⟨by simp only [List.cons_append, ← g1], ?_⟩
      simp only [bytes, h1]; rw [g2]; omega
    · obtain ⟨g1, g2⟩ := ih.2 hc
      refine ⟨by simp only [← g1], ?_⟩
      simp only [bytes, h1]
      rw [g2]
      congr 1
      omega
  | case5 c cs l h ih =>
    have h1 : '\\'.utf8Size = 1 := rfl
    have e : dqLoop isC ('\\' :: c :: cs) l = ('\\' :: (dqLoop isC (c :: cs) (l + 1)).1,
        (dqLoop isC (c :: cs) (l + 1)).2) := by
      rw [dqLoop]; simp [h]
    rw [e]
    refine ⟨fun hc => ?_, fun hc => ?_⟩
    · obtain ⟨g1, g2⟩ := ih.1 hc
      refine ⟨by simp only [List.cons_append, ← g1], ?_⟩
      simp only [bytes, h1]; rw [g2]; omega
    · obtain ⟨g1, g2⟩ := ih.2 hc
      refine ⟨by simp only [← g1], ?_⟩
      simp only [bytes, h1]
      rw [g2]
      congr 1
      omega
  | case6 c cs l h0 h1 h2 ih =>
    have e : dqLoop isC (c :: cs) l = (c :: (dqLoop isC cs (l + c.utf8Size)).1, (dqLoop isC cs (l + c.utf8Size)).2) := by
      rw [dqLoop.eq_def]
      split <;> simp_all
    rw [e]
    refine ⟨fun hc => ?_, fun hc => ?_⟩
    · obtain ⟨g1, g2⟩ := ih.1 hc
      refine ⟨by simp only [List.cons_append, ← g1], ?_⟩
      simp only [bytes]; rw [g2]; omega
    · obtain ⟨g1, g2⟩ := ih.2 hc
      refine ⟨by simp only [← g1], ?_⟩
      simp only [bytes]
      rw [g2]
      congr 1
      omega

/-! ## String patterns -/

def modeOf (s : SSt) : Mode := if s.interp then .interp else .pattern

/-- What a string pattern lexer must do at each step. -/
structure Step (cc : CharClass) (off : Nat) (s : SSt) (t : Tok) (s' : SSt) : Prop where
  ex : ∃ gap taken, s.chars = gap ++ (taken ++ s'.chars) ∧ (∀ c ∈ gap, cc.whitespace c = true) ∧
    (s.interp = false → gap = []) ∧ taken ≠ [] ∧ t.start = s.pos + bytes gap + off ∧
    t.stop = s.pos + bytes gap + bytes taken + off ∧ s'.pos = s.pos + bytes gap + bytes taken
  mode : step (modeOf s) t.kind = modeOf s' ∧ allowed (modeOf s) t.kind = true

theorem skipWs_spec (cc : CharClass) (s : SSt) : ∃ gap, Took s.chars s.pos gap (skipWs cc s) ∧
    (∀ c ∈ gap, cc.whitespace c = true) ∧ (s.interp = false → gap = []) := by
  unfold skipWs
  cases hi : s.interp with
  | false => exact ⟨[], ⟨rfl, rfl⟩, by simp, by simp⟩
  | true =>
    simp only [if_true]
    obtain ⟨t, h, h2, _⟩ := consume_took cc.whitespace s.chars s.pos
    exact ⟨t, h, h2, by simp⟩

/-- A step from where the white space ends. -/
theorem step_of {cc : CharClass} {off : Nat} {s : SSt} {ch : Char} {cs : List Char} {t : Tok} {s' : SSt} {taken : List Char}
    (h : (skipWs cc s).chars = ch :: cs) (hs : t.start = (skipWs cc s).loc + off)
    (ht : ch :: cs = taken ++ s'.chars) (hn : taken ≠ [])
    (hp : s'.pos = (skipWs cc s).loc + bytes taken) (he : t.stop = s'.pos + off)
    (hm : step (modeOf s) t.kind = modeOf s' ∧ allowed (modeOf s) t.kind = true) : Step cc off s t s' := by
  obtain ⟨gap, ⟨h1, h2⟩, h3, h4⟩ := skipWs_spec cc s
  rw [h] at h1
  rw [h2] at hs hp
  exact ⟨⟨gap, taken, by rw [h1, ht], h3, h4, hn, hs, by rw [he, hp], hp⟩, hm⟩

theorem step_lit {cc : CharClass} {off : Nat} {s : SSt} {ch : Char} {cs : List Char} {cur : Cur} {tk : List Char} {k : Kind}
    {s' : SSt} (h : (skipWs cc s).chars = ch :: cs) (ht : Took cs ((skipWs cc s).loc + ch.utf8Size) tk cur)
    (hc : s'.chars = cur.chars) (hp : s'.pos = cur.loc)
    (hm : step (modeOf s) k = modeOf s' ∧ allowed (modeOf s) k = true) :
    Step cc off s ⟨k, (skipWs cc s).loc + off, cur.loc + off⟩ s' := by
  refine step_of (taken := ch :: tk) h rfl ?_ (by simp) ?_ ?_ hm
  · simp only [List.cons_append, hc, ← ht.1]
  · simp only [bytes]; rw [hp, ht.2]; omega
  · rw [hp]

theorem interpNext_step {cc : CharClass} {off : Nat} {s : SSt} {ch : Char} {cs : List Char} {t : Tok} {s' : SSt}
    (h : (skipWs cc s).chars = ch :: cs) (hi : s.interp = true)
    (hx : interpNext cc s.fmt ch (skipWs cc s).loc cs ((skipWs cc s).loc + ch.utf8Size) off = (t, s')) :
    Step cc off s t s' := by
  have hm : modeOf s = .interp := by simp [modeOf, hi]
  unfold interpNext at hx
  split at hx
  · cases hx
    exact step_lit (tk := []) (cur := ⟨cs, (skipWs cc s).loc + ch.utf8Size⟩) h ⟨rfl, rfl⟩ rfl rfl (by rw [hm]; exact ⟨rfl, rfl⟩)
  · split at hx
    · cases hx
      exact step_lit (tk := []) (cur := ⟨cs, (skipWs cc s).loc + ch.utf8Size⟩) h ⟨rfl, rfl⟩ rfl rfl (by rw [hm]; exact ⟨rfl, rfl⟩)
    · split at hx
      · cases hx
        obtain ⟨tk, ht⟩ := consume_took' formatStop cs ((skipWs cc s).loc + ch.utf8Size)
        exact step_lit h ht rfl rfl (by rw [hm]; exact ⟨rfl, rfl⟩)
      · cases hx
        obtain ⟨tk, ht⟩ := consume_took' (targetStop cc) cs ((skipWs cc s).loc + ch.utf8Size)
        exact step_lit h ht rfl rfl (by rw [hm]; exact ⟨rfl, rfl⟩)

theorem strNext_step {cc : CharClass} {off : Nat} {s s' : SSt} {t : Tok} (h : strNext cc off s = some (t, s')) :
    Step cc off s t s' := by
  unfold strNext at h
  dsimp only at h
  split at h
  · cases h
  · next ch cs hc =>
    split at h
    · next hb =>
      subst hb
      split at h
      · next cs' =>
        cases h
        refine step_of (taken := ['{', '{']) hc rfl rfl (by simp) ?_ rfl ?_
        · show _ + 1 + 1 = _ + (1 + (1 + 0)); omega
        · cases hi : s.interp <;> simp [step, modeOf, hi, allowed]
      · cases h
        exact step_lit (tk := []) (cur := ⟨cs, (skipWs cc s).loc + '{'.utf8Size⟩) hc ⟨rfl, rfl⟩ rfl rfl
          (by cases hi : s.interp <;> simp [step, modeOf, hi, allowed])
    · split at h
      · next hb =>
        subst hb
        split at h
        · next cs' =>
          cases h
          refine step_of (taken := ['}', '}']) hc rfl rfl (by simp) ?_ rfl ?_
          · show _ + 1 + 1 = _ + (1 + (1 + 0)); omega
          · cases hi : s.interp <;> simp [step, modeOf, hi, allowed]
        · split at h
          · next hi =>
            cases h
            exact step_lit (tk := []) (cur := ⟨cs, (skipWs cc s).loc + '}'.utf8Size⟩) hc ⟨rfl, rfl⟩ rfl rfl
              (by simp [step, modeOf, hi, allowed])
          · cases h
            obtain ⟨tk, ht⟩ := consume_took' literalStop cs ((skipWs cc s).loc + '}'.utf8Size)
            exact step_lit hc ht rfl rfl (by simp [step, modeOf, allowed, *])
      · split at h
        · next hi =>
          cases hx : interpNext cc s.fmt ch (skipWs cc s).loc cs ((skipWs cc s).loc + ch.utf8Size) off with
          | mk a b =>
            rw [hx] at h
            cases h
            exact interpNext_step hc hi hx
        · cases h
          obtain ⟨tk, ht⟩ := consume_took' literalStop cs ((skipWs cc s).loc + ch.utf8Size)
          exact step_lit hc ht rfl rfl (by simp [step, modeOf, allowed, *])

theorem cstrNext_step {cc : CharClass} {off : Nat} {s s' : SSt} {t : Tok} (h : cstrNext cc off s = some (t, s')) :
    Step cc off s t s' := by
  unfold cstrNext at h
  dsimp only at h
  split at h
  · cases h
  · next ch cs hc =>
    split at h
    · next hb =>
      subst hb
      cases h
      exact step_lit (tk := []) (cur := ⟨cs, (skipWs cc s).loc + '{'.utf8Size⟩) hc ⟨rfl, rfl⟩ rfl rfl
        (by cases hi : s.interp <;> simp [step, modeOf, hi, allowed])
    · split at h
      · next hb =>
        obtain ⟨hb, hi⟩ := hb
        cases h
        exact step_lit (tk := []) (cur := ⟨cs, (skipWs cc s).loc + ch.utf8Size⟩) hc ⟨rfl, rfl⟩ rfl rfl
          (by simp [step, modeOf, hi, allowed])
      · split at h
        · next hi =>
          cases hx : interpNext cc s.fmt ch (skipWs cc s).loc cs ((skipWs cc s).loc + ch.utf8Size) off with
          | mk a b =>
            rw [hx] at h
            cases h
            exact interpNext_step hc hi hx
        · cases h
          obtain ⟨tk, ht⟩ := cLiteral_took cs ((skipWs cc s).loc + ch.utf8Size)
          exact step_lit hc ht rfl rfl (by simp [step, modeOf, allowed, *])

theorem strNext_none {cc : CharClass} {off : Nat} {s : SSt} (h : strNext cc off s = none) : (skipWs cc s).chars = [] := by
  unfold strNext at h
  dsimp only at h
  split at h
  · assumption
  · split at h
    · split at h <;> cases h
    · split at h
      · split at h
        · cases h
        · split at h <;> cases h
      · split at h <;> cases h

theorem cstrNext_none {cc : CharClass} {off : Nat} {s : SSt} (h : cstrNext cc off s = none) : (skipWs cc s).chars = [] := by
  unfold cstrNext at h
  dsimp only at h
  split at h
  · assumption
  · split at h
    · cases h
    · split at h
      · cases h
      · split at h <;> cases h

theorem runStr_tiles {cc : CharClass} {off : Nat} {next : SSt → Option (Tok × SSt)}
    (hs : ∀ s t s', next s = some (t, s') → Step cc off s t s') (hn : ∀ s, next s = none → (skipWs cc s).chars = [])
    (fuel : Nat) (s : SSt) (hf : s.chars.length < fuel) :
    ∃ m, m ≠ .outside ∧ Tiles cc.whitespace (modeOf s) (s.pos + off) s.chars (runStr next fuel s) m := by
  induction fuel generalizing s with
  | zero => omega
  | succ fuel ih =>
    unfold runStr
    cases hx : next s with
    | none =>
      obtain ⟨gap, ⟨h1, _⟩, h3, h4⟩ := skipWs_spec cc s
      rw [hn s hx, List.append_nil] at h1
      refine ⟨modeOf s, by unfold modeOf; split <;> simp, ?_⟩
      dsimp only
      cases hi : s.interp with
      | false =>
        rw [h1, h4 hi]
        exact .nil
      | true =>
        have hm : modeOf s = .interp := by simp [modeOf, hi]
        rw [hm, h1]
        have := Tiles.gaps (p := s.pos + off) (rest := []) (ts := []) (m' := .interp) h3 .nil
        simpa using this
    | some r =>
      obtain ⟨t, s'⟩ := r
      obtain ⟨⟨gap, taken, h1, h2, h3, h4, h5, h6, h7⟩, hm, hal⟩ := hs s t s' hx
      have hpos := List.length_pos_iff.mpr h4
      obtain ⟨m, hmo, hm'⟩ := ih s' (by rw [h1] at hf; simp at hf; omega)
      refine ⟨m, hmo, ?_⟩
      dsimp only
      have core : Tiles cc.whitespace (modeOf s) (s.pos + off + bytes gap) (taken ++ s'.chars) (t :: runStr next fuel s') m := by
        have e : t = ⟨t.kind, s.pos + off + bytes gap, s.pos + off + bytes gap + bytes taken⟩ := by
          cases t
          simp only [Tok.mk.injEq, true_and] at *
          omega
        rw [e]
        refine .tok h4 hal ?_
        rw [hm]
        have e2 : s.pos + off + bytes gap + bytes taken = s'.pos + off := by omega
        rw [e2]
        exact hm'
      rw [h1]
      cases hi : s.interp with
      | false =>
        rw [h3 hi] at core ⊢
        simpa [bytes] using core
      | true =>
        have hmi : modeOf s = .interp := by simp [modeOf, hi]
        rw [hmi] at core ⊢
        exact Tiles.gaps h2 core

theorem patternToks_tiles (cc : CharClass) (c : Bool) (content : List Char) (off : Nat) :
    ∃ m, m ≠ .outside ∧ Tiles cc.whitespace .pattern off content (patternToks cc c content off) m := by
  unfold patternToks
  cases c with
  | true =>
    have := runStr_tiles (cc := cc) (off := off) (next := cstrNext cc off) (fun s t s' h => cstrNext_step h)
      (fun s h => cstrNext_none h) (content.length + 1) ⟨content, 0, false, false⟩ (Nat.lt_succ_self _)
    simpa [modeOf] using this
  | false =>
    have := runStr_tiles (cc := cc) (off := off) (next := strNext cc off) (fun s t s' h => strNext_step h)
      (fun s h => strNext_none h) (content.length + 1) ⟨content, 0, false, false⟩ (Nat.lt_succ_self _)
    simpa [modeOf] using this

/-! ## The main lexer -/

/-- What a piece of the main lexer must do: `pre` has been taken already. -/
def Good (cc : CharClass) (p : Nat) (pre chars : List Char) (r : Tok × List Tok × Cur) : Prop :=
  ∃ taken, Took chars (p + bytes pre) taken r.2.2 ∧ Tiles cc.whitespace .outside p (pre ++ taken) (r.1 :: r.2.1) .outside

theorem good_single {cc : CharClass} {p : Nat} {pre chars taken : List Char} {k : Kind} {cur : Cur} (hp : pre ≠ [])
    (ht : Took chars (p + bytes pre) taken cur) (hk : step .outside k = .outside ∧ allowed .outside k = true) :
    Good cc p pre chars (⟨k, p, cur.loc⟩, [], cur) := by
  refine ⟨taken, ht, ?_⟩
  have e : cur.loc = p + bytes (pre ++ taken) := by rw [ht.2, bytes_append]; omega
  rw [e]
  have : Tiles cc.whitespace .outside p ((pre ++ taken) ++ []) [⟨k, p, p + bytes (pre ++ taken)⟩] .outside :=
    .tok (by simp [hp]) hk.2 (by rw [hk.1]; exact .nil)
  simpa using this

theorem good_one {cc : CharClass} {p n : Nat} {c : Char} {chars : List Char} {k : Kind} (hn : n = c.utf8Size)
    (hk : step .outside k = .outside ∧ allowed .outside k = true) :
    Good cc p [c] chars (⟨k, p, p + n⟩, [], ⟨chars, p + c.utf8Size⟩) := by
  subst hn
  have := good_single (cc := cc) (p := p) (pre := [c]) (chars := chars) (taken := []) (k := k)
    (cur := ⟨chars, p + c.utf8Size⟩) (by simp) ⟨rfl, by simp [bytes]⟩ hk
  exact this

theorem simpleKind_step (pre : Prefix) : step .outside (simpleKind pre) = .outside ∧
    allowed .outside (simpleKind pre) = true := by
  cases pre <;> exact ⟨rfl, rfl⟩

theorem dquote_good {cc : CharClass} {pre : Prefix} {p i : Nat} {pt chars : List Char} (hp : pt ≠ [])
    (hi : i + 1 = p + bytes pt) : Good cc p pt chars (dquote cc pre p i chars (p + bytes pt)) := by
  unfold dquote
  obtain ⟨hyes, hno⟩ := dqLoop_spec (pre = .c) chars (p + bytes pt)
  generalize dqLoop (pre = .c) chars (p + bytes pt) = r at hyes hno ⊢
  obtain ⟨content, cur, closed⟩ := r
  dsimp only at hyes hno ⊢
  cases closed with
  | false =>
    obtain ⟨h1, h2⟩ := hno rfl
    simp only [Bool.not_false, if_true]
    refine good_single (taken := content) hp ?_ (simpleKind_step pre)
    rw [h2]
    exact ⟨by simp [h1], rfl⟩
  | true =>
    obtain ⟨h1, h2⟩ := hyes rfl
    have htook : Took chars (p + bytes pt) (content ++ ['"']) cur := by
      refine ⟨by rw [h1]; simp, ?_⟩
      rw [h2, bytes_append]
      show _ = p + bytes pt + (bytes content + (1 + 0)); omega
    simp only [Bool.not_true, Bool.false_eq_true, if_false]
    generalize (if pre = .c then hasUnescapedBraces content else content.contains '{' || content.contains '}') = has
    split
    · exact good_single (taken := content ++ ['"']) hp htook (simpleKind_step pre)
    · split
      · refine ⟨content ++ ['"'], htook, ?_⟩
        obtain ⟨m, hmo, hm⟩ := patternToks_tiles cc (pre = .c) content (i + 1)
        have e1 : step .outside (patternStartKind pre) = .pattern ∧ allowed .outside (patternStartKind pre) = true := by
          cases pre <;> exact ⟨rfl, rfl⟩
        have e2 : step m (patternEndKind pre) = .outside ∧ allowed m (patternEndKind pre) = true := by
          cases pre <;> simp [step, allowed, patternEndKind, hmo]
        dsimp only
        have hl : (⟨patternStartKind pre, p, i + 1⟩ : Tok) = ⟨patternStartKind pre, p, p + bytes pt⟩ := by rw [hi]
        rw [hl]
        refine .tok hp e1.2 ?_
        rw [e1.1]
        rw [hi] at hm
        rw [hi]
        refine hm.append ?_
        have h3 : cur.loc = p + bytes pt + bytes content + bytes ['"'] := by
          rw [h2]; show _ = _ + (1 + 0); omega
        have h4 : cur.loc - 1 = p + bytes pt + bytes content := by rw [h2]; omega
        rw [h4, h3]
        have := Tiles.tok (ws := cc.whitespace) (m := m) (p := p + bytes pt + bytes content) (cs := ['"']) (rest := [])
          (k := patternEndKind pre) (ts := []) (m' := .outside) (by simp) e2.2 (by rw [e2.1]; exact .nil)
        simpa using this
      · exact good_single (taken := content ++ ['"']) hp htook (simpleKind_step pre)

/-- What was taken first is part of the piece. -/
theorem Good.shift {cc : CharClass} {p : Nat} {pre mid rest : List Char} {r : Tok × List Tok × Cur}
    (h : Good cc p (pre ++ mid) rest r) : Good cc p pre (mid ++ rest) r := by
  obtain ⟨taken, ⟨h1, h2⟩, h3⟩ := h
  refine ⟨mid ++ taken, ⟨by rw [h1]; simp, ?_⟩, by simpa using h3⟩
  rw [h2, bytes_append, bytes_append]; omega

theorem normal_good {cc : CharClass} {p : Nat} {c : Char} {chars : List Char} :
    Good cc p [c] chars (normal cc p c chars (p + c.utf8Size)) := by
  unfold normal
  obtain ⟨tk, ht⟩ := consume_took' (isNormalContinuation cc) chars (p + c.utf8Size)
  have hplain : Good cc p [c] chars (⟨.unquotedIdentifier, p, (consume (isNormalContinuation cc) chars (p + c.utf8Size)).loc⟩, [],
      consume (isNormalContinuation cc) chars (p + c.utf8Size)) :=
    good_single (taken := tk) (by simp) (by simpa [bytes] using ht) ⟨rfl, rfl⟩
  dsimp only
  split
  · next h1 =>
    split
    · next cs hc =>
      have hcs : chars = tk ++ '"' :: cs := by rw [← hc]; exact ht.1
      have hq : ∀ pre, Good cc p [c] chars (dquote cc pre p ((consume (isNormalContinuation cc) chars (p + c.utf8Size)).loc + 1 - 1) cs
          ((consume (isNormalContinuation cc) chars (p + c.utf8Size)).loc + 1)) := by
        intro pre
        have e : (consume (isNormalContinuation cc) chars (p + c.utf8Size)).loc + 1 = p + bytes ([c] ++ (tk ++ ['"'])) := by
          rw [ht.2]
          simp only [bytes_append, bytes]
          show p + c.utf8Size + bytes tk + 1 = p + (c.utf8Size + 0 + (bytes tk + (1 + 0)))
          omega
        rw [e]
        have := Good.shift (dquote_good (cc := cc) (pre := pre) (p := p) (i := p + bytes ([c] ++ (tk ++ ['"'])) - 1)
          (pt := [c] ++ (tk ++ ['"'])) (chars := cs) (by simp) (by simp only [bytes_append, bytes]; have : '"'.utf8Size = 1 := rfl; omega))
        rw [hcs]
        simpa using this
      split
      · exact hq _
      · split
        · exact hq _
        · split
          · exact hq _
          · split
            · exact hq _
            · exact hplain
    · exact hplain
  · exact hplain

theorem number_took (i : Nat) (chars : List Char) (loc : Nat) : ∃ taken, Took chars loc taken (number i chars loc).2 ∧
    (number i chars loc).1 = ⟨.number, i, (number i chars loc).2.loc⟩ := by
  obtain ⟨tk, h1, h2⟩ := consume_took' isAsciiDigit chars loc
  unfold number
  dsimp only
  split
  · next cs hc =>
    obtain ⟨tk2, g1, g2⟩ := consume_took' isAsciiDigit cs ((consume isAsciiDigit chars loc).loc + 1)
    refine ⟨tk ++ '.' :: tk2, ⟨?_, ?_⟩, rfl⟩
    · rw [List.append_assoc, List.cons_append, ← g1, ← hc]
      exact h1
    · rw [g2, bytes_append, h2]
      simp only [bytes]
      have : '.'.utf8Size = 1 := rfl
      omega
  · exact ⟨tk, ⟨h1, h2⟩, rfl⟩

theorem oper_took (cc : CharClass) (i : Nat) (chars : List Char) (loc : Nat) :
    ∃ taken, Took chars loc taken (oper cc i chars loc).2 ∧
    (oper cc i chars loc).1 = ⟨.operatorIdentifier, i, (oper cc i chars loc).2.loc⟩ := by
  obtain ⟨tk, h⟩ := consume_took' (isOperContinuation cc) chars loc
  exact ⟨tk, h, rfl⟩

theorem colon_took (cc : CharClass) (i : Nat) (chars : List Char) :
    ∃ taken k, Took chars (i + 1) taken (colon cc i chars (i + 1)).2 ∧ (k = .colon ∨ k = .symbol) ∧
    (colon cc i chars (i + 1)).1 = ⟨k, i, (colon cc i chars (i + 1)).2.loc⟩ := by
  unfold colon
  split
  · exact ⟨[], .colon, ⟨rfl, rfl⟩, Or.inl rfl, rfl⟩
  · next c cs =>
    split
    · obtain ⟨tk, h1, h2⟩ := consume_took' (isNormalContinuation cc) cs (i + 1 + c.utf8Size)
      refine ⟨c :: tk, .symbol, ⟨by simp only [List.cons_append, ← h1], by rw [h2]; simp only [bytes]; omega⟩, Or.inr rfl, rfl⟩
    · split
      · next hq =>
        subst hq
        obtain ⟨tk, h1, h2⟩ := squoteEnd_took cs (i + 1 + 1)
        refine ⟨'\'' :: tk, .symbol, ⟨by simp only [List.cons_append, ← h1], ?_⟩, Or.inr rfl, rfl⟩
        rw [h2]; simp only [bytes]
        have : '\''.utf8Size = 1 := rfl
        omega
      · exact ⟨[], .colon, ⟨rfl, rfl⟩, Or.inl rfl, rfl⟩

theorem good_from2 {cc : CharClass} {p : Nat} {c : Char} {chars taken : List Char} {k : Kind} {t : Tok} {cur : Cur}
    (ht : Took chars (p + c.utf8Size) taken cur) (hk : step .outside k = .outside ∧ allowed .outside k = true) (h : t = ⟨k, p, cur.loc⟩) :
    Good cc p [c] chars (t, [], cur) := by
  subst h
  exact good_single (taken := taken) (by simp) (by simpa [bytes] using ht) hk

theorem Good.ite {cc : CharClass} {p : Nat} {pre chars : List Char} {P : Prop} [Decidable P] {a b : Tok × List Tok × Cur}
    (ha : P → Good cc p pre chars a) (hb : ¬ P → Good cc p pre chars b) : Good cc p pre chars (if P then a else b) := by
  by_cases h : P
  · rw [if_pos h]; exact ha h
  · rw [if_neg h]; exact hb h

/-- `RESERVED_OPEN` and `RESERVED_CLOSE` do not occur. -/
theorem open_bracket {cc : CharClass} {c : Char} (h : c ≠ '(' ∧ c ≠ '[' ∧ c ≠ '{') (hr : isReservedOpen cc c = true) :
    isBracketOpen cc c = true := by
  unfold isReservedOpen at hr
  unfold isBracketOpen
  split at hr
  · simp_all
  · next hn => rw [if_neg hn]; exact hr

theorem close_bracket {cc : CharClass} {c : Char} (h : c ≠ ')' ∧ c ≠ ']' ∧ c ≠ '}') (hr : isReservedClose cc c = true) :
    isBracketClose cc c = true := by
  unfold isReservedClose at hr
  unfold isBracketClose
  split at hr
  · simp_all
  · next hn => rw [if_neg hn]; exact hr

theorem dispatch_good {cc : CharClass} {last : Option Kind} {ws : Bool} {p : Nat} {c : Char} {chars : List Char} :
    Good cc p [c] chars (dispatch cc last ws p c chars (p + c.utf8Size)) := by
  unfold dispatch
  extract_lets one wide from2
  have hk1 : ∀ a b, (step .outside a = .outside ∧ allowed .outside a = true) →
      (step .outside b = .outside ∧ allowed .outside b = true) →
      (step .outside (applyKind last ws a b) = .outside ∧ allowed .outside (applyKind last ws a b) = true) := by
    intro a b ha hb
    unfold applyKind
    split
    · split <;> assumption
    · assumption
  have hk2 : step .outside (parenKind last ws) = .outside ∧ allowed .outside (parenKind last ws) = true := by
    unfold parenKind
    split
    · split
      · exact ⟨rfl, rfl⟩
      · split <;> exact ⟨rfl, rfl⟩
    · exact ⟨rfl, rfl⟩
  refine Good.ite (fun h => ?_) (fun _ => ?_)
  · subst h; exact good_one rfl (hk1 _ _ ⟨rfl, rfl⟩ ⟨rfl, rfl⟩)
  refine Good.ite (fun h => ?_) (fun _ => ?_)
  · subst h; exact good_one rfl ⟨rfl, rfl⟩
  refine Good.ite (fun h => ?_) (fun _ => ?_)
  · subst h; exact good_one rfl (hk1 _ _ ⟨rfl, rfl⟩ ⟨rfl, rfl⟩)
  refine Good.ite (fun h => ?_) (fun _ => ?_)
  · subst h; exact good_one rfl ⟨rfl, rfl⟩
  refine Good.ite (fun h => ?_) (fun _ => ?_)
  · subst h; exact good_one rfl hk2
  refine Good.ite (fun h => ?_) (fun _ => ?_)
  · subst h; exact good_one rfl ⟨rfl, rfl⟩
  refine Good.ite (fun h => ?_) (fun _ => ?_)
  · subst h; exact good_one rfl ⟨rfl, rfl⟩
  refine Good.ite (fun h => ?_) (fun _ => ?_)
  · subst h; exact good_one rfl ⟨rfl, rfl⟩
  refine Good.ite (fun h => ?_) (fun _ => ?_)
  · subst h
    obtain ⟨tk, k, h1, h2, h3⟩ := colon_took cc p chars
    have : step .outside k = .outside ∧ allowed .outside k = true := by rcases h2 with rfl | rfl <;> exact ⟨rfl, rfl⟩
    exact good_from2 h1 this h3
  refine Good.ite (fun h => ?_) (fun _ => ?_)
  · obtain ⟨tk, ht⟩ := consume_took' (· != '\n') chars (p + c.utf8Size)
    exact good_from2 ht ⟨rfl, rfl⟩ rfl
  refine Good.ite (fun h => ?_) (fun _ => ?_)
  · obtain ⟨tk, ht⟩ := squoteEnd_took chars (p + c.utf8Size)
    exact good_from2 ht ⟨rfl, rfl⟩ rfl
  refine Good.ite (fun h => ?_) (fun _ => ?_)
  · subst h
    exact dquote_good (pt := ['"']) (by simp) rfl
  refine Good.ite (fun h => ?_) (fun _ => ?_)
  · have hnum := number_took p chars (p + c.utf8Size)
    have hop := oper_took cc p chars (p + c.utf8Size)
    unfold minus
    cases chars with
    | nil =>
      obtain ⟨tk, h1, h2⟩ := hop
      exact good_from2 h1 ⟨rfl, rfl⟩ h2
    | cons d ds =>
      dsimp only
      by_cases hd : isAsciiDigit d = true
      · rw [if_pos hd]
        obtain ⟨tk, h1, h2⟩ := hnum
        exact good_from2 h1 ⟨rfl, rfl⟩ h2
      · rw [if_neg hd]
        obtain ⟨tk, h1, h2⟩ := hop
        exact good_from2 h1 ⟨rfl, rfl⟩ h2
  refine Good.ite (fun h => ?_) (fun _ => ?_)
  · obtain ⟨tk, h1, h2⟩ := number_took p chars (p + c.utf8Size)
    exact good_from2 h1 ⟨rfl, rfl⟩ h2
  refine Good.ite (fun h => ?_) (fun _ => ?_)
  · exact normal_good
  refine Good.ite (fun h => ?_) (fun _ => ?_)
  · obtain ⟨tk, h1, h2⟩ := oper_took cc p chars (p + c.utf8Size)
    exact good_from2 h1 ⟨rfl, rfl⟩ h2
  refine Good.ite (fun h => ?_) (fun _ => ?_)
  · obtain ⟨tk, ht⟩ := consume_took' cc.whitespace chars (p + c.utf8Size)
    exact good_from2 ht ⟨rfl, rfl⟩ rfl
  refine Good.ite (fun h => Good.ite (fun _ => good_one rfl ⟨rfl, rfl⟩) (fun hn => ?_)) (fun _ => ?_)
  · exact absurd (open_bracket (by simp_all) h) hn
  refine Good.ite (fun h => Good.ite (fun _ => good_one rfl ⟨rfl, rfl⟩) (fun hn => ?_)) (fun _ => ?_)
  · exact absurd (close_bracket (by simp_all) h) hn
  exact good_one rfl ⟨rfl, rfl⟩

/-- Handing over the buffer. -/
theorem run_buffer (cc : CharClass) (buf : List Tok) : ∀ (fuel : Nat) (s : St), s.buffer = buf →
    ∃ last ws, run cc (fuel + buf.length) s = (run cc fuel ⟨s.chars, s.loc, last, ws, []⟩).map (buf ++ ·) := by
  induction buf with
  | nil =>
    intro fuel s hb
    refine ⟨s.last, s.ws, ?_⟩
    have : s = ⟨s.chars, s.loc, s.last, s.ws, []⟩ := by cases s; simp_all
    rw [← this]
    simp
  | cons t buf ih =>
    intro fuel s hb
    simp only [List.length_cons]
    rw [← Nat.add_assoc]
    rw [run]
    have hn : next cc s = some (t, if !t.kind.isTrivial then { s with buffer := buf, last := some t.kind, ws := false }
        else { s with buffer := buf }) := by
      unfold next
      rw [hb]
    rw [hn]
    dsimp only
    split
    · obtain ⟨last, ws, h⟩ := ih fuel { s with buffer := buf, last := some t.kind, ws := false } rfl
      refine ⟨last, ws, ?_⟩
      rw [h]
      simp [Option.map_map, Function.comp_def]
    · obtain ⟨last, ws, h⟩ := ih fuel { s with buffer := buf } rfl
      refine ⟨last, ws, ?_⟩
      rw [h]
      simp [Option.map_map, Function.comp_def]

theorem run_tiles (cc : CharClass) (n : Nat) : ∀ (s : St) (fuel : Nat), s.buffer = [] → s.chars.length ≤ n →
    s.chars.length + 1 ≤ fuel →
    ∃ ts, run cc fuel s = some ts ∧ Tiles cc.whitespace .outside s.loc s.chars ts .outside := by
  induction n with
  | zero =>
    intro s fuel hb hl hf
    obtain ⟨fuel, rfl⟩ : ∃ f, fuel = f + 1 := ⟨fuel - 1, by omega⟩
    have hc : s.chars = [] := List.length_eq_zero_iff.mp (by omega)
    refine ⟨[], ?_, by rw [hc]; exact .nil⟩
    unfold run next
    rw [hb, hc]
  | succ n ih =>
    intro s fuel hb hl hf
    obtain ⟨fuel, rfl⟩ : ∃ f, fuel = f + 1 := ⟨fuel - 1, by omega⟩
    cases hc : s.chars with
    | nil =>
      refine ⟨[], ?_, .nil⟩
      unfold run next
      rw [hb, hc]
    | cons c cs =>
      have hg := dispatch_good (cc := cc) (last := s.last) (ws := s.ws) (p := s.loc) (c := c) (chars := cs)
      cases hd : dispatch cc s.last s.ws s.loc c cs (s.loc + c.utf8Size) with
      | mk t r =>
        obtain ⟨buf, cur⟩ := r
        rw [hd] at hg
        obtain ⟨taken, ⟨h1, h2⟩, h3⟩ := hg
        dsimp only at h1 h2 h3
        have hlen := h3.length_le
        simp only [List.length_cons, List.length_append, List.length_nil] at hlen
        rw [hc] at hl hf
        simp only [List.length_cons] at hl hf
        have hcl : cs.length = taken.length + cur.chars.length := by rw [h1]; simp
        -- the state after the token
        have key : ∃ last ws, next cc s = some (t, ⟨cur.chars, cur.loc, last, ws, buf⟩) := by
          unfold next
          rw [hb, hc]
          dsimp only
          rw [hd]
          dsimp only
          split
          · exact ⟨_, _, rfl⟩
          · split
            · exact ⟨_, _, rfl⟩
            · exact ⟨_, _, rfl⟩
        obtain ⟨last, ws, hn⟩ := key
        unfold run
        rw [hn]
        dsimp only
        obtain ⟨k, rfl⟩ : ∃ k, fuel = k + buf.length := ⟨fuel - buf.length, by omega⟩
        obtain ⟨last', ws', hrb⟩ := run_buffer cc buf k ⟨cur.chars, cur.loc, last, ws, buf⟩ rfl
        dsimp only at hrb
        obtain ⟨ts, hts, htile⟩ := ih ⟨cur.chars, cur.loc, last', ws', []⟩ k rfl (by dsimp only; omega) (by dsimp only; omega)
        refine ⟨t :: (buf ++ ts), ?_, ?_⟩
        · rw [hrb, hts]; rfl
        · have e : s.loc + c.utf8Size + bytes taken = s.loc + bytes ([c] ++ taken) := by
            rw [bytes_append]; simp only [bytes]; omega
          dsimp only at htile
          rw [h2] at htile
          have e2 : s.loc + bytes [c] + bytes taken = s.loc + bytes ([c] ++ taken) := by rw [bytes_append]; omega
          rw [e2] at htile
          have := h3.append htile
          rw [h1]
          simpa using this

/-! ## Call syntax -/

/-- The tokens are those of a string pattern, up to its end. -/
def Inside : Mode → List Tok → Prop
  | m, [] => m = .outside
  | m, t :: ts => m ≠ .outside ∧ allowed m t.kind = true ∧ Inside (step m t.kind) ts

/-- A token that begins a call. -/
def isApply (k : Kind) : Bool := k = .openParenApply || k = .openBraceApply || k = .openSquareApply
/-- A token that begins a parenthesis, a block or a list which is not a call. -/
def isPlainOpen (k : Kind) : Bool := k = .openParen || k = .openBrace || k = .openSquare

/-- Calls begin where the token just before can be called, and only there; `prev` is the kind of that token. -/
def Adj : Mode → Option Kind → List Tok → Prop
  | _, _, [] => True
  | m, prev, t :: ts =>
    (isApply t.kind = true → m = .outside ∧ ∃ k, prev = some k ∧ k.isCallableTerminal = true) ∧
    (m = .outside → isPlainOpen t.kind = true → ∀ k, prev = some k → k.isCallableTerminal = false) ∧
    Adj (step m t.kind) (some t.kind) ts

/-- What the lexer remembers of the last token. -/
structure Remembers (m : Mode) (prev : Option Kind) (s : St) : Prop where
  inside : Inside m s.buffer
  first : prev = none → s.last = none
  real : ∀ k, prev = some k → k.isTrivial = false → s.last = some k ∧ s.ws = false
  space : prev = some .whitespace → s.ws = true ∨ s.last = none
  comment : prev = some .comment → s.buffer = [] ∧ (s.chars = [] ∨ ∃ cs, s.chars = '\n' :: cs)

theorem allowed_inside {m : Mode} {k : Kind} (hm : m ≠ .outside) (h : allowed m k = true) :
    isApply k = false ∧ k.isTrivial = false ∧ k ≠ .openParen ∧ k ≠ .openSquare := by
  cases k <;> simp_all [allowed, isApply, Kind.isTrivial]

theorem runStr_inside {cc : CharClass} {off : Nat} {next : SSt → Option (Tok × SSt)}
    (hs : ∀ s t s', next s = some (t, s') → Step cc off s t s') (e : Tok)
    (he : ∀ m, m ≠ .outside → allowed m e.kind = true ∧ step m e.kind = .outside)
    (fuel : Nat) (s : SSt) : Inside (modeOf s) (runStr next fuel s ++ [e]) := by
  have hmo : ∀ s, modeOf s ≠ .outside := by intro s; unfold modeOf; split <;> simp
  induction fuel generalizing s with
  | zero => exact ⟨hmo s, (he _ (hmo s)).1, (he _ (hmo s)).2⟩
  | succ fuel ih =>
    unfold runStr
    split
    · exact ⟨hmo s, (he _ (hmo s)).1, (he _ (hmo s)).2⟩
    · next t s' hx =>
      have h := (hs s t s' hx).mode
      refine ⟨hmo s, h.2, ?_⟩
      rw [h.1]
      exact ih s'

theorem patternToks_inside (cc : CharClass) (pre : Prefix) (c : Bool) (content : List Char) (off a b : Nat) :
    Inside .pattern (patternToks cc c content off ++ [⟨patternEndKind pre, a, b⟩]) := by
  have he : ∀ m, m ≠ Mode.outside → allowed m (patternEndKind pre) = true ∧ step m (patternEndKind pre) = .outside := by
    intro m hm
    cases pre <;> simp [allowed, step, patternEndKind, hm]
  unfold patternToks
  cases c with
  | true =>
    exact runStr_inside (cc := cc) (off := off) (fun s t s' h => cstrNext_step h) ⟨patternEndKind pre, a, b⟩ he
      (content.length + 1) ⟨content, 0, false, false⟩
  | false =>
    exact runStr_inside (cc := cc) (off := off) (fun s t s' h => strNext_step h) ⟨patternEndKind pre, a, b⟩ he
      (content.length + 1) ⟨content, 0, false, false⟩

/-- What `dispatch` makes, for the purposes of call syntax. -/
structure Fine (cc : CharClass) (last : Option Kind) (ws : Bool) (c : Char) (r : Tok × List Tok × Cur) : Prop where
  inside : Inside (step .outside r.1.kind) r.2.1
  apply : isApply r.1.kind = true → c ≠ '\n' ∧ ws = false ∧ ∃ k, last = some k ∧ k.isCallableTerminal = true
  plain : isPlainOpen r.1.kind = true → c ≠ '\n' ∧ (ws = true ∨ ∀ k, last = some k → k.isCallableTerminal = false)
  comment : r.1.kind = .comment → r.2.2.chars = [] ∨ ∃ cs, r.2.2.chars = '\n' :: cs
  newline : c = '\n' → r.1.kind = .whitespace

/-- What is assumed of the Unicode tables: the newline is white space and not a letter; some ASCII characters are
not white space. -/
structure CharClass.Sane (cc : CharClass) : Prop where
  newline : cc.whitespace '\n' = true
  notAlphabetic : cc.alphabetic '\n' = false
  notSpace : ∀ c ∈ ['{', '}', ':', '.'], cc.whitespace c = false
  alphabetic : ∀ c ∈ ['c', 'r'], cc.alphabetic c = true
  notAlphanumeric : cc.alphanumeric '"' = false

theorem Fine.ite {cc : CharClass} {last : Option Kind} {ws : Bool} {c : Char} {P : Prop} [Decidable P]
    {a b : Tok × List Tok × Cur} (ha : P → Fine cc last ws c a) (hb : ¬ P → Fine cc last ws c b) :
    Fine cc last ws c (if P then a else b) := by
  by_cases h : P
  · rw [if_pos h]; exact ha h
  · rw [if_neg h]; exact hb h

/-- A single token of an ordinary kind. -/
theorem fine_plain {cc : CharClass} {last : Option Kind} {ws : Bool} {c : Char} {t : Tok} {cur : Cur}
    (h : step .outside t.kind = .outside) (h1 : isApply t.kind = false) (h2 : isPlainOpen t.kind = false)
    (h3 : t.kind ≠ .comment) (h4 : c ≠ '\n') : Fine cc last ws c (t, [], cur) :=
  ⟨h, by simp [h1], by simp [h2], by simp [h3], by simp [h4]⟩

theorem dquote_fine {cc : CharClass} {last : Option Kind} {ws : Bool} {c : Char} {pre : Prefix} {p i l : Nat}
    {chars : List Char} (h4 : c ≠ '\n') : Fine cc last ws c (dquote cc pre p i chars l) := by
  unfold dquote
  generalize dqLoop (pre = .c) chars l = r
  obtain ⟨content, cur, closed⟩ := r
  dsimp only
  have hs : ∀ a b : Nat, Fine cc last ws c (⟨simpleKind pre, a, b⟩, [], cur) := by
    intro a b
    refine fine_plain (simpleKind_step pre).1 ?_ ?_ ?_ h4 <;> cases pre <;> simp [simpleKind, isApply, isPlainOpen]
  generalize (if pre = .c then hasUnescapedBraces content else content.contains '{' || content.contains '}') = has
  refine Fine.ite (fun _ => hs _ _) (fun _ => Fine.ite (fun _ => hs _ _) (fun _ => Fine.ite (fun _ => ?_) (fun _ => hs _ _)))
  refine ⟨?_, ?_, ?_, ?_, by simp [h4]⟩
  · have e1 : step .outside (patternStartKind pre) = .pattern := by cases pre <;> rfl
    dsimp only
    rw [e1]
    exact patternToks_inside _ _ _ _ _ _ _
  all_goals cases pre <;> simp [patternStartKind, isApply, isPlainOpen]

theorem normal_fine {cc : CharClass} {last : Option Kind} {ws : Bool} {c : Char} {p l : Nat} {chars : List Char}
    (h4 : c ≠ '\n') : Fine cc last ws c (normal cc p c chars l) := by
  have hplain : ∀ a b cur, Fine cc last ws c (⟨.unquotedIdentifier, a, b⟩, [], cur) := by
    intro a b cur
    exact fine_plain rfl rfl rfl (by simp) h4
  unfold normal
  dsimp only
  refine Fine.ite (fun _ => ?_) (fun _ => hplain _ _ _)
  split
  · refine Fine.ite (fun _ => dquote_fine h4) (fun _ => ?_)
    refine Fine.ite (fun _ => dquote_fine h4) (fun _ => ?_)
    refine Fine.ite (fun _ => dquote_fine h4) (fun _ => ?_)
    exact Fine.ite (fun _ => dquote_fine h4) (fun _ => hplain _ _ _)
  · exact hplain _ _ _

theorem applyKind_fine {cc : CharClass} {last : Option Kind} {ws : Bool} {c : Char} {a b : Kind} {i j : Nat} {cur : Cur}
    (h4 : c ≠ '\n') (ha : isPlainOpen a = true) (hb : isApply b = true) :
    Fine cc last ws c (⟨applyKind last ws a b, i, j⟩, [], cur) := by
  have hka : step .outside a = .outside ∧ a ≠ .comment ∧ isApply a = false := by
    cases a <;> simp_all [isPlainOpen, step, isApply]
  have hkb : step .outside b = .outside ∧ b ≠ .comment ∧ isPlainOpen b = false := by
    cases b <;> simp_all [isPlainOpen, step, isApply]
  unfold applyKind
  cases last with
  | none => exact ⟨hka.1, by simp [hka.2.2], by simp [h4], by simp [hka.2.1], by simp [h4]⟩
  | some k =>
    dsimp only
    by_cases hk : (k.isCallableTerminal && !ws) = true
    · rw [if_pos hk]
      simp only [Bool.and_eq_true, Bool.not_eq_true'] at hk
      refine ⟨hkb.1, fun _ => ⟨h4, hk.2, k, rfl, hk.1⟩, by simp [hkb.2.2], by simp [hkb.2.1], by simp [h4]⟩
    · rw [if_neg hk]
      refine ⟨hka.1, by simp [hka.2.2], fun _ => ⟨h4, ?_⟩, by simp [hka.2.1], by simp [h4]⟩
      cases hw : ws with
      | true => simp
      | false => simp [hw] at hk; simp [hk]

theorem parenKind_eq (last : Option Kind) (ws : Bool) : parenKind last ws = applyKind last ws .openParen .openParenApply := by
  unfold parenKind applyKind
  cases last with
  | none => rfl
  | some k => cases hk : k.isCallableTerminal <;> cases ws <;> simp_all

theorem dispatch_fine {cc : CharClass} (hcc : cc.Sane) {last : Option Kind} {ws : Bool} {p : Nat} {c : Char} {l : Nat}
    {chars : List Char} : Fine cc last ws c (dispatch cc last ws p c chars l) := by
  unfold dispatch
  extract_lets one wide from2
  have hplain : ∀ k a b cur, step .outside k = .outside → isApply k = false → isPlainOpen k = false → k ≠ .comment →
      c ≠ '\n' → Fine cc last ws c (⟨k, a, b⟩, [], cur) := fun k a b cur h1 h2 h3 h4 h5 => fine_plain h1 h2 h3 h4 h5
  refine Fine.ite (fun h => applyKind_fine (by subst h; decide) rfl rfl) (fun _ => ?_)
  refine Fine.ite (fun h => fine_plain rfl rfl rfl (by simp) (by subst h; decide)) (fun _ => ?_)
  refine Fine.ite (fun h => applyKind_fine (by subst h; decide) rfl rfl) (fun _ => ?_)
  refine Fine.ite (fun h => fine_plain rfl rfl rfl (by simp) (by subst h; decide)) (fun _ => ?_)
  refine Fine.ite (fun h => ?_) (fun _ => ?_)
  · rw [parenKind_eq]
    exact applyKind_fine (by subst h; decide) rfl rfl
  refine Fine.ite (fun h => fine_plain rfl rfl rfl (by simp) (by subst h; decide)) (fun _ => ?_)
  refine Fine.ite (fun h => fine_plain rfl rfl rfl (by simp) (by subst h; decide)) (fun _ => ?_)
  refine Fine.ite (fun h => fine_plain rfl rfl rfl (by simp) (by subst h; decide)) (fun _ => ?_)
  refine Fine.ite (fun h => ?_) (fun _ => ?_)
  · have hk : (colon cc p chars l).1.kind = .colon ∨ (colon cc p chars l).1.kind = .symbol := by
      unfold colon
      split
      · simp
      · split
        · simp
        · split <;> simp
    refine fine_plain ?_ ?_ ?_ ?_ (by subst h; decide) <;> rcases hk with hk | hk <;> rw [hk] <;> simp [step, isApply, isPlainOpen]
  refine Fine.ite (fun h => ?_) (fun _ => ?_)
  · refine ⟨rfl, by simp [isApply], by simp [isPlainOpen], fun _ => ?_, fun hc => absurd hc (by subst h; decide)⟩
    obtain ⟨_, _, _, hx⟩ := consume_took (· != '\n') chars l
    dsimp only
    cases hc : (consume (· != '\n') chars l).chars with
    | nil => simp
    | cons d ds =>
      have := hx d ds hc
      simp at this
      simp [this]
  refine Fine.ite (fun h => fine_plain rfl rfl rfl (by simp) (by subst h; decide)) (fun _ => ?_)
  refine Fine.ite (fun h => dquote_fine (by subst h; decide)) (fun _ => ?_)
  refine Fine.ite (fun h => ?_) (fun _ => ?_)
  · have hk : (minus cc p chars l).1.kind = .number ∨ (minus cc p chars l).1.kind = .operatorIdentifier := by
      unfold minus
      split
      · split
        · unfold number; dsimp only; split <;> simp
        · simp [oper]
      · simp [oper]
    refine fine_plain ?_ ?_ ?_ ?_ (by subst h; decide) <;> rcases hk with hk | hk <;> rw [hk] <;> simp [step, isApply, isPlainOpen]
  refine Fine.ite (fun h => ?_) (fun _ => ?_)
  · have hk : (number p chars l).1.kind = .number := by unfold number; dsimp only; split <;> rfl
    refine fine_plain ?_ ?_ ?_ ?_ (by intro hc; subst hc; simp [isAsciiDigit] at h) <;> rw [hk] <;> simp [step, isApply, isPlainOpen]
  refine Fine.ite (fun h => normal_fine ?_) (fun _ => ?_)
  · intro hc; subst hc; simp [isNormalStart, hcc.notAlphabetic] at h
  refine Fine.ite (fun h => ?_) (fun _ => ?_)
  · refine fine_plain rfl rfl rfl (by simp [oper]) ?_
    intro hc; subst hc; simp [isOperStart, isAscii] at h
  refine Fine.ite (fun h => ?_) (fun hns => ?_)
  · exact ⟨rfl, by simp [isApply], by simp [isPlainOpen], by simp, fun _ => rfl⟩
  have hnl : c ≠ '\n' := by intro hc; subst hc; exact hns hcc.newline
  refine Fine.ite (fun h => Fine.ite (fun _ => ?_) (fun _ => ?_)) (fun _ => ?_)
  · exact fine_plain rfl rfl rfl (by simp) hnl
  · exact fine_plain rfl rfl rfl (by simp) hnl
  refine Fine.ite (fun h => Fine.ite (fun _ => ?_) (fun _ => ?_)) (fun _ => ?_)
  · exact fine_plain rfl rfl rfl (by simp) hnl
  · exact fine_plain rfl rfl rfl (by simp) hnl
  · exact fine_plain rfl rfl rfl (by simp) hnl

theorem run_adj {cc : CharClass} (hcc : cc.Sane) : ∀ (fuel : Nat) (m : Mode) (prev : Option Kind) (s : St) (ts : List Tok),
    Remembers m prev s → run cc fuel s = some ts → Adj m prev ts := by
  intro fuel
  induction fuel with
  | zero => intro m prev s ts _ h; cases h
  | succ fuel ih =>
    intro m prev s ts hr h
    rw [run] at h
    cases hn : next cc s with
    | none => rw [hn] at h; cases h; trivial
    | some r =>
      obtain ⟨t, s'⟩ := r
      rw [hn] at h
      dsimp only at h
      cases hrun : run cc fuel s' with
      | none => rw [hrun] at h; cases h
      | some us =>
        rw [hrun] at h
        cases h
        unfold next at hn
        split at hn
        · next b buffer hb =>
          cases hn
          have hin := hr.inside
          rw [hb] at hin
          obtain ⟨hmo, hal, hrest⟩ := hin
          obtain ⟨a1, a2, a3, a4⟩ := allowed_inside hmo hal
          refine ⟨by simp [a1], fun h => absurd h hmo, ih _ _ _ _ ?_ hrun⟩
          simp only [a2, Bool.not_false, if_true]
          refine ⟨hrest, by simp, ?_, ?_, ?_⟩
          · intro k hk _; simpa using hk
          · intro hk; simp only [Option.some.injEq] at hk; rw [hk] at a2; simp [Kind.isTrivial] at a2
          · intro hk; simp only [Option.some.injEq] at hk; rw [hk] at a2; simp [Kind.isTrivial] at a2
        · next hb =>
          have hm : m = .outside := by have := hr.inside; rw [hb] at this; exact this
          subst hm
          split at hn
          · cases hn
          · next c cs hc =>
            have hf := dispatch_fine hcc (last := s.last) (ws := s.ws) (p := s.loc) (c := c) (l := s.loc + c.utf8Size) (chars := cs)
            generalize dispatch cc s.last s.ws s.loc c cs (s.loc + c.utf8Size) = d at hf hn
            obtain ⟨t', buffer, cur⟩ := d
            dsimp only at hn hf
            simp only [Option.some.injEq, Prod.mk.injEq] at hn
            obtain ⟨rfl, hs'⟩ := hn
            -- the token before is the one remembered, or this is white space
            have hprev : c ≠ '\n' → s.ws = false → ∀ k, s.last = some k → prev = some k := by
              intro hcn hws k hk
              cases hp : prev with
              | none => rw [hr.first hp] at hk; cases hk
              | some q =>
                by_cases hq : q.isTrivial = true
                · simp [Kind.isTrivial] at hq
                  rcases hq with rfl | rfl
                  · rcases (hr.comment hp).2 with e | ⟨x, e⟩
                    · rw [hc] at e; cases e
                    · rw [hc] at e; cases e; exact absurd rfl hcn
                  · rcases hr.space hp with e | e
                    · rw [hws] at e; cases e
                    · rw [e] at hk; cases hk
                · have := (hr.real q hp (by simpa using hq)).1
                  rw [this] at hk
                  exact hk
            have hprev' : ∀ k, prev = some k → k.isCallableTerminal = true → s.last = some k ∧ s.ws = false := by
              intro k hp hk
              exact hr.real k hp (by cases k <;> simp_all [Kind.isCallableTerminal, Kind.isTrivial])
            refine ⟨fun ha => ?_, fun _ ha k hk => ?_, ih _ _ _ _ ?_ hrun⟩
            · obtain ⟨hcn, hws, k, hk1, hk2⟩ := hf.apply ha
              exact ⟨rfl, k, hprev hcn hws k hk1, hk2⟩
            · obtain ⟨hcn, hx⟩ := hf.plain ha
              cases hcall : k.isCallableTerminal with
              | false => rfl
              | true =>
                obtain ⟨e1, e2⟩ := hprev' k hk hcall
                rcases hx with e | e
                · rw [e2] at e; cases e
                · rw [e k e1] at hcall; cases hcall
            · subst hs'
              by_cases hw : t'.kind = .whitespace
              · rw [if_pos hw]
                refine ⟨hf.inside, by simp, ?_, by simp, ?_⟩
                · intro k hk hnt; simp only [Option.some.injEq] at hk; subst hk; rw [hw] at hnt; simp [Kind.isTrivial] at hnt
                · intro hk; simp only [Option.some.injEq] at hk; rw [hw] at hk; cases hk
              · rw [if_neg hw]
                by_cases hnt : (!t'.kind.isTrivial) = true
                · rw [if_pos hnt]
                  refine ⟨hf.inside, by simp, ?_, ?_, ?_⟩
                  · intro k hk _; simpa using hk
                  · intro hk; simp only [Option.some.injEq] at hk; exact absurd hk hw
                  · intro hk; simp only [Option.some.injEq] at hk; rw [hk] at hnt; simp [Kind.isTrivial] at hnt
                · rw [if_neg hnt]
                  have hcom : t'.kind = .comment := by
                    simp [Kind.isTrivial] at hnt
                    exact Classical.byContradiction fun e => hw (hnt e)
                  have hbuf : buffer = [] := by
                    have := hf.inside
                    rw [hcom] at this
                    cases buffer with
                    | nil => rfl
                    | cons x xs => exact absurd rfl this.1
                  refine ⟨hf.inside, by simp, ?_, ?_, ?_⟩
                  · intro k hk hx; simp only [Option.some.injEq] at hk; subst hk; rw [hcom] at hx; simp [Kind.isTrivial] at hx
                  · intro hk; simp only [Option.some.injEq] at hk; exact absurd hk hw
                  · intro _; exact ⟨hbuf, hf.comment hcom⟩

end Verif.Lex
