import Verif.FmtSpec

/-!
# Proofs only.  Reading a text again after its white space has changed
-/

namespace Verif.Fmt

open Verif.Lex

/-! ## White space -/

theorem Blanks.ne {cc : CharClass} (hb : Blanks cc) {c : Char} (hc : cc.whitespace c = true) {d : Char}
    (hd : isAscii d = true) (h : d ∉ ['\t', '\n', '\x0b', '\x0c', '\r', ' ']) : c ≠ d := by
  rintro rfl
  exact h (hb.ascii _ hc hd)

theorem Blanks.not_digit {cc : CharClass} (hb : Blanks cc) {c : Char} (hc : cc.whitespace c = true) :
    isAsciiDigit c = false := by
  cases h : isAsciiDigit c with
  | false => rfl
  | true =>
    have ha : isAscii c = true := by
      unfold isAsciiDigit at h
      unfold isAscii
      simp only [Bool.and_eq_true, decide_eq_true_eq] at h ⊢
      have h2 : c.toNat ≤ '9'.toNat := h.2
      have : '9'.toNat = 57 := rfl
      omega
    have := hb.ascii c hc ha
    revert h
    revert this
    simp only [List.mem_cons, List.not_mem_nil, or_false]
    rintro (rfl | rfl | rfl | rfl | rfl | rfl) <;> decide

theorem Blanks.not_start {cc : CharClass} (hb : Blanks cc) {c : Char} (hc : cc.whitespace c = true) :
    isNormalStart cc c = false := by
  have h1 : c ≠ '•' := by rintro rfl; rw [hb.bullet] at hc; cases hc
  have h2 : c ≠ '$' := hb.ne hc (by decide) (by decide)
  have h3 : c ≠ '?' := hb.ne hc (by decide) (by decide)
  have h4 : c ≠ '_' := hb.ne hc (by decide) (by decide)
  simp [isNormalStart, h1, h2, h3, h4, hb.alphabetic c hc]

theorem Blanks.not_cont {cc : CharClass} (hb : Blanks cc) {c : Char} (hc : cc.whitespace c = true) :
    isNormalContinuation cc c = false := by
  have h1 : c ≠ '!' := hb.ne hc (by decide) (by decide)
  have h2 : c ≠ '$' := hb.ne hc (by decide) (by decide)
  have h3 : c ≠ '?' := hb.ne hc (by decide) (by decide)
  have h4 : c ≠ '_' := hb.ne hc (by decide) (by decide)
  have h5 : c ≠ '-' := hb.ne hc (by decide) (by decide)
  have h6 : c ≠ '*' := hb.ne hc (by decide) (by decide)
  simp [isNormalContinuation, h1, h2, h3, h4, h5, h6, hb.alphanumeric c hc]

theorem Blanks.not_oper {cc : CharClass} (hb : Blanks cc) {c : Char} (hc : cc.whitespace c = true) :
    isOperContinuation cc c = false ∧ isOperStart cc c = false := by
  have hcat : isOperCategory (cc.category c) = false := by rw [hb.category c hc]; rfl
  by_cases ha : isAscii c = true
  · have := hb.ascii c hc ha
    unfold isOperContinuation isOperStart
    rw [hcat]
    revert this
    simp only [List.mem_cons, List.not_mem_nil, or_false]
    rintro (rfl | rfl | rfl | rfl | rfl | rfl) <;> decide
  · unfold isOperContinuation isOperStart
    rw [if_neg ha, if_neg ha]
    exact ⟨hcat, hcat⟩

/-- What may follow a token in place of what did. -/
inductive Rel (cc : CharClass) (b : Bool) : List Char → List Char → Prop
  | nil : Rel cc b [] []
  | tail : b = true → Rel cc b [] ['\n']
  | same (c : Char) (x y : List Char) : Rel cc b (c :: x) (c :: y)
  | blank {c c' : Char} {x y : List Char} : cc.whitespace c = true → cc.whitespace c' = true → c ≠ '\n' →
      Rel cc b (c :: x) (c' :: y)

/-- A set of characters without white space does not hold of the first character of the one if it does not of the
other. -/
theorem Rel.head {cc : CharClass} (hb : Blanks cc) {b : Bool} {x y : List Char} (h : Rel cc b x y) {p : Char → Bool}
    (hp : ∀ c, cc.whitespace c = true → p c = false) (hx : ∀ c r, x = c :: r → p c = false) :
    ∀ c r, y = c :: r → p c = false := by
  cases h with
  | nil => exact hx
  | tail _ => rintro c r ⟨⟩; exact hp _ hb.newline
  | same c x y => rintro _ _ ⟨⟩; exact hx _ _ rfl
  | blank h1 h2 h3 => rintro _ _ ⟨⟩; exact hp _ h2

theorem consume_all {p : Char → Bool} {mid rest : List Char} (hm : ∀ c ∈ mid, p c = true)
    (hr : ∀ c r, rest = c :: r → p c = false) (l : Nat) : consume p (mid ++ rest) l = ⟨rest, l + bytes mid⟩ := by
  induction mid generalizing l with
  | nil =>
    cases rest with
    | nil => rfl
    | cons c r => simp [consume, hr c r rfl, bytes]
  | cons c mid ih =>
    rw [List.cons_append, consume, if_pos (hm c (by simp)), ih (fun x hx => hm x (by simp [hx]))]
    simp [bytes, Nat.add_assoc]

theorem consume_stab {cc : CharClass} (hb : Blanks cc) {p : Char → Bool}
    (hp : ∀ c, cc.whitespace c = true → p c = false) (cs : List Char) (l : Nat) :
    ∃ mid, cs = mid ++ (consume p cs l).chars ∧ (∀ c ∈ mid, p c = true) ∧
      ∀ b rest, Rel cc b (consume p cs l).chars rest → consume p (mid ++ rest) l = ⟨rest, (consume p cs l).loc⟩ := by
  obtain ⟨mid, ⟨h1, h2⟩, h3, h4⟩ := consume_took p cs l
  refine ⟨mid, h1, h3, fun b rest hr => ?_⟩
  rw [h2]
  exact consume_all h3 (hr.head hb hp h4) l

theorem squote_stab (cs : List Char) (l : Nat) : ∃ mid, cs = mid ++ (squoteEnd cs l).chars ∧
    ((∀ rest, squoteEnd (mid ++ rest) l = ⟨rest, (squoteEnd cs l).loc⟩) ∨
      ((squoteEnd cs l).chars = [] ∧ '\'' ∉ mid)) ∧ squoteEnd (mid ++ []) l = ⟨[], (squoteEnd cs l).loc⟩ := by
  obtain ⟨mid, ⟨h1, h2⟩, h3, h4⟩ := consume_took (· != '\'') cs l
  have hnot : '\'' ∉ mid := fun hm => by simpa using h3 _ hm
  cases hc : (consume (· != '\'') cs l).chars with
  | nil =>
    have e : squoteEnd cs l = ⟨[], l + bytes mid⟩ := by
      unfold squoteEnd
      dsimp only
      rw [hc]
      dsimp only
      rw [← h2, ← hc]
    rw [hc, List.append_nil] at h1
    subst h1
    refine ⟨cs, by rw [e]; simp, .inr ⟨by rw [e], hnot⟩, ?_⟩
    rw [List.append_nil, e]
  | cons c r =>
    have hcq : c = '\'' := by simpa using h4 c r hc
    subst hcq
    have e : squoteEnd cs l = ⟨r, l + bytes mid + 1⟩ := by
      unfold squoteEnd
      dsimp only
      rw [hc]
      dsimp only
      rw [h2]
    have hall : ∀ rest, squoteEnd ((mid ++ ['\'']) ++ rest) l = ⟨rest, (squoteEnd cs l).loc⟩ := by
      intro rest
      have := consume_all (p := (· != '\'')) (mid := mid) (rest := '\'' :: rest) h3
        (by rintro _ _ ⟨⟩; rfl) l
      unfold squoteEnd
      dsimp only
      rw [List.append_assoc, List.singleton_append, this]
      dsimp only
      have := e
      unfold squoteEnd at this
      dsimp only at this
      rw [this]
    exact ⟨mid ++ ['\''], by rw [e, h1, hc]; simp, .inl hall, hall []⟩

/-- No quote that is not escaped. -/
def noQuote (isC : Bool) (mid : List Char) : Prop := if isC then cEnds mid = false else '"' ∉ mid

theorem cEnds_cons {c : Char} (h1 : c ≠ '"') (h2 : c ≠ '\\') (cs : List Char) : cEnds (c :: cs) = cEnds cs := by
  rw [cEnds.eq_def]
  split <;> simp_all

theorem dqLoop_cons (isC : Bool) {c : Char} (h1 : c ≠ '"') (h2 : c ≠ '\\') (cs : List Char) (l : Nat) :
    dqLoop isC (c :: cs) l = (c :: (dqLoop isC cs (l + c.utf8Size)).1, (dqLoop isC cs (l + c.utf8Size)).2) := by
  rw [dqLoop.eq_def]
  split <;> simp_all

theorem dqLoop_stab (isC : Bool) (cs : List Char) (l : Nat) : ∃ mid, cs = mid ++ (dqLoop isC cs l).2.1.chars ∧
    (((dqLoop isC cs l).2.2 = true ∧
        ∀ rest, dqLoop isC (mid ++ rest) l = ((dqLoop isC cs l).1, ⟨rest, (dqLoop isC cs l).2.1.loc⟩, true)) ∨
      ((dqLoop isC cs l).2.2 = false ∧ (dqLoop isC cs l).2.1.chars = [] ∧ noQuote isC mid)) := by
  induction cs, l using dqLoop.induct with
  | isC => exact isC
  | case1 l => exact ⟨[], rfl, .inr ⟨rfl, rfl, by unfold noQuote; cases isC <;> simp [cEnds]⟩⟩
  | case2 l cs =>
    refine ⟨['"'], rfl, .inl ⟨by simp [dqLoop], fun rest => by simp [dqLoop]⟩⟩
  | case3 l =>
    exact ⟨['\\'], by simp [dqLoop], .inr ⟨by simp [dqLoop], by simp [dqLoop],
      by unfold noQuote; cases isC <;> simp [cEnds]⟩⟩
  | case4 c cs l h ih =>
    have e : ∀ cs, dqLoop isC ('\\' :: c :: cs) l = ('\\' :: c :: (dqLoop isC cs (l + 1 + c.utf8Size)).1,
        (dqLoop isC cs (l + 1 + c.utf8Size)).2) := by
      intro cs; rw [dqLoop]; simp [h]
    obtain ⟨mid, h1, h2⟩ := ih
    rw [e]
    refine ⟨'\\' :: c :: mid, by simp only [List.cons_append, ← h1], ?_⟩
    rcases h2 with ⟨g1, g2⟩ | ⟨g1, g2, g3⟩
    · refine .inl ⟨g1, fun rest => ?_⟩
      rw [List.cons_append, List.cons_append, e, g2]
    · refine .inr ⟨g1, g2, ?_⟩
      unfold noQuote at g3 ⊢
      rw [if_pos h] at g3 ⊢
      rw [cEnds]
      exact g3
  | case5 c cs l h ih =>
    have e : ∀ c cs, dqLoop isC ('\\' :: c :: cs) l = ('\\' :: (dqLoop isC (c :: cs) (l + 1)).1,
        (dqLoop isC (c :: cs) (l + 1)).2) := by
      intro c cs; rw [dqLoop]; simp [h]
    obtain ⟨mid, h1, h2⟩ := ih
    rw [e]
    refine ⟨'\\' :: mid, by simp only [List.cons_append, ← h1], ?_⟩
    rcases h2 with ⟨g1, g2⟩ | ⟨g1, g2, g3⟩
    · refine .inl ⟨g1, fun rest => ?_⟩
      have g := g2 rest
      cases hm : mid ++ rest with
      | nil =>
        rw [hm] at g
        simp [dqLoop] at g
      | cons d ds =>
        rw [List.cons_append, hm, e, ← hm, g]
    · refine .inr ⟨g1, g2, ?_⟩
      unfold noQuote at g3 ⊢
      rw [if_neg h] at g3 ⊢
      simp [g3]
  | case6 c cs l h0 h1 h2 ih =>
    obtain ⟨mid, k1, k2⟩ := ih
    have hq : c ≠ '"' := by rintro rfl; exact h0 rfl
    have hbs : c ≠ '\\' := by
      rintro rfl
      cases cs with
      | nil => exact h1 rfl rfl
      | cons d ds => exact h2 d ds rfl rfl
    have e : ∀ cs, dqLoop isC (c :: cs) l = (c :: (dqLoop isC cs (l + c.utf8Size)).1,
        (dqLoop isC cs (l + c.utf8Size)).2) := fun cs => dqLoop_cons isC hq hbs cs l
    rw [e]
    refine ⟨c :: mid, by simp only [List.cons_append, ← k1], ?_⟩
    rcases k2 with ⟨g1, g2⟩ | ⟨g1, g2, g3⟩
    · refine .inl ⟨g1, fun rest => ?_⟩
      rw [List.cons_append, e, g2]
    · refine .inr ⟨g1, g2, ?_⟩
      unfold noQuote at g3 ⊢
      split
      · rename_i hc
        rw [if_pos hc] at g3
        rw [cEnds_cons hq hbs]
        exact g3
      · rename_i hc
        rw [if_neg hc] at g3
        simp [g3, Ne.symm hq]

/-! ## One call of the lexer -/

/-- The result of a piece of the lexer does not depend on what follows, as long as it is similar.  `ok` is what has to
be known of the text taken if a newline is to follow where nothing did. -/
def Stab (cc : CharClass) (ok : Kind → List Char → Bool) (f : List Char → Tok × List Tok × Cur) (cs : List Char) : Prop :=
  ∃ mid, cs = mid ++ (f cs).2.2.chars ∧ ∀ b rest, (b = true → ok (f cs).1.kind mid = true) →
    Rel cc b (f cs).2.2.chars rest → f (mid ++ rest) = ((f cs).1, (f cs).2.1, ⟨rest, (f cs).2.2.loc⟩)

/-- No quotes to be closed. -/
theorem stab_of {cc : CharClass} {ok : Kind → List Char → Bool} {f : List Char → Tok × List Tok × Cur} {cs : List Char}
    {mid : List Char} (h1 : cs = mid ++ (f cs).2.2.chars)
    (h2 : ∀ b rest, Rel cc b (f cs).2.2.chars rest → f (mid ++ rest) = ((f cs).1, (f cs).2.1, ⟨rest, (f cs).2.2.loc⟩)) :
    Stab cc ok f cs := ⟨mid, h1, fun b rest _ => h2 b rest⟩

theorem stab_one {cc : CharClass} {ok : Kind → List Char → Bool} (t : Tok) (l : Nat) (cs : List Char) :
    Stab cc ok (fun cs => (t, [], ⟨cs, l⟩)) cs := stab_of (mid := []) rfl (fun _ _ _ => rfl)

theorem stab_consume {cc : CharClass} (hb : Blanks cc) {ok : Kind → List Char → Bool} {p : Char → Bool}
    (hp : ∀ c, cc.whitespace c = true → p c = false) (k : Kind) (i l : Nat) (cs : List Char) :
    Stab cc ok (fun cs => (⟨k, i, (consume p cs l).loc⟩, [], consume p cs l)) cs := by
  obtain ⟨mid, h1, _, h2⟩ := consume_stab hb hp cs l
  refine stab_of (mid := mid) h1 fun b rest hr => ?_
  dsimp only at hr ⊢
  rw [h2 b rest hr]

theorem stab_comment {cc : CharClass} {ok : Kind → List Char → Bool} (i l : Nat) (cs : List Char) :
    Stab cc ok (fun cs => (⟨.comment, i, (consume (· != '\n') cs l).loc⟩, [], consume (· != '\n') cs l)) cs := by
  obtain ⟨mid, ⟨h1, h2⟩, h3, h4⟩ := consume_took (· != '\n') cs l
  refine stab_of (mid := mid) h1 fun b rest hr => ?_
  dsimp only at hr ⊢
  have hh : ∀ c r, rest = c :: r → (c != '\n') = false := by
    generalize (consume (· != '\n') cs l).chars = x at hr h4
    cases hr with
    | nil => exact h4
    | tail _ => rintro _ _ ⟨⟩; rfl
    | same c x y => rintro _ _ ⟨⟩; exact h4 _ _ rfl
    | blank _ _ hne => have := h4 _ _ rfl; simp [hne] at this
  rw [consume_all h3 hh l, h2]

/-- A test of the first character. -/
def headP (p : Char → Bool) : List Char → Bool
  | [] => false
  | c :: _ => p c

theorem Rel.test {cc : CharClass} (hb : Blanks cc) {b : Bool} {x y : List Char} (h : Rel cc b x y) {p : Char → Bool}
    (hp : ∀ c, cc.whitespace c = true → p c = false) (mid : List Char) : headP p (mid ++ y) = headP p (mid ++ x) := by
  cases mid with
  | cons c mid => rfl
  | nil =>
    cases h with
    | nil => rfl
    | tail _ => exact hp _ hb.newline
    | same c x y => rfl
    | blank h1 h2 _ => exact (hp _ h2).trans (hp _ h1).symm

/-- The end of `number`. -/
def numTail (i : Nat) (e : Cur) : Tok × Cur :=
  if headP (· = '.') e.chars then
    (⟨.number, i, (consume isAsciiDigit (e.chars.drop 1) (e.loc + 1)).loc⟩,
      consume isAsciiDigit (e.chars.drop 1) (e.loc + 1))
  else (⟨.number, i, e.loc⟩, e)

theorem number_eq (i : Nat) (cs : List Char) (l : Nat) : number i cs l = numTail i (consume isAsciiDigit cs l) := by
  unfold number numTail
  dsimp only
  cases h : (consume isAsciiDigit cs l).chars with
  | nil => simp [headP]
  | cons c r =>
    by_cases hc : c = '.'
    · subst hc; simp [headP]
    · simp only [headP, hc, decide_false, Bool.false_eq_true, if_false]
      split
      · rename_i h2; cases h2; exact absurd rfl hc
      · rfl

theorem stab_number {cc : CharClass} (hb : Blanks cc) {ok : Kind → List Char → Bool} (i l : Nat) (cs : List Char) :
    Stab cc ok (fun cs => ((number i cs l).1, [], (number i cs l).2)) cs := by
  have hdot : ∀ c, cc.whitespace c = true → decide (c = '.') = false := fun c hc =>
    decide_eq_false (hb.ne hc (by decide) (by decide))
  obtain ⟨mid, ⟨h1, h5⟩, h3, h4⟩ := consume_took isAsciiDigit cs l
  cases hh : headP (· = '.') (consume isAsciiDigit cs l).chars with
  | false =>
    have e : number i cs l = (⟨.number, i, (consume isAsciiDigit cs l).loc⟩, consume isAsciiDigit cs l) := by
      rw [number_eq, numTail, hh]; rfl
    refine stab_of (mid := mid) (by dsimp only; rw [e]; exact h1) fun b rest hr => ?_
    dsimp only at hr ⊢
    rw [e] at hr ⊢
    dsimp only at hr ⊢
    have hd := hr.test hb hdot []
    rw [List.nil_append, List.nil_append, hh] at hd
    rw [number_eq, consume_all h3 (hr.head hb (fun c => hb.not_digit) h4) l, numTail]
    dsimp only
    rw [hd, h5]
    rfl
  | true =>
    cases hx : (consume isAsciiDigit cs l).chars with
    | nil => rw [hx] at hh; cases hh
    | cons c r =>
      have hc : c = '.' := by rw [hx] at hh; simpa [headP] using hh
      subst hc
      obtain ⟨mid2, g1, _, g2⟩ := consume_stab hb (p := isAsciiDigit) (fun c => hb.not_digit) r (l + bytes mid + 1)
      have e : number i cs l = (⟨.number, i, (consume isAsciiDigit r (l + bytes mid + 1)).loc⟩,
          consume isAsciiDigit r (l + bytes mid + 1)) := by
        rw [number_eq, numTail, hh, hx, h5]; rfl
      refine stab_of (mid := mid ++ '.' :: mid2) (by
        dsimp only; rw [e, List.append_assoc, List.cons_append, ← g1, ← hx]; exact h1) fun b rest hr => ?_
      dsimp only at hr ⊢
      rw [e] at hr ⊢
      dsimp only at hr ⊢
      rw [number_eq, List.append_assoc, List.cons_append, consume_all h3 (by rintro _ _ ⟨⟩; rfl) l, numTail]
      dsimp only [headP]
      rw [List.drop_one, List.tail_cons, g2 b rest hr]
      rfl

theorem stab_oper {cc : CharClass} (hb : Blanks cc) {ok : Kind → List Char → Bool} (i l : Nat) (cs : List Char) :
    Stab cc ok (fun cs => ((oper cc i cs l).1, [], (oper cc i cs l).2)) cs :=
  stab_consume hb (fun _ hc => (hb.not_oper hc).1) .operatorIdentifier i l cs

theorem minus_eq (cc : CharClass) (i : Nat) (cs : List Char) (l : Nat) :
    minus cc i cs l = if headP isAsciiDigit cs then number i cs l else oper cc i cs l := by
  cases cs <;> rfl

theorem stab_minus {cc : CharClass} (hb : Blanks cc) {ok : Kind → List Char → Bool} (i l : Nat) (cs : List Char) :
    Stab cc ok (fun cs => ((minus cc i cs l).1, [], (minus cc i cs l).2)) cs := by
  simp only [minus_eq]
  cases hh : headP isAsciiDigit cs with
  | false =>
    obtain ⟨mid, h1, h2⟩ := stab_oper hb (ok := ok) i l cs
    dsimp only at h1 h2
    refine ⟨mid, by dsimp only; rw [hh]; exact h1, fun b rest hok hr => ?_⟩
    dsimp only at hok hr ⊢
    rw [hh] at hok hr ⊢
    have := hr.test hb (p := isAsciiDigit) (fun _ => hb.not_digit) mid
    simp only [Bool.false_eq_true, if_false] at this hok hr ⊢
    rw [← h1, hh] at this
    rw [this]
    exact h2 b rest hok hr
  | true =>
    obtain ⟨mid, h1, h2⟩ := stab_number hb (ok := ok) i l cs
    dsimp only at h1 h2
    refine ⟨mid, by dsimp only; rw [hh]; exact h1, fun b rest hok hr => ?_⟩
    dsimp only at hok hr ⊢
    rw [hh] at hok hr ⊢
    have := hr.test hb (p := isAsciiDigit) (fun _ => hb.not_digit) mid
    simp only [if_true] at this hok hr ⊢
    rw [← h1, hh] at this
    rw [this]
    exact h2 b rest hok hr

theorem rel_end {cc : CharClass} {rest : List Char} (h : Rel cc false [] rest) : rest = [] := by
  cases h with
  | nil => rfl
  | tail h => cases h

theorem stab_squote {cc : CharClass} (k : Kind) (i l : Nat) (pref : List Char) (ok : Kind → List Char → Bool)
    (hok : ∀ mid, '\'' ∉ mid → ok k (pref ++ mid) = false) (cs : List Char) :
    Stab cc (fun k mid => ok k (pref ++ mid)) (fun cs => (⟨k, i, (squoteEnd cs l).loc⟩, [], squoteEnd cs l)) cs := by
  obtain ⟨mid, h1, h2, h3⟩ := squote_stab cs l
  refine ⟨mid, h1, fun b rest ho hr => ?_⟩
  dsimp only at ho hr ⊢
  rcases h2 with h2 | ⟨h4, h5⟩
  · rw [h2]
  · rw [h4] at hr
    cases b with
    | true => rw [hok mid h5] at ho; exact absurd (ho rfl) (by simp)
    | false =>
      rw [rel_end hr, h3]

theorem stab_colon {cc : CharClass} (hb : Blanks cc) (i l : Nat) (cs : List Char) :
    Stab cc (fun k mid => closed k (':' :: mid)) (fun cs => ((colon cc i cs l).1, [], (colon cc i cs l).2)) cs := by
  cases cs with
  | nil =>
    refine stab_of (mid := []) rfl fun b rest hr => ?_
    cases hr with
    | nil => rfl
    | tail _ =>
      dsimp only
      unfold colon
      simp [hb.not_start hb.newline]
  | cons c cs =>
    by_cases hs : isNormalStart cc c = true
    · have e : ∀ cs, colon cc i (c :: cs) l = (⟨.symbol, i, (consume (isNormalContinuation cc) cs (l + c.utf8Size)).loc⟩,
          consume (isNormalContinuation cc) cs (l + c.utf8Size)) := by
        intro cs; rw [colon, if_pos hs]
      obtain ⟨mid, h1, _, h2⟩ := consume_stab hb (p := isNormalContinuation cc) (fun _ => hb.not_cont) cs (l + c.utf8Size)
      refine stab_of (mid := c :: mid) (by dsimp only; rw [e, List.cons_append, ← h1]) fun b rest hr => ?_
      dsimp only at hr ⊢
      rw [e] at hr ⊢
      rw [List.cons_append, e, h2 b rest hr]
    · by_cases hq : c = '\''
      · subst hq
        have e : ∀ cs, colon cc i ('\'' :: cs) l = (⟨.symbol, i, (squoteEnd cs (l + 1)).loc⟩, squoteEnd cs (l + 1)) := by
          intro cs; rw [colon, if_neg hs, if_pos rfl]
        obtain ⟨mid, h1, h2⟩ := stab_squote (cc := cc) .symbol i (l + 1) [':', '\''] closed
          (fun mid hm => by simp [closed, List.count_eq_zero_of_not_mem hm]) cs
        refine ⟨'\'' :: mid, by dsimp only at h1 ⊢; rw [e, List.cons_append, ← h1], fun b rest ho hr => ?_⟩
        dsimp only at ho hr h2 ⊢
        rw [e] at ho hr ⊢
        rw [List.cons_append, e]
        exact h2 b rest ho hr
      · have e : ∀ c cs, isNormalStart cc c = false → c ≠ '\'' → colon cc i (c :: cs) l = (⟨.colon, i, i + 1⟩, ⟨c :: cs, l⟩) := by
          intro c cs h1 h2; rw [colon, if_neg (by simp [h1]), if_neg h2]
        have e1 := e c cs (by simpa using hs) hq
        refine stab_of (mid := []) (by dsimp only; rw [e1]; rfl) fun b rest hr => ?_
        dsimp only at hr ⊢
        rw [e1] at hr ⊢
        cases hr with
        | same _ _ y => rw [List.nil_append, e c y (by simpa using hs) hq]
        | blank _ h2 _ => rw [List.nil_append, e _ _ (hb.not_start h2) (hb.ne h2 (by decide) (by decide))]

theorem stab_dquote {cc : CharClass} (pre : Prefix) (p i l : Nat) (pref : List Char)
    (hok : ∀ mid, noQuote (pre = .c) mid → closed (simpleKind pre) (pref ++ mid) = false) (cs : List Char) :
    Stab cc (fun k mid => closed k (pref ++ mid)) (fun cs => dquote cc pre p i cs l) cs := by
  obtain ⟨mid, h1, h2⟩ := dqLoop_stab (pre = .c) cs l
  rcases h2 with ⟨g1, g2⟩ | ⟨g1, g2, g3⟩
  · have hcur : ∀ cs, (dquote cc pre p i cs l).2.2 = (dqLoop (pre = .c) cs l).2.1 := by
      intro cs
      unfold dquote
      generalize dqLoop (pre = .c) cs l = r
      obtain ⟨content, cur, closed⟩ := r
      dsimp only
      split
      · rfl
      · split
        · rfl
        · split
          · split <;> rfl
          · split <;> rfl
    refine ⟨mid, by dsimp only; rw [hcur]; exact h1, fun b rest _ hr => ?_⟩
    dsimp only at hr ⊢
    have this := g2 rest
    have h0 : dqLoop (pre = .c) cs l = ((dqLoop (pre = .c) cs l).1, (dqLoop (pre = .c) cs l).2.1, true) := by
      rw [← g1]
    generalize (dqLoop (pre = .c) cs l).1 = content at this h0
    generalize (dqLoop (pre = .c) cs l).2.1 = cur at this h0
    unfold dquote
    rw [h0, this]
    dsimp only
    simp only [Bool.not_true, Bool.false_eq_true, if_false]
    split
    · rfl
    · generalize (if pre = .c then hasUnescapedBraces content else content.contains '{' || content.contains '}') = has
      cases has <;> rfl
  · have e : dquote cc pre p i cs l = (⟨simpleKind pre, p, (dqLoop (pre = .c) cs l).2.1.loc⟩, [], (dqLoop (pre = .c) cs l).2.1) := by
      unfold dquote
      generalize dqLoop (pre = .c) cs l = r at *
      obtain ⟨content, cur, cl⟩ := r
      dsimp only at *
      subst g1
      rfl
    rw [g2, List.append_nil] at h1
    subst h1
    refine ⟨cs, by dsimp only; rw [e]; dsimp only; rw [g2]; simp, fun b rest ho hr => ?_⟩
    dsimp only at ho hr ⊢
    rw [e] at ho hr
    dsimp only at ho hr
    rw [g2] at hr
    cases b with
    | true => rw [hok cs g3] at ho; exact absurd (ho rfl) (by simp)
    | false =>
      rw [rel_end hr, List.append_nil, e]
      dsimp only
      rw [← g2]

/-- The string prefix a letter stands for, if a quote follows. -/
def prefixOf (c : Char) : Option Prefix :=
  if c = 'c' then some .c else if c = 'r' then some .raw else if c = 't' then some .t else if c = 's' then some .s else none

/-- The end of `normal`. -/
def normTail (cc : CharClass) (i : Nat) (first : Char) (e : Cur) : Tok × List Tok × Cur :=
  if e.loc - i = 1 ∧ headP (· = '"') e.chars = true then
    match prefixOf first with
    | some pre => dquote cc pre i e.loc (e.chars.drop 1) (e.loc + 1)
    | none => (⟨.unquotedIdentifier, i, e.loc⟩, [], e)
  else (⟨.unquotedIdentifier, i, e.loc⟩, [], e)

theorem normal_eq (cc : CharClass) (i : Nat) (first : Char) (cs : List Char) (l : Nat) :
    normal cc i first cs l = normTail cc i first (consume (isNormalContinuation cc) cs l) := by
  unfold normal normTail
  dsimp only
  generalize consume (isNormalContinuation cc) cs l = e
  obtain ⟨ch, lo⟩ := e
  dsimp only
  by_cases h : lo - i = 1
  · rw [if_pos h]
    cases ch with
    | nil => simp [headP]
    | cons c r =>
      by_cases hc : c = '"'
      · subst hc
        simp only [headP, h, decide_true, and_self, if_true, Nat.add_sub_cancel, List.drop_one, List.tail_cons]
        unfold prefixOf
        split
        · rfl
        · split
          · rfl
          · split
            · rfl
            · split <;> rfl
      · simp only [headP, hc, decide_false, Bool.false_eq_true, and_false, if_false]
        split
        · rename_i h2; cases h2; exact absurd rfl hc
        · rfl
  · rw [if_neg h, if_neg (fun hh => h hh.1)]

theorem stab_normal {cc : CharClass} (hb : Blanks cc) (i : Nat) (first : Char) (cs : List Char) :
    Stab cc (fun k mid => closed k (first :: mid)) (fun cs => normal cc i first cs (i + first.utf8Size)) cs := by
  have hquote : ∀ c, cc.whitespace c = true → decide (c = '"') = false := fun c hc =>
    decide_eq_false (hb.ne hc (by decide) (by decide))
  have hpos := utf8Size_pos first
  obtain ⟨mid, ⟨h1, h5⟩, h3, h4⟩ := consume_took (isNormalContinuation cc) cs (i + first.utf8Size)
  by_cases hq : (consume (isNormalContinuation cc) cs (i + first.utf8Size)).loc - i = 1 ∧
      headP (· = '"') (consume (isNormalContinuation cc) cs (i + first.utf8Size)).chars = true ∧ prefixOf first ≠ none
  · obtain ⟨q1, q2, q3⟩ := hq
    have hm : mid = [] := by
      cases mid with
      | nil => rfl
      | cons c mid => have := utf8Size_pos c; rw [h5] at q1; simp only [bytes] at q1; omega
    subst hm
    cases hp : prefixOf first with
    | none => exact absurd hp q3
    | some pre =>
      cases hx : (consume (isNormalContinuation cc) cs (i + first.utf8Size)).chars with
      | nil => rw [hx] at q2; cases q2
      | cons c r =>
        have hc : c = '"' := by rw [hx] at q2; simpa [headP] using q2
        subst hc
        rw [hx, List.nil_append] at h1
        rw [hx] at h4
        have e : ∀ r, normal cc i first ('"' :: r) (i + first.utf8Size) =
            dquote cc pre i (i + first.utf8Size) r (i + first.utf8Size + 1) := by
          intro r
          have := consume_all (p := isNormalContinuation cc) (mid := []) (rest := '"' :: r) (by simp)
            (by rintro _ _ ⟨⟩; exact h4 _ _ rfl) (i + first.utf8Size)
          rw [List.nil_append] at this
          rw [h5] at q1
          rw [normal_eq, this, normTail, if_pos ⟨q1, rfl⟩, hp]
          rfl
        have hfirst : first ≠ '"' := by rintro rfl; simp [prefixOf] at hp
        obtain ⟨mid, g1, g2⟩ := stab_dquote (cc := cc) pre i (i + first.utf8Size) (i + first.utf8Size + 1) [first, '"']
          (by
            intro mid hm
            unfold prefixOf at hp
            have hcount : '"' ∉ mid → ([first, '"'] ++ mid).count '"' = 1 := by
              intro hm
              simp [List.count_eq_zero_of_not_mem hm, hfirst]
            unfold noQuote at hm
            cases pre with
            | plain => revert hp; split <;> (try split) <;> (try split) <;> (try split) <;> simp
            | c => simpa [closed, simpleKind] using hm
            | raw => have := hcount (by simpa using hm); simp only [closed, simpleKind, this]; rfl
            | t => have := hcount (by simpa using hm); simp only [closed, simpleKind, this]; rfl
            | s => have := hcount (by simpa using hm); simp only [closed, simpleKind, this]; rfl) r
        subst h1
        refine ⟨'"' :: mid, by dsimp only at g1 ⊢; rw [e, List.cons_append, ← g1], fun b rest ho hr => ?_⟩
        dsimp only at ho hr g2 ⊢
        rw [e] at ho hr ⊢
        rw [List.cons_append, e]
        exact g2 b rest ho hr
  · have en : ∀ e : Cur, ¬ (e.loc - i = 1 ∧ headP (· = '"') e.chars = true ∧ prefixOf first ≠ none) →
        normTail cc i first e = (⟨.unquotedIdentifier, i, e.loc⟩, [], e) := by
      intro e he
      unfold normTail
      split
      · rename_i h
        cases hp : prefixOf first with
        | none => rfl
        | some p => exact absurd ⟨h.1, h.2, by simp [hp]⟩ he
      · rfl
    have e := en _ hq
    have e' := (normal_eq cc i first cs (i + first.utf8Size)).trans e
    refine stab_of (mid := mid) (by rw [e']; exact h1) fun b rest hr => ?_
    rw [e'] at hr ⊢
    dsimp only at hr ⊢
    have ht := hr.test hb hquote []
    rw [List.nil_append, List.nil_append] at ht
    rw [normal_eq, consume_all h3 (hr.head hb (fun c => hb.not_cont) h4), ← h5, en]
    rintro ⟨a1, a2, a3⟩
    dsimp only at a1 a2
    exact hq ⟨a1, by rw [← ht]; exact a2, a3⟩

/-- Every token but white space. -/
theorem stab_dispatch {cc : CharClass} (hb : Blanks cc) (last : Option Kind) (ws : Bool) (i : Nat) (c : Char)
    (hc : cc.whitespace c = false) (cs : List Char) :
    Stab cc (fun k mid => closed k (c :: mid)) (fun cs => dispatch cc last ws i c cs (i + c.utf8Size)) cs := by
  unfold dispatch
  dsimp only
  by_cases h1 : c = '{'
  · simp only [h1, if_true]; exact stab_one _ _ _
  simp only [h1, if_false]
  by_cases h2 : c = '}'
  · simp only [h2, if_true]; exact stab_one _ _ _
  simp only [h2, if_false]
  by_cases h3 : c = '['
  · simp only [h3, if_true]; exact stab_one _ _ _
  simp only [h3, if_false]
  by_cases h4 : c = ']'
  · simp only [h4, if_true]; exact stab_one _ _ _
  simp only [h4, if_false]
  by_cases h5 : c = '('
  · simp only [h5, if_true]; exact stab_one _ _ _
  simp only [h5, if_false]
  by_cases h6 : c = ')'
  · simp only [h6, if_true]; exact stab_one _ _ _
  simp only [h6, if_false]
  by_cases h7 : c = ','
  · simp only [h7, if_true]; exact stab_one _ _ _
  simp only [h7, if_false]
  by_cases h8 : c = '`'
  · simp only [h8, if_true]; exact stab_one _ _ _
  simp only [h8, if_false]
  by_cases h9 : c = ':'
  · subst h9; simp only [if_true]; exact stab_colon hb _ _ _
  simp only [h9, if_false]
  by_cases h10 : c = '#'
  · simp only [h10, if_true]; exact stab_comment _ _ _
  simp only [h10, if_false]
  by_cases h11 : c = '\''
  · subst h11
    simp only [if_true]
    exact stab_squote .singleQuoteIdentifier i _ ['\''] closed
      (fun mid hm => by simp [closed, List.count_eq_zero_of_not_mem hm]) cs
  simp only [h11, if_false]
  by_cases h12 : c = '"'
  · subst h12
    simp only [if_true]
    refine stab_dquote .plain i i _ ['"'] ?_ cs
    intro mid hm
    have hm' : '"' ∉ mid := by simpa [noQuote] using hm
    simp [closed, simpleKind, List.count_eq_zero_of_not_mem hm']
  simp only [h12, if_false]
  by_cases h13 : c = '-'
  · simp only [h13, if_true]; exact stab_minus hb _ _ _
  simp only [h13, if_false]
  by_cases h14 : isAsciiDigit c = true
  · simp only [h14, if_true]; exact stab_number hb _ _ _
  simp only [h14, if_false]
  by_cases h15 : isNormalStart cc c = true
  · simp only [h15, if_true]; exact stab_normal hb _ _ _
  simp only [h15, if_false]
  by_cases h16 : isOperStart cc c = true
  · simp only [h16, if_true]; exact stab_oper hb _ _ _
  simp only [h16, if_false, hc]
  simp only [Bool.false_eq_true, if_false]
  split
  · split <;> exact stab_one _ _ _
  · split
    · split <;> exact stab_one _ _ _
    · exact stab_one _ _ _

end Verif.Fmt
