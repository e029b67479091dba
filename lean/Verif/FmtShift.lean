import Verif.FmtRelex

/-!
# Proofs only.  Reading a text at another position
-/

namespace Verif.Fmt

open Verif.Lex

/-- A token further on. -/
def up (d : Nat) (t : Tok) : Tok := ⟨t.kind, t.start + d, t.stop + d⟩
/-- What is left, further on. -/
def upC (d : Nat) (c : Cur) : Cur := ⟨c.chars, c.loc + d⟩
/-- The result of a call of the lexer, further on. -/
def upR (d : Nat) (r : Tok × List Tok × Cur) : Tok × List Tok × Cur := (up d r.1, r.2.1.map (up d), upC d r.2.2)
/-- The same without a buffer. -/
def upP (d : Nat) (r : Tok × Cur) : Tok × Cur := (up d r.1, upC d r.2)

theorem consume_up (p : Char → Bool) (d : Nat) (cs : List Char) (l : Nat) :
    consume p cs (l + d) = upC d (consume p cs l) := by
  induction cs generalizing l with
  | nil => rfl
  | cons c cs ih =>
    unfold consume
    split
    · rw [show l + d + c.utf8Size = l + c.utf8Size + d by omega, ih]
    · rfl

theorem squote_up (d : Nat) (cs : List Char) (l : Nat) : squoteEnd cs (l + d) = upC d (squoteEnd cs l) := by
  unfold squoteEnd
  dsimp only
  rw [consume_up]
  generalize consume _ cs l = e
  obtain ⟨ch, lo⟩ := e
  cases ch with
  | nil => rfl
  | cons c r => simp [upC]; omega

theorem dqLoop_up (isC : Bool) (d : Nat) (cs : List Char) (l : Nat) : dqLoop isC cs (l + d) =
    ((dqLoop isC cs l).1, upC d (dqLoop isC cs l).2.1, (dqLoop isC cs l).2.2) := by
  induction cs, l using dqLoop.induct with
  | isC => exact isC
  | case1 l => rfl
  | case2 l cs => simp [dqLoop, upC]; omega
  | case3 l => simp [dqLoop, upC]; omega
  | case4 c cs l h ih =>
    have e : ∀ l, dqLoop isC ('\\' :: c :: cs) l = ('\\' :: c :: (dqLoop isC cs (l + 1 + c.utf8Size)).1,
        (dqLoop isC cs (l + 1 + c.utf8Size)).2) := by
      intro l; rw [dqLoop]; simp [h]
    rw [e, e, show l + d + 1 + c.utf8Size = l + 1 + c.utf8Size + d by omega, ih]
  | case5 c cs l h ih =>
    have e : ∀ l, dqLoop isC ('\\' :: c :: cs) l = ('\\' :: (dqLoop isC (c :: cs) (l + 1)).1,
        (dqLoop isC (c :: cs) (l + 1)).2) := by
      intro l; rw [dqLoop]; simp [h]
    rw [e, e, show l + d + 1 = l + 1 + d by omega, ih]
  | case6 c cs l h0 h1 h2 ih =>
    have hq : c ≠ '"' := by rintro rfl; exact h0 rfl
    have hbs : c ≠ '\\' := by
      rintro rfl
      cases cs with
      | nil => exact h1 rfl rfl
      | cons d ds => exact h2 d ds rfl rfl
    rw [dqLoop_cons isC hq hbs, dqLoop_cons isC hq hbs, show l + d + c.utf8Size = l + c.utf8Size + d by omega, ih]

theorem dqLoop_le (isC : Bool) (cs : List Char) (l : Nat) : l ≤ (dqLoop isC cs l).2.1.loc := by
  obtain ⟨h1, h2⟩ := dqLoop_spec isC cs l
  cases h : (dqLoop isC cs l).2.2 with
  | true => rw [(h1 h).2]; omega
  | false => rw [(h2 h).2]; dsimp only; omega

theorem interp_up (cc : CharClass) (fmt : Bool) (ch : Char) (st : Nat) (cs : List Char) (pos off d : Nat) :
    interpNext cc fmt ch st cs pos (off + d) =
      (up d (interpNext cc fmt ch st cs pos off).1, (interpNext cc fmt ch st cs pos off).2) := by
  unfold interpNext
  dsimp only
  split
  · simp [up, Nat.add_assoc]
  · split
    · simp [up, Nat.add_assoc]
    · split <;> simp [up, Nat.add_assoc]

/-- A step of a string pattern lexer further on. -/
def upN (d : Nat) (r : Option (Tok × SSt)) : Option (Tok × SSt) := r.map fun p => (up d p.1, p.2)

theorem strNext_up (cc : CharClass) (off d : Nat) (s : SSt) : strNext cc (off + d) s = upN d (strNext cc off s) := by
  unfold strNext
  dsimp only
  generalize skipWs cc s = c
  obtain ⟨ch, lo⟩ := c
  cases ch with
  | nil => rfl
  | cons ch cs =>
    dsimp only
    by_cases h1 : ch = '{'
    · rw [if_pos h1, if_pos h1]
      split <;> simp [upN, up, Nat.add_assoc]
    · rw [if_neg h1, if_neg h1]
      by_cases h2 : ch = '}'
      · rw [if_pos h2, if_pos h2]
        split
        · simp [upN, up, Nat.add_assoc]
        · split <;> simp [upN, up, Nat.add_assoc]
      · rw [if_neg h2, if_neg h2]
        split
        · rw [interp_up]; rfl
        · simp [upN, up, Nat.add_assoc]

theorem cstrNext_up (cc : CharClass) (off d : Nat) (s : SSt) : cstrNext cc (off + d) s = upN d (cstrNext cc off s) := by
  unfold cstrNext
  dsimp only
  generalize skipWs cc s = c
  obtain ⟨ch, lo⟩ := c
  cases ch with
  | nil => rfl
  | cons ch cs =>
    dsimp only
    split
    · simp [upN, up, Nat.add_assoc]
    · split
      · simp [upN, up, Nat.add_assoc]
      · split
        · rw [interp_up]; rfl
        · simp [upN, up, Nat.add_assoc]

theorem runStr_up (d : Nat) {f g : SSt → Option (Tok × SSt)} (h : ∀ s, g s = upN d (f s)) (fuel : Nat) (s : SSt) :
    runStr g fuel s = (runStr f fuel s).map (up d) := by
  induction fuel generalizing s with
  | zero => rfl
  | succ n ih =>
    unfold runStr
    rw [h]
    cases f s with
    | none => rfl
    | some p => obtain ⟨t, s'⟩ := p; simp [upN, ih]

theorem pattern_up (cc : CharClass) (c : Bool) (content : List Char) (off d : Nat) :
    patternToks cc c content (off + d) = (patternToks cc c content off).map (up d) := by
  unfold patternToks
  cases c with
  | true => exact runStr_up d (fun s => cstrNext_up cc off d s) _ _
  | false => exact runStr_up d (fun s => strNext_up cc off d s) _ _

theorem dquote_up (cc : CharClass) (pre : Prefix) (p i d : Nat) (cs : List Char) {l : Nat} (hl : 1 ≤ l) :
    dquote cc pre (p + d) (i + d) cs (l + d) = upR d (dquote cc pre p i cs l) := by
  unfold dquote
  rw [dqLoop_up]
  have hle := dqLoop_le (pre = .c) cs l
  generalize dqLoop (pre = .c) cs l = r at hle ⊢
  obtain ⟨content, ⟨ch, lo⟩, cl⟩ := r
  dsimp only at hle ⊢
  generalize (if pre = .c then hasUnescapedBraces content else content.contains '{' || content.contains '}') = has
  cases cl with
  | false => rfl
  | true =>
    simp only [Bool.not_true, Bool.false_eq_true, if_false]
    split
    · rfl
    · cases has with
      | false => rfl
      | true =>
        simp only [if_true]
        rw [show i + d + 1 = i + 1 + d by omega, pattern_up]
        simp only [upR, up, upC, List.map_append, List.map_cons, List.map_nil]
        rw [show lo + d - 1 = lo - 1 + d by omega]

theorem normTail_up (cc : CharClass) (i d : Nat) (c : Char) (e : Cur) :
    normTail cc (i + d) c (upC d e) = upR d (normTail cc i c e) := by
  obtain ⟨ch, lo⟩ := e
  unfold normTail
  by_cases h : lo - i = 1 ∧ headP (· = '"') ch = true
  · rw [if_pos (c := (lo - i = 1 ∧ headP (· = '"') ch = true)) h,
      if_pos (show (upC d ⟨ch, lo⟩).loc - (i + d) = 1 ∧ headP (· = '"') (upC d ⟨ch, lo⟩).chars = true from
        ⟨by have := h.1; show lo + d - (i + d) = 1; omega, h.2⟩)]
    cases prefixOf c with
    | none => rfl
    | some pre =>
      show dquote cc pre (i + d) (lo + d) (ch.drop 1) (lo + d + 1) = upR d (dquote cc pre i lo (ch.drop 1) (lo + 1))
      rw [show lo + d + 1 = lo + 1 + d by omega, dquote_up _ _ _ _ _ _ (by omega)]
  · rw [if_neg (c := (lo - i = 1 ∧ headP (· = '"') ch = true)) h,
      if_neg (show ¬ ((upC d ⟨ch, lo⟩).loc - (i + d) = 1 ∧ headP (· = '"') (upC d ⟨ch, lo⟩).chars = true) from
        fun hh => h ⟨by have : lo + d - (i + d) = 1 := hh.1; omega, hh.2⟩)]
    rfl

theorem numTail_up (i d : Nat) (e : Cur) : numTail (i + d) (upC d e) = upP d (numTail i e) := by
  obtain ⟨ch, lo⟩ := e
  unfold numTail
  by_cases h : headP (· = '.') ch = true
  · rw [if_pos (c := (headP (· = '.') ch = true)) h, if_pos (show headP (· = '.') (upC d ⟨ch, lo⟩).chars = true from h)]
    show ((⟨.number, i + d, (consume isAsciiDigit (ch.drop 1) (lo + d + 1)).loc⟩ : Tok),
      consume isAsciiDigit (ch.drop 1) (lo + d + 1)) = _
    rw [show lo + d + 1 = lo + 1 + d by omega, consume_up]
    rfl
  · rw [if_neg (c := (headP (· = '.') ch = true)) h, if_neg (show ¬ headP (· = '.') (upC d ⟨ch, lo⟩).chars = true from h)]
    rfl

theorem colon_up (cc : CharClass) (i d : Nat) (cs : List Char) (l : Nat) :
    colon cc (i + d) cs (l + d) = upP d (colon cc i cs l) := by
  cases cs with
  | nil => simp [colon, upP, up, upC]; omega
  | cons c cs =>
    unfold colon
    dsimp only
    split
    · rw [show l + d + c.utf8Size = l + c.utf8Size + d by omega, consume_up]; rfl
    · split
      · rw [show l + d + 1 = l + 1 + d by omega, squote_up]; rfl
      · simp [upP, up, upC]; omega

theorem dispatch_up (cc : CharClass) (last : Option Kind) (ws : Bool) (i d : Nat) (c : Char) (cs : List Char) {l : Nat}
    (hl : 1 ≤ l) : dispatch cc last ws (i + d) c cs (l + d) = upR d (dispatch cc last ws i c cs l) := by
  have one : ∀ k, ((⟨k, i + d, i + d + 1⟩ : Tok), ([] : List Tok), (⟨cs, l + d⟩ : Cur)) =
      upR d (⟨k, i, i + 1⟩, [], ⟨cs, l⟩) := by
    intro k; simp [upR, up, upC]; omega
  have wide : ∀ k, ((⟨k, i + d, i + d + c.utf8Size⟩ : Tok), ([] : List Tok), (⟨cs, l + d⟩ : Cur)) =
      upR d (⟨k, i, i + c.utf8Size⟩, [], ⟨cs, l⟩) := by
    intro k; simp [upR, up, upC]; omega
  have ite : ∀ {P : Prop} [Decidable P] {a b a' b' : Tok × List Tok × Cur}, (a = upR d a') → (b = upR d b') →
      (if P then a else b) = upR d (if P then a' else b') := by
    intro P _ a b a' b' h1 h2
    split <;> assumption
  have two : ∀ {a b : Tok × Cur}, a = upP d b → (a.1, ([] : List Tok), a.2) = upR d (b.1, [], b.2) := by
    intro a b h; rw [h]; rfl
  have hnum : number (i + d) cs (l + d) = upP d (number i cs l) := by
    rw [number_eq, number_eq, consume_up, numTail_up]
  have hop : oper cc (i + d) cs (l + d) = upP d (oper cc i cs l) := by
    unfold oper; dsimp only; rw [consume_up]; rfl
  unfold dispatch
  dsimp only
  refine ite (one _) (ite (one _) (ite (one _) (ite (one _) (ite (one _) (ite (one _) (ite (one _) (ite (one _)
    (ite (two (colon_up _ _ _ _ _)) (ite ?_ (ite ?_ (ite (dquote_up _ _ _ _ _ _ hl) (ite (two ?_) (ite (two hnum)
    (ite ?_ (ite (two hop) (ite ?_ (ite (ite (wide _) (wide _)) (ite (ite (wide _) (wide _)) (wide _)))))))))))))))))))
  · rw [consume_up]; rfl
  · rw [squote_up]; rfl
  · rw [minus_eq, minus_eq]; split <;> assumption
  · rw [normal_eq, normal_eq, consume_up, normTail_up]
  · rw [consume_up]; rfl

/-! ## Texts further on -/

theorem dropBytes_up (pre cs : List Char) (n : Nat) : dropBytes (pre ++ cs) (n + bytes pre) = dropBytes cs n := by
  induction pre generalizing n with
  | nil => rfl
  | cons c pre ih =>
    have hp := utf8Size_pos c
    simp only [bytes, List.cons_append]
    obtain ⟨m, hm⟩ : ∃ m, n + (c.utf8Size + bytes pre) = m + 1 := ⟨n + (c.utf8Size + bytes pre) - 1, by omega⟩
    rw [hm, dropBytes, if_pos (by omega), show m + 1 - c.utf8Size = n + bytes pre by omega, ih]

theorem text_up (pre cs : List Char) (t : Tok) : text (pre ++ cs) (up (bytes pre) t) = text cs t := by
  unfold text up
  dsimp only
  by_cases h : t.start ≤ t.stop
  · rw [if_pos h, if_pos (by omega), dropBytes_up, show t.stop + bytes pre - (t.start + bytes pre) = t.stop - t.start by omega]
  · rw [if_neg h, if_neg (by omega)]

theorem dropBytes_more {a x : List Char} {n : Nat} (b : List Char) (h : dropBytes a n = some x) :
    dropBytes (a ++ b) n = some (x ++ b) := by
  induction a generalizing n with
  | nil =>
    cases n with
    | zero => simp only [dropBytes, Option.some.injEq] at h; subst h; cases b <;> rfl
    | succ n => cases h
  | cons c a ih =>
    cases n with
    | zero => simp only [dropBytes, Option.some.injEq] at h; subst h; rfl
    | succ n =>
      simp only [List.cons_append, dropBytes] at h ⊢
      split at h
      · rename_i hc; rw [if_pos hc]; exact ih h
      · cases h

theorem takeBytes_more {a x : List Char} {n : Nat} (b : List Char) (h : takeBytes a n = some x) :
    takeBytes (a ++ b) n = some x := by
  induction a generalizing n x with
  | nil =>
    cases n with
    | zero => simp only [takeBytes, Option.some.injEq] at h; subst h; cases b <;> rfl
    | succ n => cases h
  | cons c a ih =>
    cases n with
    | zero => simp only [takeBytes, Option.some.injEq] at h; subst h; rfl
    | succ n =>
      simp only [List.cons_append, takeBytes] at h ⊢
      split at h
      · rename_i hc
        rw [if_pos hc]
        rw [Option.map_eq_some_iff] at h ⊢
        obtain ⟨y, h1, h2⟩ := h
        exact ⟨y, ih h1, h2⟩
      · cases h

theorem text_more {a x : List Char} {t : Tok} (b : List Char) (h : text a t = some x) : text (a ++ b) t = some x := by
  unfold text at h ⊢
  split at h
  · rename_i hle
    rw [if_pos hle]
    rw [Option.bind_eq_some_iff] at h ⊢
    obtain ⟨y, h1, h2⟩ := h
    exact ⟨y ++ b, dropBytes_more b h1, takeBytes_more b h2⟩
  · cases h

end Verif.Fmt
