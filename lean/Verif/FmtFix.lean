import Verif.FmtLexes

/-!
# Proofs only.  The formatted text has the same tokens
-/

namespace Verif.Fmt

open Verif.Lex

/-! ## White space, formatted -/

theorem tabStop_gt (col : Nat) : 0 < tabStop col - col := by
  unfold tabStop tabWidth
  omega

theorem normalize_mem {cc : CharClass} (hb : Blanks cc) {t : List Char} (h : ∀ c ∈ t, cc.whitespace c = true) (col : Nat) :
    ∀ c ∈ normalize t col, cc.whitespace c = true := by
  induction t generalizing col with
  | nil => simp [normalize]
  | cons d t ih =>
    have ih' := fun col => ih (fun c hc => h c (by simp [hc])) col
    have hd := h d (by simp)
    intro c hc
    unfold normalize at hc
    by_cases h1 : d = '\n'
    · rw [if_pos h1] at hc
      rcases List.mem_cons.mp hc with rfl | hc
      · exact hb.newline
      · exact ih' _ c hc
    rw [if_neg h1] at hc
    by_cases h2 : d = '\t'
    · rw [if_pos h2] at hc
      rcases List.mem_append.mp hc with hc | hc
      · rw [List.eq_of_mem_replicate hc]; exact hb.space
      · exact ih' _ c hc
    rw [if_neg h2] at hc
    by_cases h3 : d = ' '
    · rw [if_pos h3] at hc
      rcases List.mem_cons.mp hc with rfl | hc
      · exact hb.space
      · exact ih' _ c hc
    rw [if_neg h3] at hc
    by_cases h4 : d = '\r'
    · rw [if_pos h4] at hc; exact ih' _ c hc
    rw [if_neg h4] at hc
    rcases List.mem_cons.mp hc with rfl | hc
    · exact hd
    · exact ih' _ c hc

theorem normalize_clean (t : List Char) (col : Nat) : ∀ c ∈ normalize t col, c ≠ '\t' ∧ c ≠ '\r' := by
  induction t generalizing col with
  | nil => simp [normalize]
  | cons d t ih =>
    intro c hc
    unfold normalize at hc
    by_cases h1 : d = '\n'
    · rw [if_pos h1] at hc
      rcases List.mem_cons.mp hc with rfl | hc
      · decide
      · exact ih _ c hc
    rw [if_neg h1] at hc
    by_cases h2 : d = '\t'
    · rw [if_pos h2] at hc
      rcases List.mem_append.mp hc with hc | hc
      · rw [List.eq_of_mem_replicate hc]; decide
      · exact ih _ c hc
    rw [if_neg h2] at hc
    by_cases h3 : d = ' '
    · rw [if_pos h3] at hc
      rcases List.mem_cons.mp hc with rfl | hc
      · decide
      · exact ih _ c hc
    rw [if_neg h3] at hc
    by_cases h4 : d = '\r'
    · rw [if_pos h4] at hc; exact ih _ c hc
    rw [if_neg h4] at hc
    rcases List.mem_cons.mp hc with rfl | hc
    · exact ⟨h2, h4⟩
    · exact ih _ c hc

theorem normalize_ne {t : List Char} (h : ∃ c ∈ t, c ≠ '\r') (col : Nat) : normalize t col ≠ [] := by
  induction t generalizing col with
  | nil => obtain ⟨c, hc, _⟩ := h; simp at hc
  | cons d t ih =>
    unfold normalize
    by_cases h1 : d = '\n'
    · rw [if_pos h1]; simp
    rw [if_neg h1]
    by_cases h2 : d = '\t'
    · rw [if_pos h2]
      intro he
      have := List.append_eq_nil_iff.mp he
      have h0 := tabStop_gt col
      have := congrArg List.length this.1
      simp at this
      omega
    rw [if_neg h2]
    by_cases h3 : d = ' '
    · rw [if_pos h3]; simp
    rw [if_neg h3]
    by_cases h4 : d = '\r'
    · rw [if_pos h4]
      refine ih ?_ col
      obtain ⟨c, hc, hne⟩ := h
      rcases List.mem_cons.mp hc with rfl | hc
      · exact absurd h4 hne
      · exact ⟨c, hc, hne⟩
    rw [if_neg h4]
    simp

theorem normalize_newline (t : List Char) (col : Nat) : normalize ('\n' :: t) col = '\n' :: normalize t 0 := by
  rw [normalize, if_pos rfl]

theorem normalize_id {t : List Char} (h : ∀ c ∈ t, c ≠ '\t' ∧ c ≠ '\r') (col : Nat) : normalize t col = t := by
  induction t generalizing col with
  | nil => rfl
  | cons d t ih =>
    have ih' := fun col => ih (fun c hc => h c (by simp [hc])) col
    have hd := h d (by simp)
    unfold normalize
    rw [if_neg hd.1, if_neg hd.2]
    split
    · rename_i h1; rw [ih', h1]
    · split
      · rename_i h1; rw [ih', h1]
      · rw [ih']

/-! ## Pieces, formatted -/

/-- The pieces with their white space formatted; `col` is the column they begin at. -/
def fixP : Nat → List (Kind × List Char) → List (Kind × List Char)
  | _, [] => []
  | col, p :: ps => (p.1, (token p.1 p.2 col).1) :: fixP (token p.1 p.2 col).2 ps

/-- The pieces with a newline added at their end. -/
def addTail : List (Kind × List Char) → List (Kind × List Char)
  | [] => [(.whitespace, ['\n'])]
  | [p] => if p.1 = .whitespace then [(.whitespace, p.2 ++ ['\n'])] else [p, (.whitespace, ['\n'])]
  | p :: q :: ps => p :: addTail (q :: ps)

theorem token_solid {k : Kind} (h : k ≠ .whitespace) (t : List Char) (col : Nat) : (token k t col).1 = t := by
  unfold token
  rw [if_neg h]
  split
  · rfl
  · split <;> rfl

theorem token_ws (t : List Char) (col : Nat) : (token .whitespace t col).1 = normalize t col := rfl

theorem fixP_solid {g : List (Kind × List Char)} (h : ∀ p ∈ g, p.1 ≠ .whitespace) (ps : List (Kind × List Char)) :
    ∀ col, ∃ col', fixP col (g ++ ps) = g ++ fixP col' ps := by
  induction g with
  | nil => intro col; exact ⟨col, rfl⟩
  | cons p g ih =>
    intro col
    obtain ⟨col', h2⟩ := ih (fun q hq => h q (by simp [hq])) (token p.1 p.2 col).2
    refine ⟨col', ?_⟩
    rw [List.cons_append, fixP, token_solid (h p (by simp)), h2]
    rfl

theorem addTail_solid {g : List (Kind × List Char)} (h : ∀ p ∈ g, p.1 ≠ .whitespace) (ps : List (Kind × List Char)) :
    addTail (g ++ ps) = g ++ addTail ps := by
  induction g with
  | nil => rfl
  | cons p g ih =>
    have ih' := ih (fun q hq => h q (by simp [hq]))
    rw [List.cons_append, List.cons_append, ← ih']
    cases hg : g ++ ps with
    | nil =>
      show addTail [p] = [p, (.whitespace, ['\n'])]
      unfold addTail
      rw [if_neg (h p (by simp))]
    | cons q r => rw [addTail]

theorem addTail_ws (p : Kind × List Char) {ps : List (Kind × List Char)} (h : ps ≠ []) : addTail (p :: ps) = p :: addTail ps := by
  cases ps with
  | nil => exact absurd rfl h
  | cons q r => rfl

theorem flat_append (a b : List (Kind × List Char)) : flat (a ++ b) = flat a ++ flat b := by
  simp [flat]

theorem flat_addTail (ps : List (Kind × List Char)) : flat (addTail ps) = flat ps ++ ['\n'] := by
  induction ps using addTail.induct with
  | case1 => rfl
  | case2 p h => rw [addTail, if_pos h]; simp [flat]
  | case3 p h => rw [addTail, if_neg h]; simp [flat]
  | case4 p q ps ih =>
    rw [addTail]
    have : ∀ x : Kind × List Char, ∀ l, flat (x :: l) = x.2 ++ flat l := fun x l => rfl
    rw [this, ih, this p, List.append_assoc]

/-! ## Calls of the lexer -/

theorem dispatch_ws {cc : CharClass} (hb : Blanks cc) (last : Option Kind) (ws : Bool) (i : Nat) {c : Char}
    (hc : cc.whitespace c = true) (cs : List Char) (l : Nat) : dispatch cc last ws i c cs l =
      (⟨.whitespace, i, (consume cc.whitespace cs l).loc⟩, [], consume cc.whitespace cs l) := by
  have hn : ∀ d, isAscii d = true → d ∉ ['\t', '\n', '\x0b', '\x0c', '\r', ' '] → c ≠ d := fun d h1 h2 => hb.ne hc h1 h2
  unfold dispatch
  dsimp only
  rw [if_neg (hn '{' (by decide) (by decide)), if_neg (hn '}' (by decide) (by decide)),
    if_neg (hn '[' (by decide) (by decide)), if_neg (hn ']' (by decide) (by decide)),
    if_neg (hn '(' (by decide) (by decide)), if_neg (hn ')' (by decide) (by decide)),
    if_neg (hn ',' (by decide) (by decide)), if_neg (hn '`' (by decide) (by decide)),
    if_neg (hn ':' (by decide) (by decide)), if_neg (hn '#' (by decide) (by decide)),
    if_neg (hn '\'' (by decide) (by decide)), if_neg (hn '"' (by decide) (by decide)),
    if_neg (hn '-' (by decide) (by decide)), if_neg (by simp [hb.not_digit hc]), if_neg (by simp [hb.not_start hc]),
    if_neg (by simp [(hb.not_oper hc).2]), if_pos hc]

/-- A call that does not begin with white space makes no white space. -/
theorem dispatch_kind {cc : CharClass} {last : Option Kind} {ws : Bool} {i : Nat} {c : Char}
    (hc : cc.whitespace c = false) {cs : List Char} {l : Nat} : (dispatch cc last ws i c cs l).1.kind ≠ .whitespace := by
  have ite : ∀ {P : Prop} [Decidable P] {a b : Tok × List Tok × Cur}, a.1.kind ≠ .whitespace → b.1.kind ≠ .whitespace →
      (if P then a else b).1.kind ≠ .whitespace := by
    intro P _ a b h1 h2
    split <;> assumption
  have hap : ∀ a b : Kind, a ≠ .whitespace → b ≠ .whitespace → applyKind last ws a b ≠ .whitespace := by
    intro a b ha hb
    unfold applyKind
    split
    · split <;> assumption
    · exact ha
  have hdq : ∀ pre p i cs l, (dquote cc pre p i cs l).1.kind ≠ .whitespace := by
    intro pre p i cs l
    unfold dquote
    generalize dqLoop (pre = .c) cs l = r
    obtain ⟨content, cur, cl⟩ := r
    dsimp only
    generalize (if pre = .c then hasUnescapedBraces content else content.contains '{' || content.contains '}') = has
    refine ite ?_ (ite ?_ (ite ?_ ?_)) <;> cases pre <;> simp [simpleKind, patternStartKind]
  have hnum : ∀ i cs l, (number i cs l).1.kind ≠ .whitespace := by
    intro i cs l
    rw [number_eq, numTail]
    split <;> simp
  have hop : ∀ i cs l, (oper cc i cs l).1.kind ≠ .whitespace := by
    intro i cs l; simp [oper]
  unfold dispatch
  dsimp only
  refine ite (hap _ _ (by simp) (by simp)) (ite (by simp) (ite (hap _ _ (by simp) (by simp)) (ite (by simp) (ite ?_
    (ite (by simp) (ite (by simp) (ite (by simp) (ite ?_ (ite (by simp) (ite (by simp) (ite (hdq _ _ _ _ _) (ite ?_
    (ite (hnum _ _ _) (ite ?_ (ite (hop _ _ _) ?_)))))))))))))))
  · rw [parenKind_eq]; exact hap _ _ (by simp) (by simp)
  · unfold colon
    split
    · simp
    · split
      · simp
      · split <;> simp
  · dsimp only
    rw [minus_eq]
    split
    · exact hnum _ _ _
    · exact hop _ _ _
  · rw [normal_eq, normTail]
    split
    · split
      · exact hdq _ _ _ _ _
      · simp
    · simp
  · rw [if_neg (by simp [hc])]
    refine ite (ite (by simp) (by simp)) (ite (ite (by simp) (by simp)) (by simp))

theorem inside_solid : ∀ (m : Mode) (ts : List Tok), Inside m ts → ∀ t ∈ ts, t.kind ≠ .whitespace := by
  intro m ts
  induction ts generalizing m with
  | nil => simp
  | cons t ts ih =>
    intro h u hu
    obtain ⟨h1, h2, h3⟩ := h
    rcases List.mem_cons.mp hu with rfl | hu
    · have := (allowed_inside h1 h2).2.1
      intro hk
      rw [hk] at this
      cases this
    · exact ih _ h3 u hu

/-- The pieces of a call that does not begin with white space. -/
theorem group_solid {cc : CharClass} (hs : cc.Sane) {last : Option Kind} {ws : Bool} {c : Char} {mid rest : List Char}
    {t : Tok} {buf : List Tok} {l : Nat} (hc : cc.whitespace c = false)
    (hd : dispatch cc last ws 0 c (mid ++ rest) c.utf8Size = (t, buf, ⟨rest, l⟩)) :
    (∀ p ∈ pieces (c :: mid) (t :: buf), p.1 ≠ .whitespace) ∧ (buf ≠ [] → ∀ x, closed t.kind x = true) := by
  have hk := dispatch_kind (last := last) (ws := ws) (i := 0) hc (cs := mid ++ rest) (l := c.utf8Size)
  have hf := (dispatch_fine hs (last := last) (ws := ws) (p := 0) (c := c) (l := c.utf8Size) (chars := mid ++ rest)).inside
  rw [hd] at hk hf
  dsimp only at hk hf
  refine ⟨?_, ?_⟩
  · intro p hp
    unfold pieces at hp
    obtain ⟨u, hu, rfl⟩ := List.mem_map.mp hp
    dsimp only
    rcases List.mem_cons.mp hu with rfl | hu
    · exact hk
    · exact inside_solid _ _ hf u hu
  · intro hne x
    cases buf with
    | nil => exact absurd rfl hne
    | cons b bs =>
      have h1 := hf.1
      revert h1
      cases t.kind <;> simp [step, closed]

/-- The pieces of white space. -/
theorem group_ws {cc : CharClass} (hb : Blanks cc) {last : Option Kind} {ws : Bool} {c : Char} {mid rest : List Char}
    {t : Tok} {buf : List Tok} {l : Nat} (hc : cc.whitespace c = true)
    (hd : dispatch cc last ws 0 c (mid ++ rest) c.utf8Size = (t, buf, ⟨rest, l⟩)) :
    pieces (c :: mid) (t :: buf) = [(.whitespace, c :: mid)] ∧ t.kind = .whitespace ∧ buf = [] ∧
      (∀ x ∈ mid, cc.whitespace x = true) ∧ (∀ x r, rest = x :: r → cc.whitespace x = false) := by
  have h := dispatch_ws hb last ws 0 hc (mid ++ rest) c.utf8Size
  rw [hd] at h
  obtain ⟨tk, ⟨h1, h2⟩, h3, h4⟩ := consume_took cc.whitespace (mid ++ rest) c.utf8Size
  simp only [Prod.mk.injEq] at h
  obtain ⟨rfl, rfl, hcur⟩ := h
  rw [← hcur] at h1 h2 h4
  dsimp only at h1 h2 h4
  have := List.append_cancel_right h1
  subst this
  refine ⟨?_, rfl, rfl, h3, h4⟩
  have e : (consume cc.whitespace (mid ++ rest) c.utf8Size).loc = bytes (c :: mid) := by
    rw [← hcur]; simp [h2, bytes]
  rw [e]
  have ht : text (c :: mid) ⟨.whitespace, 0, bytes (c :: mid)⟩ = some (c :: mid) := by
    have := text_mid [] (c :: mid) [] .whitespace
    simpa [bytes] using this
  simp [pieces, ht]

/-- White space read again. -/
theorem lexes_ws {cc : CharClass} (hb : Blanks cc) {last : Option Kind} {ws : Bool} {n rest : List Char}
    {ps : List (Kind × List Char)} (hne : n ≠ []) (hn : ∀ x ∈ n, cc.whitespace x = true)
    (hr : ∀ x r, rest = x :: r → cc.whitespace x = false) (h : Lexes cc last true rest ps) :
    Lexes cc last ws (n ++ rest) ((.whitespace, n) :: ps) := by
  cases n with
  | nil => exact absurd rfl hne
  | cons c mid =>
    have hc := hn c (by simp)
    have hcons := consume_all (p := cc.whitespace) (mid := mid) (rest := rest) (fun x hx => hn x (by simp [hx])) hr c.utf8Size
    have hd := dispatch_ws hb last ws 0 hc (mid ++ rest) c.utf8Size
    rw [hcons] at hd
    have := Lexes.step (ps := ps) hd (by simpa [afterAll, after] using h)
    rw [(group_ws hb hc hd).1] at this
    exact this

theorem lexes_flat {cc last ws cs ps} (h : Lexes cc last ws cs ps) : (flat ps).Sublist cs := by
  induction h with
  | nil => exact .slnil
  | @step last ws c mid rest t buf l ps hd _ ih =>
    rw [flat_append, ← List.cons_append]
    exact (dispatch_pieces hd).1.append ih

/-- If nothing is lost then nothing is lost by the first call. -/
theorem flat_split {a b x y : List Char} (h1 : a.Sublist x) (h2 : b.Sublist y) (h : a ++ b = x ++ y) : a = x ∧ b = y := by
  have l1 := h1.length_le
  have l2 := h2.length_le
  have l3 := congrArg List.length h
  simp only [List.length_append] at l3
  exact ⟨h1.eq_of_length (by omega), h2.eq_of_length (by omega)⟩

/-- The first character after formatting. -/
theorem fix_head {cc : CharClass} (hb : Blanks cc) (hs : cc.Sane) {last : Option Kind} {ws : Bool} {d : Char} {r : List Char}
    {ps : List (Kind × List Char)} (h : Lexes cc last ws (d :: r) ps) (hf : flat ps = d :: r) (hk : Kept ps) (col : Nat) :
    ∃ d' r', flat (fixP col ps) = d' :: r' ∧ (d' = d ∨ (cc.whitespace d = true ∧ cc.whitespace d' = true ∧ d ≠ '\n')) := by
  generalize hx : d :: r = x at h hf
  cases h with
  | nil => cases hx
  | @step _ _ c mid rest t buf l ps hd hr =>
    cases hx
    rw [flat_append, ← List.cons_append] at hf
    obtain ⟨f1, f2⟩ := flat_split (dispatch_pieces hd).1 (lexes_flat hr) hf
    cases hc : cc.whitespace d with
    | false =>
      obtain ⟨g1, _⟩ := group_solid hs hc hd
      obtain ⟨col', h2⟩ := fixP_solid g1 ps col
      rw [h2, flat_append, f1]
      exact ⟨d, mid ++ flat (fixP col' ps), rfl, .inl rfl⟩
    | true =>
      obtain ⟨g1, _, _, g2, _⟩ := group_ws hb hc hd
      rw [g1] at hk ⊢
      have hne := normalize_ne (hk (.whitespace, d :: mid) (by simp) rfl) col
      have hmem := normalize_mem hb (t := d :: mid) (by
        intro x hx
        rcases List.mem_cons.mp hx with rfl | hx
        · exact hc
        · exact g2 x hx) col
      rw [List.singleton_append, fixP]
      dsimp only
      rw [token_ws]
      have hfl : ∀ x : Kind × List Char, ∀ l, flat (x :: l) = x.2 ++ flat l := fun x l => rfl
      rw [hfl]
      dsimp only
      by_cases hnl : d = '\n'
      · subst hnl
        rw [normalize_newline]
        exact ⟨'\n', _, rfl, .inl rfl⟩
      · cases hnz : normalize (d :: mid) col with
        | nil => exact absurd hnz hne
        | cons d' r' =>
          exact ⟨d', _, rfl, .inr ⟨rfl, hmem d' (by rw [hnz]; simp), hnl⟩⟩

/-- The text formatted and, if `b`, with a newline after it, has the pieces formatted. -/
theorem relex {cc : CharClass} (hb : Blanks cc) (hs : cc.Sane) {last : Option Kind} {ws : Bool} {cs : List Char}
    {ps : List (Kind × List Char)} (h : Lexes cc last ws cs ps) (hf : flat ps = cs) (hk : Kept ps) (b : Bool)
    (hcl : b = true → ∀ p, ps.getLast? = some p → closed p.1 p.2 = true) (col : Nat) :
    Lexes cc last ws (flat (fixP col ps) ++ (if b then ['\n'] else [])) (if b then addTail (fixP col ps) else fixP col ps) := by
  induction h generalizing col with
  | @nil last ws =>
    cases b with
    | false => exact .nil
    | true =>
      have := lexes_ws hb (last := last) (ws := ws) (n := ['\n']) (rest := []) (ps := []) (by simp)
        (by simp [hb.newline]) (by simp) .nil
      exact this
  | @step last ws c mid rest t buf l ps hd hr ih =>
    rw [flat_append, ← List.cons_append] at hf
    obtain ⟨hgs, htx, _, _⟩ := dispatch_pieces hd
    obtain ⟨f1, f2⟩ := flat_split hgs (lexes_flat hr) hf
    have hk1 : Kept (pieces (c :: mid) (t :: buf)) := fun p hp => hk p (by simp [hp])
    have hk2 : Kept ps := fun p hp => hk p (by simp [hp])
    have hcl2 : b = true → ∀ p, ps.getLast? = some p → closed p.1 p.2 = true := by
      intro hbt p hp
      refine hcl hbt p ?_
      rw [List.getLast?_append, hp]
      rfl
    have hpe : rest = [] → ps = [] := by
      rintro rfl
      cases hr
      rfl
    cases hc : cc.whitespace c with
    | false =>
      obtain ⟨g1, g2⟩ := group_solid hs hc hd
      obtain ⟨col', h2⟩ := fixP_solid g1 ps col
      have ih' := ih f2 hk2 hcl2 col'
      have eps : (if b then addTail (fixP col (pieces (c :: mid) (t :: buf) ++ ps)) else fixP col (pieces (c :: mid) (t :: buf) ++ ps)) =
          pieces (c :: mid) (t :: buf) ++ (if b then addTail (fixP col' ps) else fixP col' ps) := by
        rw [h2]
        cases b with
        | false => rfl
        | true => exact addTail_solid g1 _
      rw [eps, h2, flat_append, f1, List.append_assoc]
      -- what follows
      have hst := stab_dispatch hb last ws 0 c hc (mid ++ rest)
      rw [Nat.zero_add] at hst
      obtain ⟨mid', m1, m2⟩ := hst
      dsimp only at m1 m2
      rw [hd] at m1 m2
      dsimp only at m1 m2
      have := List.append_cancel_right m1
      subst this
      have hrel : Rel cc (b && rest.isEmpty) rest (flat (fixP col' ps) ++ (if b then ['\n'] else [])) := by
        cases rest with
        | nil =>
          rw [hpe rfl]
          cases b with
          | false => exact .nil
          | true => exact .tail rfl
        | cons d r =>
          obtain ⟨d', r', hh, ho⟩ := fix_head hb hs hr f2 hk2 col'
          rw [hh]
          rcases ho with rfl | ⟨o1, o2, o3⟩
          · exact .same _ _ _
          · exact .blank o1 o2 o3
      have hok : (b && rest.isEmpty) = true → closed t.kind (c :: mid) = true := by
        intro hbe
        simp only [Bool.and_eq_true, List.isEmpty_iff] at hbe
        by_cases hbuf : buf = []
        · subst hbuf
          rw [hpe hbe.2, List.append_nil] at hcl
          obtain ⟨x, hx, _⟩ := htx t (by simp)
          have := hcl hbe.1 (t.kind, x) (by simp [pieces, hx])
          have hx2 : x = c :: mid := by simpa [pieces, flat, hx] using f1
          rw [← hx2]
          exact this
        · exact g2 hbuf _
      exact .step (m2 _ _ hok hrel) ih'
    | true =>
      obtain ⟨g1, g2, g3, g4, g5⟩ := group_ws hb hc hd
      subst g3
      rw [g1] at hk1 ⊢
      have hall : ∀ x ∈ c :: mid, cc.whitespace x = true := by
        intro x hx
        rcases List.mem_cons.mp hx with rfl | hx
        · exact hc
        · exact g4 x hx
      have hne := normalize_ne (hk1 (.whitespace, c :: mid) (by simp) rfl) col
      have hmem := normalize_mem hb hall col
      rw [List.singleton_append, fixP]
      dsimp only
      rw [token_ws]
      have hfl : ∀ x : Kind × List Char, ∀ l, flat (x :: l) = x.2 ++ flat l := fun x l => rfl
      rw [hfl]
      dsimp only
      have haft : afterAll last ws t [] = (last, true) := by simp [afterAll, after, g2]
      rw [haft] at ih
      dsimp only at ih
      generalize (token .whitespace (c :: mid) col).2 = col' at *
      have ih' := ih f2 hk2 hcl2 col'
      cases rest with
      | nil =>
        rw [hpe rfl] at ih' ⊢
        cases b with
        | false =>
          have := lexes_ws hb (ws := ws) hne hmem (by simp [fixP, flat]) ih'
          simpa [fixP, flat] using this
        | true =>
          have := lexes_ws hb (last := last) (ws := ws) (n := normalize (c :: mid) col ++ ['\n']) (rest := []) (ps := [])
            (by simp) (by
              intro x hx
              rcases List.mem_append.mp hx with hx | hx
              · exact hmem x hx
              · rw [List.mem_singleton.mp hx]; exact hb.newline) (by simp) .nil
          simpa [fixP, flat, addTail] using this
      | cons d r =>
        obtain ⟨d', r', hh, ho⟩ := fix_head hb hs hr f2 hk2 col'
        have hdn := g5 d r rfl
        have hd' : d' = d := by
          rcases ho with ho | ⟨ho, _⟩
          · exact ho
          · rw [hdn] at ho; cases ho
        have hhead : ∀ x y, flat (fixP col' ps) ++ (if b then ['\n'] else []) = x :: y → cc.whitespace x = false := by
          intro x y hxy
          rw [hh] at hxy
          cases hxy
          rw [hd']
          exact hdn
        have hpsne : fixP col' ps ≠ [] := by
          intro he
          rw [he] at hh
          cases hh
        have := lexes_ws hb (ws := ws) hne hmem hhead ih'
        rw [List.append_assoc]
        cases b with
        | false => exact this
        | true =>
          simp only [if_true] at this ⊢
          rw [addTail_ws _ hpsne]
          exact this

/-! ## Formatting again -/

theorem fixP_clean (ps : List (Kind × List Char)) : ∀ col, Clean (fixP col ps) := by
  induction ps with
  | nil => intro col p hp; cases hp
  | cons q ps ih =>
    intro col p hp hpk
    rw [fixP] at hp
    rcases List.mem_cons.mp hp with rfl | hp
    · dsimp only at hpk ⊢
      rw [hpk, token_ws]
      exact normalize_clean _ _
    · exact ih _ p hp hpk

theorem addTail_clean {ps : List (Kind × List Char)} (h : Clean ps) : Clean (addTail ps) := by
  induction ps using addTail.induct with
  | case1 =>
    intro p hp _ c hc
    simp only [addTail, List.mem_singleton] at hp
    subst hp
    simp only [List.mem_singleton] at hc
    subst hc
    decide
  | case2 q hq =>
    intro p hp _ c hc
    rw [addTail, if_pos hq] at hp
    simp only [List.mem_singleton] at hp
    subst hp
    rcases List.mem_append.mp hc with hc | hc
    · exact h q (by simp) hq c hc
    · rw [List.mem_singleton.mp hc]; decide
  | case3 q hq =>
    intro p hp hpk c hc
    rw [addTail, if_neg hq] at hp
    simp only [List.mem_cons, List.not_mem_nil, or_false] at hp
    rcases hp with rfl | rfl
    · exact absurd hpk hq
    · simp only [List.mem_singleton] at hc
      subst hc
      decide
  | case4 q r ps ih =>
    intro p hp
    rw [addTail] at hp
    rcases List.mem_cons.mp hp with rfl | hp
    · exact h p (by simp)
    · exact ih (fun x hx => h x (by simp [hx])) p hp

theorem fixP_id {ps : List (Kind × List Char)} (h : Clean ps) : ∀ col, fixP col ps = ps := by
  induction ps with
  | nil => intro col; rfl
  | cons p ps ih =>
    intro col
    rw [fixP, ih (fun q hq => h q (by simp [hq]))]
    congr 1
    by_cases hp : p.1 = .whitespace
    · rw [hp, token_ws, normalize_id (h p (by simp) hp)]
      rw [← hp]
    · rw [token_solid hp]

end Verif.Fmt
