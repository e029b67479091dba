import Verif.FmtWalk

/-!
# Proofs only.  The columns the formatter counts are those of the text
-/

namespace Verif.Fmt

open Verif.Lex

/-- A colon at its place in a text that begins at `off`. -/
def ColonAt (content : List Char) (off : Nat) (t : Tok) : Prop :=
  t.kind ≠ .comma ∧ (t.kind = .colon → ∃ a b, content = a ++ ':' :: b ∧ t.start = bytes a + off ∧ t.stop = t.start + 1)

theorem interpNext_colon {cc : CharClass} {fmt : Bool} {ch : Char} {start : Nat} {cs : List Char} {off : Nat} :
    (interpNext cc fmt ch start cs (start + ch.utf8Size) off).1.kind ≠ .comma ∧
    ((interpNext cc fmt ch start cs (start + ch.utf8Size) off).1.kind = .colon → ch = ':' ∧
      (interpNext cc fmt ch start cs (start + ch.utf8Size) off).1.start = start + off ∧
      (interpNext cc fmt ch start cs (start + ch.utf8Size) off).1.stop = start + off + 1) := by
  unfold interpNext
  by_cases h1 : ch = ':'
  · rw [if_pos h1]
    subst h1
    refine ⟨by simp, fun _ => ⟨rfl, rfl, ?_⟩⟩
    show start + 1 + off = start + off + 1
    omega
  rw [if_neg h1]
  split
  · simp
  · split <;> simp

theorem strNext_colon {cc : CharClass} {off : Nat} {s s' : SSt} {t : Tok} (h : strNext cc off s = some (t, s')) :
    t.kind ≠ .comma ∧ (t.kind = .colon → ∃ cs, (skipWs cc s).chars = ':' :: cs ∧ t.start = (skipWs cc s).loc + off ∧
      t.stop = (skipWs cc s).loc + off + 1) := by
  unfold strNext at h
  dsimp only at h
  split at h
  · cases h
  · next ch cs hc =>
    split at h
    · split at h <;> (cases h; simp)
    · split at h
      · split at h
        · cases h; simp
        · split at h <;> (cases h; simp)
      · split at h
        · have := interpNext_colon (cc := cc) (fmt := s.fmt) (ch := ch) (start := (skipWs cc s).loc) (cs := cs) (off := off)
          simp only [Option.some.injEq] at h
          rw [h] at this
          refine ⟨this.1, fun hk => ?_⟩
          obtain ⟨rfl, h2, h3⟩ := this.2 hk
          exact ⟨cs, hc, h2, h3⟩
        · cases h; simp

theorem cstrNext_colon {cc : CharClass} {off : Nat} {s s' : SSt} {t : Tok} (h : cstrNext cc off s = some (t, s')) :
    t.kind ≠ .comma ∧ (t.kind = .colon → ∃ cs, (skipWs cc s).chars = ':' :: cs ∧ t.start = (skipWs cc s).loc + off ∧
      t.stop = (skipWs cc s).loc + off + 1) := by
  unfold cstrNext at h
  dsimp only at h
  split at h
  · cases h
  · next ch cs hc =>
    split at h
    · cases h; simp
    · split at h
      · cases h; simp
      · split at h
        · have := interpNext_colon (cc := cc) (fmt := s.fmt) (ch := ch) (start := (skipWs cc s).loc) (cs := cs) (off := off)
          simp only [Option.some.injEq] at h
          rw [h] at this
          refine ⟨this.1, fun hk => ?_⟩
          obtain ⟨rfl, h2, h3⟩ := this.2 hk
          exact ⟨cs, hc, h2, h3⟩
        · cases h; simp

theorem runStr_colon {cc : CharClass} {off : Nat} {next : SSt → Option (Tok × SSt)}
    (hs : ∀ s t s', next s = some (t, s') → Step cc off s t s')
    (hn : ∀ s t s', next s = some (t, s') → t.kind ≠ .comma ∧ (t.kind = .colon → ∃ cs, (skipWs cc s).chars = ':' :: cs ∧
      t.start = (skipWs cc s).loc + off ∧ t.stop = (skipWs cc s).loc + off + 1)) (content : List Char) :
    ∀ (fuel : Nat) (s : SSt) (pre : List Char), content = pre ++ s.chars → s.pos = bytes pre →
      ∀ t ∈ runStr next fuel s, ColonAt content off t := by
  intro fuel
  induction fuel with
  | zero => intro s pre _ _ t ht; cases ht
  | succ fuel ih =>
    intro s pre hc hp t ht
    unfold runStr at ht
    cases hx : next s with
    | none => rw [hx] at ht; cases ht
    | some r =>
      obtain ⟨u, s'⟩ := r
      rw [hx] at ht
      dsimp only at ht
      obtain ⟨⟨gap, taken, h1, h2, h3, h4, h5, h6, h7⟩, _⟩ := hs s u s' hx
      rcases List.mem_cons.mp ht with rfl | ht
      · obtain ⟨n1, n2⟩ := hn s t s' hx
        refine ⟨n1, fun hk => ?_⟩
        obtain ⟨cs, m1, m2, m3⟩ := n2 hk
        obtain ⟨gap', ⟨g1, g2⟩, _, _⟩ := skipWs_spec cc s
        refine ⟨pre ++ gap', cs, ?_, ?_, by omega⟩
        · rw [hc, g1, m1, List.append_assoc]
        · rw [m2, g2, hp, bytes_append]
      · refine ih s' (pre ++ (gap ++ taken)) ?_ ?_ t ht
        · rw [hc, h1]; simp [List.append_assoc]
        · rw [h7, hp, bytes_append, bytes_append]; omega

theorem patternToks_colon (cc : CharClass) (c : Bool) (content : List Char) (off : Nat) :
    ∀ t ∈ patternToks cc c content off, ColonAt content off t := by
  unfold patternToks
  cases c with
  | true => exact runStr_colon (cc := cc) (fun s t s' h => cstrNext_step h) (fun s t s' h => cstrNext_colon h) content _ _ [] rfl rfl
  | false => exact runStr_colon (cc := cc) (fun s t s' h => strNext_step h) (fun s t s' h => strNext_colon h) content _ _ [] rfl rfl

theorem dqLoop_content (isC : Bool) (cs : List Char) (l : Nat) : (dqLoop isC cs l).2.2 = true →
    cs = (dqLoop isC cs l).1 ++ '"' :: (dqLoop isC cs l).2.1.chars := by
  induction cs, l using dqLoop.induct (isC := isC) with
  | case1 l => intro h; simp [dqLoop] at h
  | case2 cs l => intro _; simp [dqLoop]
  | case3 l => intro h; simp [dqLoop] at h
  | case4 c cs l hi ih =>
    have e : dqLoop isC ('\\' :: c :: cs) l = ('\\' :: c :: (dqLoop isC cs (l + 1 + c.utf8Size)).1,
        (dqLoop isC cs (l + 1 + c.utf8Size)).2) := by
      rw [dqLoop]; simp [hi]
    rw [e]
    intro h
    rw [List.cons_append, List.cons_append, ← ih h]
  | case5 c cs l hi ih =>
    have e : dqLoop isC ('\\' :: c :: cs) l = ('\\' :: (dqLoop isC (c :: cs) (l + 1)).1,
        (dqLoop isC (c :: cs) (l + 1)).2) := by
      rw [dqLoop]; simp [hi]
    rw [e]
    intro h
    rw [List.cons_append, ← ih h]
  | case6 c cs l h1 h2 h3 ih =>
    have hq : c ≠ '"' := h1
    have hbs : c ≠ '\\' := by
      rintro rfl
      cases cs with
      | nil => exact h2 rfl rfl
      | cons d cs => exact h3 d cs rfl rfl
    rw [dqLoop_cons isC hq hbs]
    intro h
    rw [List.cons_append, ← ih h]

theorem dquote_colon (cc : CharClass) (pre : Prefix) (p i : Nat) (cs : List Char) (l : Nat) :
    (dquote cc pre p i cs l).1.kind ≠ .colon ∧ (dquote cc pre p i cs l).1.kind ≠ .comma ∧
    ∀ t ∈ (dquote cc pre p i cs l).2.1, ColonAt cs (i + 1) t := by
  have hco := dqLoop_content (pre = .c) cs l
  unfold dquote
  generalize dqLoop (pre = .c) cs l = r at hco
  obtain ⟨content, cur, cl⟩ := r
  dsimp only at hco ⊢
  generalize (if pre = .c then hasUnescapedBraces content else content.contains '{' || content.contains '}') = has
  cases cl with
  | false => rw [if_pos (by simp)]; cases pre <;> simp [simpleKind]
  | true =>
    rw [if_neg (by simp)]
    split
    · cases pre <;> simp [simpleKind]
    · split
      · refine ⟨by cases pre <;> simp [patternStartKind], by cases pre <;> simp [patternStartKind], ?_⟩
        intro t ht
        rcases List.mem_append.mp ht with ht | ht
        · obtain ⟨h1, h2⟩ := patternToks_colon cc (pre = .c) content (i + 1) t ht
          refine ⟨h1, fun hk => ?_⟩
          obtain ⟨a, b, e, e2, e3⟩ := h2 hk
          exact ⟨a, b ++ '"' :: cur.chars, by rw [hco rfl, e]; simp, e2, e3⟩
        · rw [List.mem_singleton.mp ht]
          cases pre <;> simp [patternEndKind, ColonAt]
      · cases pre <;> simp [simpleKind]

/-- The colons and commas of a call. -/
def Marks (c : Char) (cs : List Char) (r : Tok × List Tok × Cur) : Prop :=
  (r.1.kind = .colon ∨ r.1.kind = .comma → r.1.start = 0 ∧ r.1.stop = 1 ∧ (c = ':' ∨ c = ',')) ∧
    ∀ t ∈ r.2.1, ColonAt (c :: cs) 0 t

theorem marks_ite {c : Char} {cs : List Char} {P : Prop} [Decidable P] {a b : Tok × List Tok × Cur} (h1 : P → Marks c cs a)
    (h2 : ¬P → Marks c cs b) : Marks c cs (if P then a else b) := by
  split
  · exact h1 ‹_›
  · exact h2 ‹_›

theorem marks_plain {c : Char} {cs : List Char} {t : Tok} {cur : Cur} (h1 : t.kind ≠ .colon) (h2 : t.kind ≠ .comma) :
    Marks c cs (t, [], cur) :=
  ⟨fun h => by rcases h with h | h <;> contradiction, by simp⟩

theorem dispatch_marks (cc : CharClass) (last : Option Kind) (ws : Bool) (c : Char) (cs : List Char) :
    Marks c cs (dispatch cc last ws 0 c cs c.utf8Size) := by
  have hap : ∀ a b k : Kind, a ≠ k → b ≠ k → applyKind last ws a b ≠ k := by
    intro a b k ha hb
    unfold applyKind
    split
    · split <;> assumption
    · exact ha
  have hnum : ∀ i cs l, (number i cs l).1.kind ≠ .colon ∧ (number i cs l).1.kind ≠ .comma := by
    intro i cs l
    rw [number_eq, numTail]
    split <;> simp
  have hop : ∀ i cs l, (oper cc i cs l).1.kind ≠ .colon ∧ (oper cc i cs l).1.kind ≠ .comma := by
    intro i cs l; simp [oper]
  unfold dispatch
  dsimp only
  refine marks_ite (fun _ => marks_plain (hap _ _ _ (by simp) (by simp)) (hap _ _ _ (by simp) (by simp))) fun _ => ?_
  refine marks_ite (fun _ => marks_plain (by simp) (by simp)) fun _ => ?_
  refine marks_ite (fun _ => marks_plain (hap _ _ _ (by simp) (by simp)) (hap _ _ _ (by simp) (by simp))) fun _ => ?_
  refine marks_ite (fun _ => marks_plain (by simp) (by simp)) fun _ => ?_
  refine marks_ite (fun _ => ?_) fun _ => ?_
  · rw [parenKind_eq]; exact marks_plain (hap _ _ _ (by simp) (by simp)) (hap _ _ _ (by simp) (by simp))
  refine marks_ite (fun _ => marks_plain (by simp) (by simp)) fun _ => ?_
  refine marks_ite (fun h => ⟨fun _ => ⟨rfl, rfl, .inr h⟩, by simp⟩) fun _ => ?_
  refine marks_ite (fun _ => marks_plain (by simp) (by simp)) fun _ => ?_
  refine marks_ite (fun h => ?_) fun _ => ?_
  · unfold colon
    split
    · exact ⟨fun _ => ⟨rfl, rfl, .inl h⟩, by simp⟩
    · split
      · exact marks_plain (by simp) (by simp)
      · split
        · exact marks_plain (by simp) (by simp)
        · exact ⟨fun _ => ⟨rfl, rfl, .inl h⟩, by simp⟩
  refine marks_ite (fun _ => marks_plain (by simp) (by simp)) fun _ => ?_
  refine marks_ite (fun _ => marks_plain (by simp) (by simp)) fun _ => ?_
  refine marks_ite (fun h => ?_) fun _ => ?_
  · subst h
    obtain ⟨h1, h2, h3⟩ := dquote_colon cc .plain 0 0 cs '"'.utf8Size
    refine ⟨fun h => by rcases h with h | h <;> contradiction, fun t ht => ?_⟩
    obtain ⟨g1, g2⟩ := h3 t ht
    refine ⟨g1, fun hk => ?_⟩
    obtain ⟨a, b, e1, e2, e3⟩ := g2 hk
    exact ⟨'"' :: a, b, by rw [e1]; rfl, by rw [e2]; show _ = '"'.utf8Size + bytes a + 0; rw [show '"'.utf8Size = 1 from rfl]; omega, e3⟩
  refine marks_ite (fun _ => ?_) fun _ => ?_
  · rw [minus_eq]
    split
    · exact marks_plain (hnum _ _ _).1 (hnum _ _ _).2
    · exact marks_plain (hop _ _ _).1 (hop _ _ _).2
  refine marks_ite (fun _ => marks_plain (hnum _ _ _).1 (hnum _ _ _).2) fun _ => ?_
  refine marks_ite (fun _ => ?_) fun _ => ?_
  · obtain ⟨tk, ⟨t1, t2⟩, _⟩ := consume_took (isNormalContinuation cc) cs c.utf8Size
    have hq : ∀ (pre : Prefix) (cs' : List Char), (consume (isNormalContinuation cc) cs c.utf8Size).loc - 0 = 1 →
        (consume (isNormalContinuation cc) cs c.utf8Size).chars = '"' :: cs' →
        Marks c cs (dquote cc pre 0 ((consume (isNormalContinuation cc) cs c.utf8Size).loc + 1 - 1) cs'
          ((consume (isNormalContinuation cc) cs c.utf8Size).loc + 1)) := by
      intro pre cs' hl hcs
      have hpos : 0 < c.utf8Size := Char.utf8Size_pos c
      have htk : tk = [] := by
        cases tk with
        | nil => rfl
        | cons d tk =>
          have := Char.utf8Size_pos d
          simp only [bytes] at t2
          omega
      subst htk
      simp only [bytes, Nat.add_zero] at t2
      rw [hcs, List.nil_append] at t1
      rw [t2] at hl ⊢
      obtain ⟨h1, h2, h3⟩ := dquote_colon cc pre 0 (c.utf8Size + 1 - 1) cs' (c.utf8Size + 1)
      refine ⟨fun h => by rcases h with h | h <;> contradiction, fun t ht => ?_⟩
      obtain ⟨g1, g2⟩ := h3 t ht
      refine ⟨g1, fun hk => ?_⟩
      obtain ⟨a, b, e1, e2, e3⟩ := g2 hk
      refine ⟨c :: '"' :: a, b, by rw [t1, e1]; rfl, ?_, e3⟩
      rw [e2]
      show _ = c.utf8Size + ('"'.utf8Size + bytes a) + 0
      rw [show '"'.utf8Size = 1 from rfl]
      omega
    unfold normal
    dsimp only
    refine marks_ite (fun hl => ?_) fun _ => marks_plain (by simp) (by simp)
    split
    · rename_i cs' hcs
      refine marks_ite (fun _ => hq _ _ hl hcs) fun _ => ?_
      refine marks_ite (fun _ => hq _ _ hl hcs) fun _ => ?_
      refine marks_ite (fun _ => hq _ _ hl hcs) fun _ => ?_
      refine marks_ite (fun _ => hq _ _ hl hcs) fun _ => marks_plain (by simp) (by simp)
    · exact marks_plain (by simp) (by simp)
  refine marks_ite (fun _ => marks_plain (hop _ _ _).1 (hop _ _ _).2) fun _ => ?_
  refine marks_ite (fun _ => marks_plain (by simp) (by simp)) fun _ => ?_
  refine marks_ite (fun _ => marks_ite (fun _ => marks_plain (by simp) (by simp)) fun _ => marks_plain (by simp) (by simp)) fun _ => ?_
  refine marks_ite (fun _ => marks_ite (fun _ => marks_plain (by simp) (by simp)) fun _ => marks_plain (by simp) (by simp)) fun _ => ?_
  exact marks_plain (by simp) (by simp)

/-- The text of a colon or comma is that character. -/
theorem lexes_marks {cc : CharClass} {last ws cs ps} (h : Lexes cc last ws cs ps) :
    ∀ p ∈ ps, p.1 = .colon ∨ p.1 = .comma → p.2 = [':'] ∨ p.2 = [','] := by
  induction h with
  | nil => simp
  | @step last ws c mid rest t buf l ps hd _ ih =>
    intro p hp hk
    rcases List.mem_append.mp hp with hp | hp
    · have hm := dispatch_marks cc last ws c (mid ++ rest)
      rw [hd] at hm
      obtain ⟨m1, m2⟩ := hm
      dsimp only at m1 m2
      have htx := (dispatch_pieces hd).2.1
      unfold pieces at hp
      obtain ⟨u, hu, rfl⟩ := List.mem_map.mp hp
      dsimp only at hk ⊢
      obtain ⟨x, hx, _⟩ := htx u hu
      rw [hx]
      have hx2 := text_more rest hx
      rcases List.mem_cons.mp hu with rfl | hu
      · obtain ⟨e1, e2, e3⟩ := m1 hk
        have hsz : bytes [c] = 1 := by
          rcases e3 with rfl | rfl <;> rfl
        have := text_mid [] [c] (mid ++ rest) u.kind
        rw [hsz] at this
        have eu : u = ⟨u.kind, bytes [], bytes [] + 1⟩ := by
          cases u; simp only [Tok.mk.injEq, true_and]; exact ⟨e1, e2⟩
        rw [← eu] at this
        have h3 : text (c :: mid ++ rest) u = some [c] := this
        rw [h3] at hx2
        cases hx2
        rcases e3 with rfl | rfl
        · exact .inl rfl
        · exact .inr rfl
      · obtain ⟨n1, n2⟩ := m2 u hu
        rcases hk with hk | hk
        · obtain ⟨a, b, e1, e2, e3⟩ := n2 hk
          have := text_mid a [':'] b u.kind
          have eu : u = ⟨u.kind, bytes a, bytes a + bytes [':']⟩ := by
            cases u
            simp only [Tok.mk.injEq, true_and]
            simp only at e2 e3
            refine ⟨by omega, ?_⟩
            show _ = bytes a + 1
            omega
          rw [← eu] at this
          have h3 : text (c :: mid ++ rest) u = some [':'] := by
            have e4 : c :: mid ++ rest = a ++ ([':'] ++ b) := by
              rw [List.cons_append, e1]; rfl
            rw [e4]; exact this
          rw [h3] at hx2
          cases hx2
          exact .inl rfl
        · exact absurd hk n1
    · exact ih p hp hk

/-! ## Columns -/

/-- The column after a text with its tabs expanded. -/
theorem expandTabs_append (a b : List Char) : ∀ col, expandTabs col (a ++ b) =
    expandTabs col a ++ expandTabs (advance col (expandTabs col a)) b := by
  have hadv : ∀ (x y : List Char) col, advance col (x ++ y) = advance (advance col x) y := by
    intro x
    induction x with
    | nil => intros; rfl
    | cons c x ih => intro y col; rw [List.cons_append, advance, advance, ih]
  have hrep : ∀ n col, advance col (List.replicate n ' ') = col + n := by
    intro n
    induction n with
    | zero => intro col; rfl
    | succ n ih =>
      intro col
      rw [List.replicate_succ, advance, if_neg (by decide), ih]
      omega
  induction a with
  | nil => intro col; rfl
  | cons c a ih =>
    intro col
    rw [List.cons_append, expandTabs, expandTabs]
    by_cases hc : c = '\t'
    · rw [if_pos hc, if_pos hc, ih, List.append_assoc, hadv, hrep]
    · rw [if_neg hc, if_neg hc, ih, List.cons_append, advance]

theorem expandTabs_none {a : List Char} (h : '\t' ∉ a) : ∀ col, expandTabs col a = a := by
  induction a with
  | nil => intro col; rfl
  | cons c a ih =>
    intro col
    rw [expandTabs, if_neg (by rintro rfl; simp at h), ih (by intro hm; exact h (by simp [hm]))]

theorem normalize_expand (t : List Char) : ∀ col, normalize t col = expandTabs col (t.filter (· ≠ '\r')) := by
  induction t with
  | nil => intro col; rfl
  | cons c t ih =>
    intro col
    rw [normalize]
    by_cases h1 : c = '\n'
    · subst h1
      rw [if_pos rfl, List.filter_cons_of_pos (by decide), expandTabs, if_neg (by decide), if_pos rfl, ih]
    rw [if_neg h1]
    by_cases h2 : c = '\t'
    · subst h2
      have e1 : tabStop col - col = 8 - col % 8 := by unfold tabStop tabWidth; omega
      have e2 : tabStop col = col + (8 - col % 8) := by unfold tabStop tabWidth; omega
      rw [if_pos rfl, List.filter_cons_of_pos (by decide), expandTabs, if_pos rfl, ih, e1, e2]
    rw [if_neg h2]
    by_cases h3 : c = ' '
    · subst h3
      rw [if_pos rfl, List.filter_cons_of_pos (by decide), expandTabs, if_neg (by decide), if_neg (by decide), ih]
    rw [if_neg h3]
    by_cases h4 : c = '\r'
    · subst h4
      rw [if_pos rfl, List.filter_cons_of_neg (by decide), ih]
    rw [if_neg h4, List.filter_cons_of_pos (by simpa using h4), expandTabs, if_neg h2, if_neg h1, ih]

/-- What is written for tokens is their text with the tabs expanded. -/
theorem fixP_expand (ps : List (Kind × List Char))
    (hm : ∀ p ∈ ps, p.1 = .colon ∨ p.1 = .comma → p.2 = [':'] ∨ p.2 = [','])
    (ht : ∀ p ∈ ps, p.1 ≠ .whitespace → '\t' ∉ p.2 ∧ '\r' ∉ p.2) : ∀ col,
    flat (fixP col ps) = expandTabs col ((flat ps).filter (· ≠ '\r')) := by
  induction ps with
  | nil => intro col; rfl
  | cons p ps ih =>
    intro col
    have ih' := ih (fun q hq => hm q (by simp [hq])) (fun q hq => ht q (by simp [hq]))
    have hfl : ∀ x : Kind × List Char, ∀ l, flat (x :: l) = x.2 ++ flat l := fun x l => rfl
    rw [fixP, hfl, hfl, List.filter_append, expandTabs_append, ih']
    dsimp only
    have key : (token p.1 p.2 col).1 = expandTabs col (p.2.filter (· ≠ '\r')) ∧
        (token p.1 p.2 col).2 = advance col (expandTabs col (p.2.filter (· ≠ '\r'))) := by
      by_cases hk : p.1 = .whitespace
      · rw [hk]
        unfold token
        rw [if_pos rfl, ← normalize_expand]
        exact ⟨rfl, rfl⟩
      · have h1 := ht p (by simp) hk
        have e : p.2.filter (· ≠ '\r') = p.2 := by
          rw [List.filter_eq_self]
          intro c hc
          simp only [ne_eq, decide_eq_true_eq]
          rintro rfl
          exact h1.2 hc
        rw [e, expandTabs_none h1.1]
        unfold token
        rw [if_neg hk]
        by_cases hc : p.1 = .colon
        · rw [if_pos hc]
          refine ⟨rfl, ?_⟩
          rcases hm p (by simp) (.inl hc) with e | e <;> rw [e] <;> rfl
        · rw [if_neg hc]
          by_cases hc : p.1 = .comma
          · rw [if_pos hc]
            refine ⟨rfl, ?_⟩
            rcases hm p (by simp) (.inr hc) with e | e <;> rw [e] <;> rfl
          · rw [if_neg hc]
            exact ⟨rfl, rfl⟩
    rw [← key.2, ← key.1]

end Verif.Fmt
