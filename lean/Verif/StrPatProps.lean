import Verif.StrPatModel
import Verif.LexProps
import Verif.EscapeProps

/-!
# Properties of string literals (C46)
-/

namespace Verif.StrPat
open Verif.Lex

/-! ## Specification: how to write a string -/

/-- The format in an interpolation. -/
def renderFmt : Option (List Char) → List Char
  | none => []
  | some g => ':' :: g

/-- An interpolation, in all kinds of strings. -/
def renderHole (t : List Char) (f : Option (List Char)) : List Char :=
  '{' :: (t ++ (renderFmt f ++ ['}']))

/-- A character in a plain or raw string: braces are doubled. -/
def plainChar (c : Char) : List Char := if c = '{' ∨ c = '}' then [c, c] else [c]

/-- A character in a c-string: braces, quotes and backslashes come after a backslash. -/
def cChar (c : Char) : List Char := if c = '{' ∨ c = '}' ∨ c = '"' ∨ c = '\\' then ['\\', c] else [c]

/-- The source of a string, between its quotes. -/
def render (esc : Char → List Char) : List Piece → List Char
  | [] => []
  | .ch c :: ps => esc c ++ render esc ps
  | .hole t f :: ps => renderHole t f ++ render esc ps

/-- The target is a name or nothing; the format, if there is one, is not empty. -/
def HoleOk (cc : CharClass) (t : List Char) (f : Option (List Char)) : Prop :=
  (∀ c ∈ t, cc.whitespace c = false ∧ c ∉ ['{', '}', ':', '.', '"', '\\']) ∧
  (∀ g, f = some g → (∀ c ∈ g, c ∉ ['{', '}', ':', '"', '\\']) ∧
    ∃ c r, g = c :: r ∧ c ≠ '.' ∧ cc.whitespace c = false)

def Holes (cc : CharClass) (ps : List Piece) : Prop := ∀ t f, Piece.hole t f ∈ ps → HoleOk cc t f

/-- No closing brace directly after an interpolation. -/
def PlainSafe : Bool → List Piece → Prop
  | _, [] => True
  | b, .ch c :: ps => (b = true → c ≠ '}') ∧ PlainSafe false ps
  | _, .hole _ _ :: ps => PlainSafe true ps

/-- No brace and no backslash at the beginning or directly after an interpolation. -/
def CSafe : Bool → List Piece → Prop
  | _, [] => True
  | b, .ch c :: ps => (b = true → c ∉ ['{', '}', '\\']) ∧ CSafe false ps
  | _, .hole _ _ :: ps => CSafe true ps

/-- The tokens with their texts. -/
def withText (src : List Char) : List Tok → Option (List (Kind × List Char))
  | [] => some []
  | t :: ts => (text src t).bind fun x => (withText src ts).map ((t.kind, x) :: ·)

/-! ## Lemmas -/

/-- Tokens mean these pieces. -/
def Reads (lit : List Char → Option (List Char)) (src : List Char) (st : RSt) (ts : List Tok) (ps : List Piece) : Prop :=
  ∃ kts, withText src ts = some kts ∧ read lit st kts = some ps

theorem reads_cons {lit src st st' t ts x ps qs} (ht : text src t = some x) (h : Reads lit src st' ts ps)
    (hr : ∀ r, read lit st' r = some ps → read lit st ((t.kind, x) :: r) = some qs) : Reads lit src st (t :: ts) qs := by
  obtain ⟨kts, h1, h2⟩ := h
  refine ⟨(t.kind, x) :: kts, ?_, hr kts h2⟩
  simp [withText, ht, h1]

theorem consume_exact (p : Char → Bool) (a rest : List Char) (l : Nat) (ha : ∀ c ∈ a, p c = true)
    (hr : ∀ c r, rest = c :: r → p c = false) : consume p (a ++ rest) l = ⟨rest, l + bytes a⟩ := by
  induction a generalizing l with
  | nil =>
    cases rest with
    | nil => rfl
    | cons c r => simp [consume, hr c r rfl, bytes]
  | cons c a ih =>
    simp only [List.cons_append, consume, ha c (by simp), if_true]
    rw [ih _ (fun x hx => ha x (by simp [hx]))]
    simp only [bytes, Nat.add_assoc]

/-- What the lexers of string patterns have in common. -/
structure Lexes (cc : CharClass) (off : Nat) (next : SSt → Option (Tok × SSt)) (clash : List Char → Prop) : Prop where
  opens : ∀ (rest : List Char) (pos : Nat), (∀ r, rest ≠ '{' :: r) → next ⟨'{' :: rest, pos, false, false⟩ =
    some (⟨.openBrace, pos + off, pos + 1 + off⟩, ⟨rest, pos + 1, true, false⟩)
  target : ∀ (c : Char) (t rest : List Char) (pos : Nat),
    (∀ x ∈ c :: t, cc.whitespace x = false ∧ x ∉ ['{', '}', ':', '.']) → (∃ r, rest = ':' :: r ∨ rest = '}' :: r) →
    next ⟨c :: (t ++ rest), pos, true, false⟩ = some (⟨.stringInterpolationTarget, pos + off, pos + bytes (c :: t) + off⟩,
      ⟨rest, pos + bytes (c :: t), true, false⟩)
  colon : ∀ (rest : List Char) (pos : Nat), next ⟨':' :: rest, pos, true, false⟩ =
    some (⟨.colon, pos + off, pos + 1 + off⟩, ⟨rest, pos + 1, true, true⟩)
  fmt : ∀ (c : Char) (t rest : List Char) (pos : Nat), cc.whitespace c = false → c ≠ '.' →
    (∀ x ∈ c :: t, x ∉ ['{', '}', ':']) → next ⟨c :: (t ++ '}' :: rest), pos, true, true⟩ =
      some (⟨.stringFormatSpec, pos + off, pos + bytes (c :: t) + off⟩, ⟨'}' :: rest, pos + bytes (c :: t), true, true⟩)
  close : ∀ (b : Bool) (rest : List Char) (pos : Nat), ¬ clash rest → next ⟨'}' :: rest, pos, true, b⟩ =
    some (⟨.closeBrace, pos + off, pos + 1 + off⟩, ⟨rest, pos + 1, false, false⟩)

theorem skipWs_none {cc : CharClass} {c : Char} {cs : List Char} {pos : Nat} {i f : Bool} (h : cc.whitespace c = false) :
    skipWs cc ⟨c :: cs, pos, i, f⟩ = ⟨c :: cs, pos⟩ := by
  unfold skipWs
  cases i <;> simp [consume, h]

theorem one_byte : ('{' : Char).utf8Size = 1 ∧ ('}' : Char).utf8Size = 1 ∧ (':' : Char).utf8Size = 1 ∧ ('"' : Char).utf8Size = 1 ∧
    ('\\' : Char).utf8Size = 1 := ⟨rfl, rfl, rfl, rfl, rfl⟩

theorem interpNext_target {cc : CharClass} {off : Nat} {c : Char} {t rest : List Char} {pos : Nat}
    (h : ∀ x ∈ c :: t, cc.whitespace x = false ∧ x ∉ ['{', '}', ':', '.']) (hr : ∃ r, rest = ':' :: r ∨ rest = '}' :: r) :
    interpNext cc false c pos (t ++ rest) (pos + c.utf8Size) off =
      (⟨.stringInterpolationTarget, pos + off, pos + bytes (c :: t) + off⟩, ⟨rest, pos + bytes (c :: t), true, false⟩) := by
  have hc := h c (by simp)
  simp only [List.mem_cons, List.not_mem_nil, or_false, not_or] at hc
  have hx : consume (targetStop cc) (t ++ rest) (pos + c.utf8Size) = ⟨rest, pos + bytes (c :: t)⟩ := by
    rw [consume_exact _ t rest _ ?_ ?_]
    · simp only [bytes, Nat.add_assoc]
    · intro x hxm
      have := h x (by simp [hxm])
      simp only [List.mem_cons, List.not_mem_nil, or_false, not_or] at this
      simp [targetStop, this]
    · intro x r hxr
      obtain ⟨q, hq⟩ := hr
      rcases hq with hq | hq <;> rw [hq] at hxr <;> cases hxr <;> simp [targetStop]
  unfold interpNext
  rw [if_neg hc.2.2.2.1, if_neg hc.2.2.2.2]
  simp only [Bool.false_eq_true, if_false, hx]

theorem interpNext_fmt {cc : CharClass} {off : Nat} {c : Char} {t rest : List Char} {pos : Nat} (hd : c ≠ '.')
    (h : ∀ x ∈ c :: t, x ∉ ['{', '}', ':']) :
    interpNext cc true c pos (t ++ '}' :: rest) (pos + c.utf8Size) off =
      (⟨.stringFormatSpec, pos + off, pos + bytes (c :: t) + off⟩, ⟨'}' :: rest, pos + bytes (c :: t), true, true⟩) := by
  have hc := h c (by simp)
  simp only [List.mem_cons, List.not_mem_nil, or_false, not_or] at hc
  have hx : consume formatStop (t ++ '}' :: rest) (pos + c.utf8Size) = ⟨'}' :: rest, pos + bytes (c :: t)⟩ := by
    rw [consume_exact _ t _ _ ?_ ?_]
    · simp only [bytes, Nat.add_assoc]
    · intro x hxm
      have := h x (by simp [hxm])
      simp only [List.mem_cons, List.not_mem_nil, or_false, not_or] at this
      simp [formatStop, this]
    · intro x r hxr; cases hxr; simp [formatStop]
  unfold interpNext
  rw [if_neg hc.2.2, if_neg hd]
  simp only [if_true, hx]

theorem strNext_lexes {cc : CharClass} (hcc : cc.Sane) (off : Nat) :
    Lexes cc off (strNext cc off) (fun rest => ∃ r, rest = '}' :: r) where
  opens rest pos hr := by
    unfold strNext
    rw [skipWs_none (hcc.notSpace _ (by simp))]
    dsimp only
    rw [if_pos rfl]
    split
    · next r => exact absurd rfl (hr r)
    · rfl
  target c t rest pos h hr := by
    have hc := h c (by simp)
    simp only [List.mem_cons, List.not_mem_nil, or_false, not_or] at hc
    unfold strNext
    rw [skipWs_none hc.1]
    dsimp only
    rw [if_neg hc.2.1, if_neg hc.2.2.1]
    simp only [if_true]
    rw [interpNext_target h hr]
  colon rest pos := by
    unfold strNext
    rw [skipWs_none (hcc.notSpace _ (by simp))]
    rfl
  fmt c t rest pos hw hd h := by
    have hc := h c (by simp)
    simp only [List.mem_cons, List.not_mem_nil, or_false, not_or] at hc
    unfold strNext
    rw [skipWs_none hw]
    dsimp only
    rw [if_neg hc.1, if_neg hc.2.1]
    simp only [if_true]
    rw [interpNext_fmt hd h]
  close b rest pos hr := by
    unfold strNext
    rw [skipWs_none (hcc.notSpace _ (by simp))]
    dsimp only
    rw [if_neg (by decide), if_pos rfl]
    split
    · next r => exact absurd ⟨r, rfl⟩ hr
    · rfl

theorem cstrNext_lexes {cc : CharClass} (hcc : cc.Sane) (off : Nat) :
    Lexes cc off (cstrNext cc off) (fun _ => False) where
  opens rest pos hr := by
    unfold cstrNext
    rw [skipWs_none (hcc.notSpace _ (by simp))]
    rfl
  target c t rest pos h hr := by
    have hc := h c (by simp)
    simp only [List.mem_cons, List.not_mem_nil, or_false, not_or] at hc
    unfold cstrNext
    rw [skipWs_none hc.1]
    dsimp only
    rw [if_neg hc.2.1, if_neg (by simp [hc.2.2.1])]
    simp only [if_true]
    rw [interpNext_target h hr]
  colon rest pos := by
    unfold cstrNext
    rw [skipWs_none (hcc.notSpace _ (by simp))]
    rfl
  fmt c t rest pos hw hd h := by
    have hc := h c (by simp)
    simp only [List.mem_cons, List.not_mem_nil, or_false, not_or] at hc
    unfold cstrNext
    rw [skipWs_none hw]
    dsimp only
    rw [if_neg hc.1, if_neg (by simp [hc.2.1])]
    simp only [if_true]
    rw [interpNext_fmt hd h]
  close b rest pos hr := by
    unfold cstrNext
    rw [skipWs_none (hcc.notSpace _ (by simp))]
    rfl

theorem runStr_some {next : SSt → Option (Tok × SSt)} {s s' : SSt} {t : Tok} {fuel : Nat} (h : next s = some (t, s'))
    (hf : 0 < fuel) : runStr next fuel s = t :: runStr next (fuel - 1) s' := by
  obtain ⟨n, rfl⟩ : ∃ n, fuel = n + 1 := ⟨fuel - 1, by omega⟩
  simp [runStr, h]

theorem text_at {pre mid post : List Char} {k : Kind} {pos off e : Nat} {src : List Char} (hs : src = pre ++ (mid ++ post))
    (hp : bytes pre = pos + off) (he : e = pos + bytes mid + off) : text src ⟨k, pos + off, e⟩ = some mid := by
  subst hs
  have := text_mid pre mid post k
  rw [hp] at this
  rw [he, Nat.add_right_comm]
  exact this

/-- An interpolation is read back. -/
theorem hole_reads {cc : CharClass} {off : Nat} {next : SSt → Option (Tok × SSt)} {clash : List Char → Prop}
    (hx : Lexes cc off next clash) {lit : List Char → Option (List Char)} {t : List Char} {f : Option (List Char)}
    (ho : HoleOk cc t f) {rest post pre src : List Char} {pos fuel : Nat} {ps : List Piece} (hc : ¬ clash rest)
    (hs : src = pre ++ (renderHole t f ++ (rest ++ post))) (hp : bytes pre = pos + off)
    (hf : (renderHole t f ++ rest).length < fuel)
    (ih : ∀ fuel', rest.length < fuel' →
      Reads lit src .text (runStr next fuel' ⟨rest, pos + bytes (renderHole t f), false, false⟩) ps) :
    Reads lit src .text (runStr next fuel ⟨renderHole t f ++ rest, pos, false, false⟩) (.hole t f :: ps) := by
  obtain ⟨b1, b2, b3, _⟩ := one_byte
  -- the last steps: `}` and what follows
  have close : ∀ (pre' : List Char) (pos' fuel' : Nat) (b : Bool) (st : RSt) (g : Option (List Char)),
      src = pre' ++ ('}' :: (rest ++ post)) → bytes pre' = pos' + off → rest.length + 1 < fuel' →
      pos' + 1 = pos + bytes (renderHole t f) →
      (∀ r, read lit .text r = some ps → read lit st ((.closeBrace, ['}']) :: r) = some (.hole t g :: ps)) →
      Reads lit src st (runStr next fuel' ⟨'}' :: rest, pos', true, b⟩) (.hole t g :: ps) := by
    intro pre' pos' fuel' b st g h1 h2 h3 h4 h5
    rw [runStr_some (hx.close b rest pos' hc) (by omega), h4]
    refine reads_cons (x := ['}']) ?_ (ih (fuel' - 1) (by omega)) h5
    exact text_at (mid := ['}']) (post := rest ++ post) h1 h2 (by simp only [bytes, b2]; omega)
  -- the format and the last steps
  have fmt : ∀ (g : List Char), f = some g → ∀ (pre' : List Char) (pos' fuel' : Nat) (st : RSt),
      src = pre' ++ (':' :: (g ++ '}' :: (rest ++ post))) → bytes pre' = pos' + off → g.length + rest.length + 2 < fuel' →
      pos' + 1 + bytes g + 1 = pos + bytes (renderHole t f) →
      (∀ r, read lit (.spec t) r = some (.hole t f :: ps) → read lit st ((.colon, [':']) :: r) = some (.hole t f :: ps)) →
      Reads lit src st (runStr next fuel' ⟨':' :: (g ++ '}' :: rest), pos', true, false⟩) (.hole t f :: ps) := by
    intro g hg pre' pos' fuel' st h1 h2 h3 h4 h5
    obtain ⟨hg1, c, r, hg2, hg3, hg4⟩ := ho.2 g hg
    subst hg2
    rw [runStr_some (hx.colon _ pos') (by omega)]
    refine reads_cons (x := [':']) (st' := .spec t) ?_ ?_ h5
    · exact text_at (mid := [':']) h1 h2 (by simp only [bytes, b3])
    · rw [List.cons_append, runStr_some (hx.fmt c r rest (pos' + 1) hg4 hg3 ?_) (by omega)]
      · refine reads_cons (x := c :: r) (st' := .stray t (some (c :: r)) true) (qs := .hole t f :: ps) ?_
          (close (pre' ++ (':' :: c :: r)) _ _ true _ (some (c :: r)) ?_ ?_ ?_ ?_ ?_) ?_
        · refine text_at (pre := pre' ++ [':']) (mid := c :: r) (post := '}' :: (rest ++ post)) ?_ ?_ rfl
          · rw [h1]; simp
          · rw [bytes_append, h2]; simp only [bytes, b3]; omega
        · rw [h1]; simp
        · rw [bytes_append, h2]; simp only [bytes, b3]; omega
        · simp only [List.length_cons] at h3; omega
        · rw [← h4]
        · intro q hq; simp [read, hq]
        · intro q hq; rw [hg]; simpa [read] using hq
      · intro x hxm
        have := hg1 x hxm
        simp only [List.mem_cons, List.not_mem_nil, or_false, not_or] at this ⊢
        exact ⟨this.1, this.2.1, this.2.2.1⟩
  -- what follows the target
  have tail : ∀ (pre' : List Char) (pos' fuel' : Nat) (st : RSt),
      src = pre' ++ ((renderFmt f ++ ['}']) ++ (rest ++ post)) →
      bytes pre' = pos' + off → ((renderFmt f ++ ['}']) ++ rest).length < fuel' →
      pos' + bytes (renderFmt f ++ ['}']) = pos + bytes (renderHole t f) →
      (∀ r, read lit (.spec t) r = some (.hole t f :: ps) → read lit st ((.colon, [':']) :: r) = some (.hole t f :: ps)) →
      (∀ r, read lit .text r = some ps → read lit st ((.closeBrace, ['}']) :: r) = some (.hole t none :: ps)) →
      Reads lit src st (runStr next fuel' ⟨(renderFmt f ++ ['}']) ++ rest, pos', true, false⟩)
        (.hole t f :: ps) := by
    intro pre' pos' fuel' st h1 h2 h3 h4 h5 h6
    cases hfc : f with
    | none =>
      rw [hfc] at h1 h3 h4
      have := close pre' pos' fuel' false st none (by rw [h1]; simp [renderFmt]) h2 (by simp [renderFmt] at h3; omega)
        (by rw [hfc]; simp only [renderFmt, List.nil_append, bytes, b2] at h4; omega) h6
      simpa [renderFmt] using this
    | some g =>
      rw [hfc] at h1 h3 h4
      have := fmt g hfc pre' pos' fuel' st (by rw [h1]; simp [renderFmt]) h2 (by simp [renderFmt] at h3; omega)
        (by rw [hfc]; simp only [renderFmt, List.cons_append, bytes_append, bytes, b2, b3] at h4; omega) h5
      simpa [hfc, renderFmt] using this
  generalize hm : (renderFmt f ++ ['}']) = tl at tail
  have hr : renderHole t f = '{' :: (t ++ tl) := by unfold renderHole; rw [hm]
  have htl : ∃ r, tl ++ rest = ':' :: r ∨ tl ++ rest = '}' :: r := by
    rw [← hm]
    cases f <;> simp [renderFmt]
  rw [hr] at hs hf tail ⊢
  have e0 : '{' :: (t ++ tl) ++ rest = '{' :: (t ++ (tl ++ rest)) := by simp
  rw [e0] at hf ⊢
  have hne : ∀ r, t ++ (tl ++ rest) ≠ '{' :: r := by
    intro r he
    cases ht : t with
    | nil =>
      rw [ht] at he
      obtain ⟨q, hq⟩ := htl
      rcases hq with hq | hq <;> rw [List.nil_append, hq] at he <;> cases he
    | cons c t' =>
      rw [ht] at he
      cases he
      have := (ho.1 '{' (by simp [ht])).2
      simp at this
  rw [runStr_some (hx.opens _ pos hne) (by omega)]
  refine reads_cons (x := ['{']) (st' := .target) ?_ ?_ ?_ (ps := .hole t f :: ps)
  · refine text_at (mid := ['{']) (post := t ++ (tl ++ (rest ++ post))) ?_ hp (by simp only [bytes, b1])
    rw [hs]; simp
  · cases ht : t with
    | nil =>
      rw [ht] at hs hf tail
      simp only [List.nil_append] at hs hf tail ⊢
      have := tail (pre ++ ['{']) (pos + 1) (fuel - 1) .target (by rw [hs]; simp) (by rw [bytes_append, hp]; simp only [bytes, b1]; omega)
        (by simp at hf ⊢; omega) (by simp only [bytes, b1]; omega) (fun r hr => by simpa [read] using hr)
        (fun r hr => by simp [read, hr])
      exact this
    | cons c t' =>
      rw [ht] at hs hf tail ho
      rw [List.cons_append]
      rw [runStr_some (hx.target c t' (tl ++ rest) (pos + 1) ?_ htl) (by simp at hf ⊢; omega)]
      · refine reads_cons (x := c :: t') (st' := .after (c :: t')) (ps := .hole (c :: t') f :: ps) ?_ ?_ ?_
        · refine text_at (pre := pre ++ ['{']) (mid := c :: t') (post := tl ++ (rest ++ post)) ?_ ?_ rfl
          · rw [hs]; simp
          · rw [bytes_append, hp]; simp only [bytes, b1]; omega
        · refine tail (pre ++ ('{' :: c :: t')) (pos + 1 + bytes (c :: t')) (fuel - 1 - 1) (.after (c :: t')) (by rw [hs]; simp) ?_ ?_ ?_
            (fun r hr => by simpa [read] using hr) (fun r hr => by simp [read, hr])
          · rw [bytes_append, hp]; simp only [bytes, b1]; omega
          · simp at hf ⊢; omega
          · simp only [bytes, bytes_append, List.cons_append, b1]; omega
        · intro r hr; simpa [read] using hr
      · intro x hxm
        have := ho.1 x hxm
        simp only [List.mem_cons, List.not_mem_nil, or_false, not_or] at this ⊢
        exact ⟨this.1, this.2.1, this.2.2.1, this.2.2.2.1, this.2.2.2.2.1⟩
  · intro r hr; simpa [read] using hr

/-! ## Plain strings -/

/-- The pieces up to the first brace or interpolation. -/
theorem split_plain (ps : List Piece) : ∃ (run : List Char) (ps' : List Piece), ps = run.map Piece.ch ++ ps' ∧ (∀ c ∈ run, c ≠ '{' ∧ c ≠ '}') ∧
    (ps' = [] ∨ (∃ c q, ps' = .ch c :: q ∧ (c = '{' ∨ c = '}')) ∨ ∃ t f q, ps' = .hole t f :: q) := by
  induction ps with
  | nil => exact ⟨[], [], rfl, by simp, Or.inl rfl⟩
  | cons p ps ih =>
    cases p with
    | hole t f => exact ⟨[], _, rfl, by simp, Or.inr (Or.inr ⟨t, f, ps, rfl⟩)⟩
    | ch c =>
      by_cases hc : c = '{' ∨ c = '}'
      · exact ⟨[], _, rfl, by simp, Or.inr (Or.inl ⟨c, ps, rfl, hc⟩)⟩
      · obtain ⟨run, ps', h1, h2, h3⟩ := ih
        refine ⟨c :: run, ps', by simp [h1], ?_, h3⟩
        intro x hx
        rcases List.mem_cons.mp hx with rfl | hx
        · exact not_or.mp hc
        · exact h2 x hx

theorem render_append (esc : Char → List Char) (a b : List Piece) : render esc (a ++ b) = render esc a ++ render esc b := by
  induction a with
  | nil => rfl
  | cons p a ih => cases p <;> simp [render, ih]

theorem render_chars (esc : Char → List Char) (cs : List Char) : render esc (cs.map Piece.ch) = cs.flatMap esc := by
  induction cs with
  | nil => rfl
  | cons c cs ih => simp [render, ih]

theorem plain_run {run : List Char} (h : ∀ c ∈ run, c ≠ '{' ∧ c ≠ '}') : run.flatMap plainChar = run := by
  induction run with
  | nil => rfl
  | cons c run ih =>
    have := h c (by simp)
    simp [plainChar, this, ih (fun x hx => h x (by simp [hx]))]

theorem plainSafe_append {b : Bool} {run : List Char} {ps : List Piece} (h : PlainSafe b (run.map Piece.ch ++ ps)) :
    run = [] ∧ PlainSafe b ps ∨ PlainSafe false ps := by
  induction run generalizing b with
  | nil => exact Or.inl ⟨rfl, h⟩
  | cons c run ih =>
    rcases ih h.2 with ⟨_, h⟩ | h
    · exact Or.inr h
    · exact Or.inr h

theorem plainSafe_weaken {ps : List Piece} (h : PlainSafe true ps) : PlainSafe false ps := by
  cases ps with
  | nil => trivial
  | cons p ps => cases p with
    | ch c => exact ⟨by simp, h.2⟩
    | hole t f => exact h

theorem plain_reads {cc : CharClass} (hcc : cc.Sane) (src : List Char) (off n : Nat) :
    ∀ (ps : List Piece) (pre post : List Char) (fuel pos : Nat), ps.length ≤ n → Holes cc ps → PlainSafe false ps →
    src = pre ++ (render plainChar ps ++ post) → bytes pre = pos + off → (render plainChar ps).length < fuel →
    Reads some src .text (runStr (strNext cc off) fuel ⟨render plainChar ps, pos, false, false⟩) ps := by
  obtain ⟨b1, b2, b3, _⟩ := one_byte
  induction n with
  | zero =>
    intro ps pre post fuel pos hn _ _ _ _ hf
    have : ps = [] := List.length_eq_zero_iff.mp (by omega)
    subst this
    obtain ⟨k, rfl⟩ : ∃ k, fuel = k + 1 := ⟨fuel - 1, by omega⟩
    refine ⟨[], ?_, rfl⟩
    simp [runStr, render, strNext, skipWs, withText]
  | succ n ih =>
    intro ps pre post fuel pos hn hho hsafe hs hp hf
    cases ps with
    | nil =>
      obtain ⟨k, rfl⟩ : ∃ k, fuel = k + 1 := ⟨fuel - 1, by omega⟩
      refine ⟨[], ?_, rfl⟩
      simp [runStr, render, strNext, skipWs, withText]
    | cons p ps =>
      have hho' : Holes cc ps := fun t f h => hho t f (by simp [h])
      simp only [List.length_cons] at hn
      cases p with
      | hole t f =>
        have hclash : ¬ ∃ r, render plainChar ps = '}' :: r := by
          rintro ⟨r, hr⟩
          cases ps with
          | nil => simp [render] at hr
          | cons q qs =>
            cases q with
            | hole t f => simp [render, renderHole] at hr
            | ch c =>
              have hc := hsafe.1 rfl
              simp only [render, plainChar] at hr
              split at hr
              · next h =>
                rcases h with rfl | rfl
                · simp at hr
                · exact hc rfl
              · simp at hr; exact hc hr.1
        simp only [render] at hs hf ⊢
        refine hole_reads (strNext_lexes hcc off) (hho t f (by simp)) hclash (post := post) (pre := pre) (by rw [hs]; simp) hp hf ?_
        intro fuel' hf'
        refine ih ps (pre ++ renderHole t f) post fuel' _ (by omega) hho' (plainSafe_weaken hsafe) (by rw [hs]; simp) ?_ hf'
        rw [bytes_append, hp]; omega
      | ch c =>
        by_cases hc : c = '{' ∨ c = '}'
        · -- a doubled brace
          have hr : render plainChar (.ch c :: ps) = c :: c :: render plainChar ps := by simp [render, plainChar, hc]
          rw [hr] at hs hf ⊢
          have hnext : strNext cc off ⟨c :: c :: render plainChar ps, pos, false, false⟩ =
              some (⟨if c = '{' then .stringEscapedOpen else .stringEscapedClose, pos + off, pos + bytes [c, c] + off⟩,
                ⟨render plainChar ps, pos + bytes [c, c], false, false⟩) := by
            rcases hc with rfl | rfl <;> rfl
          rw [runStr_some hnext (by omega)]
          have htext : text src ⟨if c = '{' then Kind.stringEscapedOpen else .stringEscapedClose, pos + off, pos + bytes [c, c] + off⟩ =
              some [c, c] := text_at (mid := [c, c]) (post := render plainChar ps ++ post) (by rw [hs]; simp) hp rfl
          refine reads_cons htext (ih ps (pre ++ [c, c]) post (fuel - 1) _ (by omega) hho' hsafe.2 (by rw [hs]; simp)
            (by rw [bytes_append, hp]; omega) (by simp at hf; omega)) ?_
          intro r hq
          rcases hc with rfl | rfl <;> simp [read, hq]
        · -- a run of other characters
          obtain ⟨run, ps', h1, h2, h3⟩ := split_plain ps
          subst h1
          have hr : render plainChar (.ch c :: (run.map Piece.ch ++ ps')) = c :: (run ++ render plainChar ps') := by
            simp [render, render_append, render_chars, plain_run h2, plainChar, hc]
          rw [hr] at hs hf ⊢
          have hstop : ∀ x r, render plainChar ps' = x :: r → literalStop x = false := by
            intro x r hx
            rcases h3 with h3 | ⟨c', q, h3, hc'⟩ | ⟨t, f, q, h3⟩
            · rw [h3] at hx; simp [render] at hx
            · rw [h3] at hx
              simp only [render, plainChar, hc', if_true, List.cons_append, List.cons.injEq] at hx
              rw [← hx.1]
              rcases hc' with rfl | rfl <;> simp [literalStop]
            · rw [h3] at hx
              simp only [render, renderHole, List.cons_append, List.cons.injEq] at hx
              rw [← hx.1]; simp [literalStop]
          have hcons : consume literalStop (run ++ render plainChar ps') (pos + c.utf8Size) =
              ⟨render plainChar ps', pos + bytes (c :: run)⟩ := by
            rw [consume_exact _ run _ _ (fun x hx => by simp [literalStop, h2 x hx]) hstop]
            simp only [bytes, Nat.add_assoc]
          have hnext : strNext cc off ⟨c :: (run ++ render plainChar ps'), pos, false, false⟩ =
              some (⟨.stringLiteralContent, pos + off, pos + bytes (c :: run) + off⟩,
                ⟨render plainChar ps', pos + bytes (c :: run), false, false⟩) := by
            unfold strNext
            simp only [skipWs, Bool.false_eq_true, if_false]
            rw [if_neg (not_or.mp hc).1, if_neg (not_or.mp hc).2, hcons]
          rw [runStr_some hnext (by omega)]
          have hsafe' : PlainSafe false ps' := by
            rcases plainSafe_append hsafe.2 with ⟨_, h⟩ | h <;> exact h
          refine reads_cons (x := c :: run) (text_at (mid := c :: run) (post := render plainChar ps' ++ post) (by rw [hs]; simp) hp rfl)
            (ih ps' (pre ++ (c :: run)) post (fuel - 1) _ (by simp at hn; omega)
              (fun t f h => hho' t f (by simp [h])) hsafe' (by rw [hs]; simp) (by rw [bytes_append, hp]; omega)
              (by simp at hf; omega)) ?_
          intro r hq
          simp [read, hq]

/-! ## C-strings -/

theorem cChar_denotes (cs : List Char) : Escape.Denotes (cs.flatMap cChar) cs := by
  induction cs with
  | nil => exact .nil
  | cons c cs ih =>
    rw [List.flatMap_cons]
    unfold cChar
    split
    · next h =>
      refine .simple ?_ ih
      rcases h with rfl | rfl | rfl | rfl <;> decide
    · next h => exact .plain (by intro e; exact h (by simp [e])) ih

theorem cLit_chars (cs : List Char) : cLit (cs.flatMap cChar) = some cs := by
  unfold cLit
  rw [Escape.decode_ok.mpr (cChar_denotes cs)]

theorem cLiteral_chars (cs rest : List Char) (l : Nat) (hr : rest = [] ∨ ∃ r, rest = '{' :: r) :
    cLiteral (cs.flatMap cChar ++ rest) l = ⟨rest, l + bytes (cs.flatMap cChar)⟩ := by
  have b5 : ('\\' : Char).utf8Size = 1 := rfl
  induction cs generalizing l with
  | nil =>
    rcases hr with rfl | ⟨r, rfl⟩
    · rfl
    · simp [cLiteral, bytes]
  | cons c cs ih =>
    rw [List.flatMap_cons]
    by_cases h : c = '{' ∨ c = '}' ∨ c = '"' ∨ c = '\\'
    · have : cChar c = ['\\', c] := by simp [cChar, h]
      rw [this]
      simp only [List.cons_append, List.nil_append]
      rw [cLiteral, ih]
      simp only [bytes, b5, Nat.add_assoc]
    · have : cChar c = [c] := by simp [cChar, h]
      rw [this]
      simp only [not_or] at h
      simp only [List.cons_append, List.nil_append]
      rw [cLiteral.eq_4 l c _ (by intro e; exact absurd e h.2.2.2) (by intro _ _ e; exact absurd e h.2.2.2),
        if_neg (by simp [h.1, h.2.1]), ih]
      simp only [bytes, Nat.add_assoc]

/-- The pieces up to the first interpolation. -/
theorem split_c (ps : List Piece) : ∃ (run : List Char) (ps' : List Piece), ps = run.map Piece.ch ++ ps' ∧ (ps' = [] ∨ ∃ t f q, ps' = .hole t f :: q) := by
  induction ps with
  | nil => exact ⟨[], [], rfl, Or.inl rfl⟩
  | cons p ps ih =>
    cases p with
    | hole t f => exact ⟨[], _, rfl, Or.inr ⟨t, f, ps, rfl⟩⟩
    | ch c =>
      obtain ⟨run, ps', h1, h3⟩ := ih
      exact ⟨c :: run, ps', by simp [h1], h3⟩

theorem cSafe_append {run : List Char} {ps : List Piece} (h : CSafe false (run.map Piece.ch ++ ps)) : CSafe false ps := by
  induction run with
  | nil => exact h
  | cons c run ih => exact ih h.2

theorem c_reads {cc : CharClass} (hcc : cc.Sane) (src : List Char) (off n : Nat) :
    ∀ (ps : List Piece) (pre post : List Char) (fuel pos : Nat), ps.length ≤ n → Holes cc ps → CSafe true ps →
    src = pre ++ (render cChar ps ++ post) → bytes pre = pos + off → (render cChar ps).length < fuel →
    Reads cLit src .text (runStr (cstrNext cc off) fuel ⟨render cChar ps, pos, false, false⟩) ps := by
  have b5 : ('\\' : Char).utf8Size = 1 := rfl
  have b6 : ('"' : Char).utf8Size = 1 := rfl
  induction n with
  | zero =>
    intro ps pre post fuel pos hn _ _ _ _ hf
    have : ps = [] := List.length_eq_zero_iff.mp (by omega)
    subst this
    obtain ⟨k, rfl⟩ : ∃ k, fuel = k + 1 := ⟨fuel - 1, by omega⟩
    refine ⟨[], ?_, rfl⟩
    simp [runStr, render, cstrNext, skipWs, withText]
  | succ n ih =>
    intro ps pre post fuel pos hn hho hsafe hs hp hf
    cases ps with
    | nil =>
      obtain ⟨k, rfl⟩ : ∃ k, fuel = k + 1 := ⟨fuel - 1, by omega⟩
      refine ⟨[], ?_, rfl⟩
      simp [runStr, render, cstrNext, skipWs, withText]
    | cons p ps =>
      have hho' : Holes cc ps := fun t f h => hho t f (by simp [h])
      simp only [List.length_cons] at hn
      cases p with
      | hole t f =>
        simp only [render] at hs hf ⊢
        refine hole_reads (cstrNext_lexes hcc off) (hho t f (by simp)) (by simp) (post := post) (pre := pre) (by rw [hs]; simp) hp hf ?_
        intro fuel' hf'
        refine ih ps (pre ++ renderHole t f) post fuel' _ (by omega) hho' hsafe (by rw [hs]; simp) ?_ hf'
        rw [bytes_append, hp]; omega
      | ch c =>
        obtain ⟨run, ps', h1, h3⟩ := split_c ps
        subst h1
        have hcc' := hsafe.1 rfl
        simp only [List.mem_cons, List.not_mem_nil, or_false, not_or] at hcc'
        have hr : render cChar (.ch c :: (run.map Piece.ch ++ ps')) = (c :: run).flatMap cChar ++ render cChar ps' := by
          simp [render, render_append, render_chars]
        rw [hr] at hs hf ⊢
        have hstop : render cChar ps' = [] ∨ ∃ r, render cChar ps' = '{' :: r := by
          rcases h3 with h3 | ⟨t, f, q, h3⟩
          · left; rw [h3]; rfl
          · right; rw [h3]; exact ⟨_, rfl⟩
        have hnext : cstrNext cc off ⟨(c :: run).flatMap cChar ++ render cChar ps', pos, false, false⟩ =
            some (⟨.stringLiteralContent, pos + off, pos + bytes ((c :: run).flatMap cChar) + off⟩,
              ⟨render cChar ps', pos + bytes ((c :: run).flatMap cChar), false, false⟩) := by
          unfold cstrNext
          simp only [skipWs, Bool.false_eq_true, if_false]
          rw [List.flatMap_cons]
          by_cases hq : c = '"'
          · subst hq
            have e : cChar '"' = ['\\', '"'] := rfl
            rw [e]
            simp only [List.cons_append, List.nil_append]
            rw [if_neg (by decide), if_neg (by simp)]
            rw [cLiteral.eq_4 _ '"' _ (by simp) (by simp), if_neg (by decide), cLiteral_chars _ _ _ hstop]
            simp only [bytes, b5, b6]
            have : pos + 1 + 1 + bytes (List.flatMap cChar run) = pos + (1 + (1 + bytes (List.flatMap cChar run))) := by omega
            rw [this]
          · have e : cChar c = [c] := by simp [cChar, hcc', hq]
            rw [e]
            simp only [List.cons_append, List.nil_append]
            rw [if_neg hcc'.1, if_neg (by simp)]
            rw [cLiteral_chars _ _ _ hstop]
            simp only [bytes, Nat.add_assoc]
        have hlen : 0 < ((c :: run).flatMap cChar).length := by
          rw [List.flatMap_cons]; unfold cChar; split <;> simp
        have hpos : 0 < fuel := by omega
        rw [runStr_some hnext hpos]
        have hafter : Reads cLit src .text (runStr (cstrNext cc off) (fuel - 1)
            ⟨render cChar ps', pos + bytes ((c :: run).flatMap cChar), false, false⟩) ps' := by
          refine ih ps' (pre ++ (c :: run).flatMap cChar) post (fuel - 1) _ (by simp at hn; omega)
            (fun t f h => hho' t f (by simp [h])) ?_ (by rw [hs]; simp) (by rw [bytes_append, hp]; omega)
            (by rw [List.length_append] at hf; omega)
          rcases h3 with h3 | ⟨t, f, q, h3⟩
          · rw [h3]; trivial
          · have := cSafe_append hsafe.2
            rw [h3] at this ⊢
            exact this
        refine reads_cons (x := (c :: run).flatMap cChar)
          (text_at (mid := (c :: run).flatMap cChar) (post := render cChar ps' ++ post) (by rw [hs]; simp) hp rfl) hafter ?_
        intro r hq
        simp only [read, cLit_chars]
        simp [hq]

/-! ## Whole literals -/

theorem tokens_single {cc : CharClass} {c : Char} {cs : List Char} {t : Tok} {buf : List Tok} {l : Nat}
    (h : dispatch cc none false 0 c cs (0 + c.utf8Size) = (t, buf, ⟨[], l⟩)) : tokens cc (c :: cs) = some (t :: buf) := by
  have hg := dispatch_good (cc := cc) (last := none) (ws := false) (p := 0) (c := c) (chars := cs)
  rw [h] at hg
  obtain ⟨taken, ⟨h1, _⟩, h3⟩ := hg
  have hlen := h3.length_le
  dsimp only at h1 h3 hlen
  simp only [List.append_nil] at h1
  subst h1
  simp only [List.length_cons, List.length_append, List.length_nil] at hlen
  unfold tokens
  rw [run]
  have hn : ∃ last ws, next cc (St.init (c :: cs)) = some (t, ⟨[], l, last, ws, buf⟩) := by
    unfold next St.init
    dsimp only
    rw [h]
    dsimp only
    split
    · exact ⟨_, _, rfl⟩
    · split
      · exact ⟨_, _, rfl⟩
      · exact ⟨_, _, rfl⟩
  obtain ⟨last, ws, hn⟩ := hn
  rw [hn]
  dsimp only
  obtain ⟨k, hk⟩ : ∃ k, (c :: cs).length = (k + 1) + buf.length := ⟨cs.length - buf.length, by simp only [List.length_cons]; omega⟩
  rw [hk]
  obtain ⟨last', ws', hr⟩ := run_buffer cc buf (k + 1) ⟨[], l, last, ws, buf⟩ rfl
  rw [hr]
  simp [run, next]

theorem dqLoop_plain (content rest : List Char) (l : Nat) (h : '"' ∉ content) :
    dqLoop false (content ++ '"' :: rest) l = (content, ⟨rest, l + bytes content + 1⟩, true) := by
  have b5 : ('\\' : Char).utf8Size = 1 := rfl
  induction content generalizing l with
  | nil => simp [dqLoop, bytes]
  | cons c cs ih =>
    simp only [List.mem_cons, not_or] at h
    by_cases hc : c = '\\'
    · subst hc
      cases cs with
      | nil => simp [dqLoop, bytes, b5]
      | cons d ds =>
        have := ih (l + 1) h.2
        simp only [List.cons_append] at this ⊢
        rw [dqLoop]
        simp only [Bool.false_eq_true, if_false, this, bytes, b5, Nat.add_assoc]
    · rw [List.cons_append, dqLoop.eq_5 _ _ _ _ (by intro e; exact absurd e.symm h.1) (by intro e; exact absurd e hc)
        (by intro _ _ e; exact absurd e hc), ih _ h.2]
      simp only [bytes, Nat.add_assoc]

/-- Content of a c-string: no quote and no single backslash. -/
inductive Esc : List Char → Bool → Prop
  | nil : Esc [] false
  | plain {c cs b} : c ≠ '"' → c ≠ '\\' → Esc cs b → Esc (c :: cs) ((c = '{' || c = '}') || b)
  | pair {c cs b} : Esc cs b → Esc ('\\' :: c :: cs) b

theorem Esc.append {a b x y} (ha : Esc a x) (hb : Esc b y) : Esc (a ++ b) (x || y) := by
  induction ha with
  | nil => simpa using hb
  | @plain c cs b h1 h2 _ ih => rw [Bool.or_assoc]; exact .plain h1 h2 ih
  | pair _ ih => exact .pair ih

theorem Esc.of_plain {a : List Char} (h : ∀ c ∈ a, c ≠ '"' ∧ c ≠ '\\') : ∃ x, Esc a x := by
  induction a with
  | nil => exact ⟨_, .nil⟩
  | cons c a ih =>
    obtain ⟨x, hx⟩ := ih fun y hy => h y (by simp [hy])
    exact ⟨_, .plain (h c (by simp)).1 (h c (by simp)).2 hx⟩

theorem dqLoop_esc {content : List Char} {x : Bool} (h : Esc content x) (rest : List Char) (l : Nat) :
    dqLoop true (content ++ '"' :: rest) l = (content, ⟨rest, l + bytes content + 1⟩, true) := by
  have b5 : ('\\' : Char).utf8Size = 1 := rfl
  induction h generalizing l with
  | nil => simp [dqLoop, bytes]
  | @plain c cs b h1 h2 _ ih =>
    rw [List.cons_append, dqLoop.eq_5 _ _ _ _ (by intro e; exact absurd e h1) (by intro e; exact absurd e h2)
      (by intro _ _ e; exact absurd e h2), ih]
    simp only [bytes, Nat.add_assoc]
  | @pair c cs b _ ih =>
    simp only [List.cons_append]
    rw [dqLoop]
    simp only [if_true, ih, bytes, b5, Nat.add_assoc]

theorem hasUnescapedBraces_esc {content : List Char} {x : Bool} (h : Esc content x) : hasUnescapedBraces content = x := by
  induction h with
  | nil => rfl
  | @plain c cs b h1 h2 _ ih =>
    rw [hasUnescapedBraces.eq_4 _ _ (by intro e; exact absurd e h2) (by intro _ _ e; exact absurd e h2), ih]
  | @pair c cs b _ ih =>
    rw [hasUnescapedBraces]
    exact ih

def isHole : Piece → Bool
  | .ch _ => false
  | .hole _ _ => true

theorem renderHole_esc {cc : CharClass} {t : List Char} {f : Option (List Char)} (h : HoleOk cc t f) : Esc (renderHole t f) true := by
  have hall : ∀ c ∈ t ++ (renderFmt f ++ ['}']), c ≠ '"' ∧ c ≠ '\\' := by
    intro c hc
    simp only [List.mem_append, List.mem_singleton] at hc
    rcases hc with hc | hc | hc
    · have := (h.1 c hc).2
      simp at this
      exact ⟨this.2.2.2.2.1, this.2.2.2.2.2⟩
    · cases f with
      | none => simp [renderFmt] at hc
      | some g =>
        simp only [renderFmt, List.mem_cons] at hc
        rcases hc with rfl | hc
        · decide
        · have := (h.2 g rfl).1 c hc
          simp at this
          exact ⟨this.2.2.2.1, this.2.2.2.2⟩
    · subst hc; decide
  obtain ⟨x, hx⟩ := Esc.of_plain hall
  have := Esc.plain (c := '{') (by decide) (by decide) hx
  simpa [renderHole] using this

theorem render_esc {cc : CharClass} {ps : List Piece} (h : Holes cc ps) : Esc (render cChar ps) (ps.any isHole) := by
  induction ps with
  | nil => exact .nil
  | cons p ps ih =>
    have ih := ih fun t f hm => h t f (by simp [hm])
    cases p with
    | hole t f => exact (renderHole_esc (h t f (by simp))).append ih
    | ch c =>
      simp only [render, List.any_cons, isHole, Bool.false_or]
      by_cases hc : c = '{' ∨ c = '}' ∨ c = '"' ∨ c = '\\'
      · rw [show cChar c = ['\\', c] by simp [cChar, hc]]
        exact .pair ih
      · rw [show cChar c = [c] by simp [cChar, hc]]
        simp only [not_or] at hc
        have := Esc.plain hc.2.2.1 hc.2.2.2 ih
        simpa [hc.1, hc.2.1] using this

theorem all_chars_of_no_hole {ps : List Piece} (h : ps.any isHole = false) : ∃ cs : List Char, ps = cs.map Piece.ch := by
  induction ps with
  | nil => exact ⟨[], rfl⟩
  | cons p ps ih =>
    simp only [List.any_cons, Bool.or_eq_false_iff] at h
    obtain ⟨cs, hcs⟩ := ih h.2
    cases p with
    | ch c => exact ⟨c :: cs, by simp [hcs]⟩
    | hole t f => simp [isHole] at h

theorem stripQuote_concat (cs : List Char) : stripQuote (cs ++ ['"']) = some cs := by
  induction cs with
  | nil => rfl
  | cons c cs ih =>
    cases cs with
    | nil => simp [stripQuote]
    | cons d ds =>
      simp only [List.cons_append] at ih ⊢
      rw [stripQuote.eq_4 _ _ (by simp) (by simp), ih]
      rfl

theorem withText_append {src : List Char} {a b : List Tok} {x y : List (Kind × List Char)} (ha : withText src a = some x)
    (hb : withText src b = some y) : withText src (a ++ b) = some (x ++ y) := by
  induction a generalizing x with
  | nil => cases ha; simpa using hb
  | cons t a ih =>
    simp only [List.cons_append, withText, Option.bind_eq_some_iff, Option.map_eq_some_iff] at ha ⊢
    obtain ⟨z, h1, w, h2, rfl⟩ := ha
    exact ⟨z, h1, w ++ y, ih h2, rfl⟩

theorem text_whole (src : List Char) (k : Kind) : text src ⟨k, 0, bytes src⟩ = some src := by
  have := text_mid [] src [] k
  simpa [bytes] using this

/-- A pattern from the quote on: what is between the delimiters is read. -/
theorem pattern_meaning {lit : List Char → Option (List Char)} {e : Kind} {src pre content : List Char} {toks : List Tok}
    {ps : List Piece} {k : Kind} {i : Nat} (hs : src = pre ++ (content ++ ['"'])) (hi : i = bytes pre + bytes content)
    (hr : Reads lit src .text toks ps) :
    ∃ r, withText src (⟨k, 0, bytes pre⟩ :: (toks ++ [⟨e, i, i + 1⟩])) = some ((k, pre) :: r) ∧ readPattern lit e r = some ps := by
  obtain ⟨kts, h1, h2⟩ := hr
  have hstart : text src ⟨k, 0, bytes pre⟩ = some pre := by
    have := text_mid [] pre (content ++ ['"']) k
    rw [hs]
    simpa [bytes] using this
  have hend : text src ⟨e, i, i + 1⟩ = some ['"'] := by
    have := text_mid (pre ++ content) ['"'] [] e
    have b4 : ('"' : Char).utf8Size = 1 := rfl
    rw [hs, hi, ← bytes_append]
    simpa [bytes, b4] using this
  refine ⟨kts ++ [(e, ['"'])], ?_, ?_⟩
  · have : withText src [⟨e, i, i + 1⟩] = some [(e, ['"'])] := by simp [withText, hend]
    have := withText_append h1 this
    simp [withText, hstart, this]
  · unfold readPattern
    simp [h2]

theorem noquote_render {cc : CharClass} {ps : List Piece} (h : Holes cc ps) (hq : ∀ c, Piece.ch c ∈ ps → c ≠ '"') :
    '"' ∉ render plainChar ps := by
  induction ps with
  | nil => simp [render]
  | cons p ps ih =>
    have ih := ih (fun t f hm => h t f (by simp [hm])) (fun c hm => hq c (by simp [hm]))
    cases p with
    | ch c =>
      have := hq c (by simp)
      simp only [render, plainChar]
      split <;> simp [ih, Ne.symm this]
    | hole t f =>
      obtain ⟨h1, h2⟩ := h t f (by simp)
      simp only [render, List.mem_append, not_or]
      refine ⟨?_, ih⟩
      simp only [renderHole, List.mem_cons, List.mem_append, not_or]
      refine ⟨by decide, ?_, ⟨?_, by decide⟩⟩
      · intro hm; have := (h1 '"' hm).2; simp at this
      · cases f with
        | none => simp [renderFmt]
        | some g =>
          simp only [renderFmt, List.mem_cons, not_or]
          exact ⟨by decide, fun hm => by have := (h2 g rfl).1 '"' hm; simp at this⟩

theorem render_has_brace (ps : List Piece) :
    ((render plainChar ps).contains '{' || (render plainChar ps).contains '}') = false →
    ∃ cs : List Char, ps = cs.map Piece.ch ∧ render plainChar ps = cs := by
  induction ps with
  | nil => intro _; exact ⟨[], rfl, rfl⟩
  | cons p ps ih =>
    intro h
    cases p with
    | hole t f => simp [render, renderHole] at h
    | ch c =>
      simp only [render, plainChar] at h
      split at h
      · next hc => rcases hc with rfl | rfl <;> simp at h
      · next hc =>
        have h' : ((render plainChar ps).contains '{' || (render plainChar ps).contains '}') = false := by
          simp at h ⊢
          exact ⟨h.1.2, h.2.2⟩
        obtain ⟨cs, h1, h2⟩ := ih h'
        exact ⟨c :: cs, by simp [h1], by simp [render, plainChar, hc, h2]⟩

theorem dispatch_letter {cc : CharClass} {c : Char} {chars : List Char} {loc : Nat} (h : isNormalStart cc c = true)
    (hc : c ∈ ['c', 'r']) : dispatch cc none false 0 c chars loc = normal cc 0 c chars loc := by
  simp only [List.mem_cons, List.not_mem_nil, or_false] at hc
  rcases hc with rfl | rfl <;> simp [dispatch, isAsciiDigit, h]

/-! ## C46: string literals mean what they say -/

/-- A plain string: text with doubled braces, and interpolations, is read back, provided no interpolation is directly
followed by a (doubled) closing brace.  Missing: that case, see `plain_brace_lost`. -/
theorem plain_roundtrip_partial {cc : CharClass} (hcc : cc.Sane) {ps : List Piece} (hh : Holes cc ps)
    (hq : ∀ c, Piece.ch c ∈ ps → c ≠ '"') (hsafe : PlainSafe false ps) :
    ∃ ts kts, tokens cc ('"' :: (render plainChar ps ++ ['"'])) = some ts ∧
      withText ('"' :: (render plainChar ps ++ ['"'])) ts = some kts ∧ meaning kts = some ps := by
  have b4 : ('"' : Char).utf8Size = 1 := rfl
  have hd : dispatch cc none false 0 '"' (render plainChar ps ++ ['"']) (0 + '"'.utf8Size) =
      dquote cc .plain 0 0 (render plainChar ps ++ ['"']) 1 := by rfl
  have hl := dqLoop_plain (render plainChar ps) [] 1 (noquote_render hh hq)
  unfold dquote at hd
  have e : decide (Prefix.plain = Prefix.c) = false := rfl
  rw [e, hl] at hd
  dsimp only at hd
  rw [if_neg (by simp), if_neg (by simp), if_neg (show ¬ (Prefix.plain = Prefix.c) by decide)] at hd
  cases hb : ((render plainChar ps).contains '{' || (render plainChar ps).contains '}') with
  | false =>
    rw [hb, if_neg (by simp)] at hd
    refine ⟨_, [(.string, '"' :: (render plainChar ps ++ ['"']))], tokens_single hd, ?_, ?_⟩
    · have : 1 + bytes (render plainChar ps) + 1 = bytes ('"' :: (render plainChar ps ++ ['"'])) := by
        simp only [bytes, bytes_append, b4]; omega
      rw [this]
      simp [withText, text_whole, simpleKind]
    · obtain ⟨cs, h1, h2⟩ := render_has_brace ps hb
      rw [h2]
      simp [meaning, stripQuote_concat, h1]
  | true =>
    rw [hb, if_pos rfl] at hd
    have hr : Reads some ('"' :: (render plainChar ps ++ ['"'])) .text (patternToks cc false (render plainChar ps) (0 + 1)) ps :=
      plain_reads hcc _ (0 + 1) ps.length ps ['"'] ['"'] _ 0 (Nat.le_refl _) hh hsafe (by simp) (by simp only [bytes, b4])
        (Nat.lt_succ_self _)
    obtain ⟨r, h1, h2⟩ := pattern_meaning (k := .stringPatternStart) (e := .stringPatternEnd) (pre := ['"'])
      (i := 1 + bytes (render plainChar ps)) rfl (by simp only [bytes, b4]) hr
    refine ⟨_, _, tokens_single hd, h1, ?_⟩
    simpa [meaning] using h2

/-- A raw string: the same. -/
theorem raw_roundtrip_partial {cc : CharClass} (hcc : cc.Sane) {ps : List Piece} (hh : Holes cc ps)
    (hq : ∀ c, Piece.ch c ∈ ps → c ≠ '"') (hsafe : PlainSafe false ps) :
    ∃ ts kts, tokens cc ('r' :: '"' :: (render plainChar ps ++ ['"'])) = some ts ∧
      withText ('r' :: '"' :: (render plainChar ps ++ ['"'])) ts = some kts ∧ meaning kts = some ps := by
  have b4 : ('"' : Char).utf8Size = 1 := rfl
  have b7 : ('r' : Char).utf8Size = 1 := rfl
  have hns : isNormalStart cc 'r' = true := by simp [isNormalStart, hcc.alphabetic 'r' (by simp)]
  have hnc : isNormalContinuation cc '"' = false := by simp [isNormalContinuation, hcc.notAlphanumeric]
  have hd : dispatch cc none false 0 'r' ('"' :: (render plainChar ps ++ ['"'])) (0 + 'r'.utf8Size) =
      dquote cc .raw 0 1 (render plainChar ps ++ ['"']) 2 := by
    rw [dispatch_letter hns (by simp)]
    unfold normal
    simp only [consume, hnc, Bool.false_eq_true, if_false]
    rfl
  have hl := dqLoop_plain (render plainChar ps) [] 2 (noquote_render hh hq)
  unfold dquote at hd
  have e : decide (Prefix.raw = Prefix.c) = false := rfl
  rw [e, hl] at hd
  dsimp only at hd
  rw [if_neg (by simp), if_neg (by simp), if_neg (show ¬ (Prefix.raw = Prefix.c) by decide)] at hd
  cases hb : ((render plainChar ps).contains '{' || (render plainChar ps).contains '}') with
  | false =>
    rw [hb, if_neg (by simp)] at hd
    refine ⟨_, [(.rawString, 'r' :: '"' :: (render plainChar ps ++ ['"']))], tokens_single hd, ?_, ?_⟩
    · have : 2 + bytes (render plainChar ps) + 1 = bytes ('r' :: '"' :: (render plainChar ps ++ ['"'])) := by
        simp only [bytes, bytes_append, b4, b7]; omega
      rw [this]
      simp [withText, text_whole, simpleKind]
    · obtain ⟨cs, h1, h2⟩ := render_has_brace ps hb
      rw [h2]
      simp [meaning, stripQuote_concat, h1]
  | true =>
    rw [hb, if_pos rfl] at hd
    have hr : Reads some ('r' :: '"' :: (render plainChar ps ++ ['"'])) .text (patternToks cc false (render plainChar ps) (1 + 1)) ps :=
      plain_reads hcc _ (1 + 1) ps.length ps ['r', '"'] ['"'] _ 0 (Nat.le_refl _) hh hsafe (by simp) (by simp only [bytes, b4, b7])
        (Nat.lt_succ_self _)
    obtain ⟨r, h1, h2⟩ := pattern_meaning (k := .rawStringPatternStart) (e := .rawStringPatternEnd) (pre := ['r', '"'])
      (i := 2 + bytes (render plainChar ps)) rfl (by simp only [bytes, b4, b7]) hr
    refine ⟨_, _, tokens_single hd, h1, ?_⟩
    simpa [meaning] using h2

/-- A c-string: text with escaped braces, quotes and backslashes, and interpolations, is read back, provided there is no
interpolation or none of them is directly followed by a brace or a backslash, and the string does not begin with one.
Missing: those cases, see `c_interpolation_lost`, `c_escape_error`. -/
theorem c_roundtrip_partial {cc : CharClass} (hcc : cc.Sane) {ps : List Piece} (hh : Holes cc ps)
    (hsafe : ps.any isHole = false ∨ CSafe true ps) :
    ∃ ts kts, tokens cc ('c' :: '"' :: (render cChar ps ++ ['"'])) = some ts ∧
      withText ('c' :: '"' :: (render cChar ps ++ ['"'])) ts = some kts ∧ meaning kts = some ps := by
  have b4 : ('"' : Char).utf8Size = 1 := rfl
  have b7 : ('c' : Char).utf8Size = 1 := rfl
  have hns : isNormalStart cc 'c' = true := by simp [isNormalStart, hcc.alphabetic 'c' (by simp)]
  have hnc : isNormalContinuation cc '"' = false := by simp [isNormalContinuation, hcc.notAlphanumeric]
  have hesc := render_esc hh
  have hd : dispatch cc none false 0 'c' ('"' :: (render cChar ps ++ ['"'])) (0 + 'c'.utf8Size) =
      dquote cc .c 0 1 (render cChar ps ++ ['"']) 2 := by
    rw [dispatch_letter hns (by simp)]
    unfold normal
    simp only [consume, hnc, Bool.false_eq_true, if_false]
    rfl
  have hl := dqLoop_esc hesc [] 2
  unfold dquote at hd
  have e : decide (Prefix.c = Prefix.c) = true := rfl
  rw [e, hl] at hd
  dsimp only at hd
  rw [if_neg (by simp), if_neg (by simp), if_pos rfl, hasUnescapedBraces_esc hesc] at hd
  cases hb : ps.any isHole with
  | false =>
    rw [hb, if_neg (by simp)] at hd
    refine ⟨_, [(.cString, 'c' :: '"' :: (render cChar ps ++ ['"']))], tokens_single hd, ?_, ?_⟩
    · have : 2 + bytes (render cChar ps) + 1 = bytes ('c' :: '"' :: (render cChar ps ++ ['"'])) := by
        simp only [bytes, bytes_append, b4, b7]; omega
      rw [this]
      simp [withText, text_whole, simpleKind]
    · obtain ⟨cs, h1⟩ := all_chars_of_no_hole hb
      subst h1
      simp [meaning, stripQuote_concat, render_chars, cLit_chars]
  | true =>
    have hsafe : CSafe true ps := by
      rcases hsafe with h | h
      · rw [hb] at h; cases h
      · exact h
    rw [hb, if_pos rfl] at hd
    have hr : Reads cLit ('c' :: '"' :: (render cChar ps ++ ['"'])) .text (patternToks cc true (render cChar ps) (1 + 1)) ps :=
      c_reads hcc _ (1 + 1) ps.length ps ['c', '"'] ['"'] _ 0 (Nat.le_refl _) hh hsafe (by simp) (by simp only [bytes, b4, b7])
        (Nat.lt_succ_self _)
    obtain ⟨r, h1, h2⟩ := pattern_meaning (k := .cStringPatternStart) (e := .cStringPatternEnd) (pre := ['c', '"'])
      (i := 2 + bytes (render cChar ps)) rfl (by simp only [bytes, b4, b7]) hr
    refine ⟨_, _, tokens_single hd, h1, ?_⟩
    simpa [meaning] using h2

/-! ### The cases that fail -/

/-- What the source of a literal means to the program. -/
def meaningOf (cc : CharClass) (src : List Char) : Option (List Piece) :=
  (tokens cc src).bind fun ts => (withText src ts).bind meaning

/-- `"{x}}}"`, the interpolation of `x` and a closing brace: the brace is lost. -/
theorem plain_brace_lost : ∃ ps, Holes ascii ps ∧ (∀ c, Piece.ch c ∈ ps → c ≠ '"') ∧
    meaningOf ascii ('"' :: (render plainChar ps ++ ['"'])) = some [.hole ['x'] none] ∧ ps = [.hole ['x'] none, .ch '}'] := by
  refine ⟨_, ?_, ?_, ?_, rfl⟩
  · intro t f h
    simp only [List.mem_cons, Piece.hole.injEq, List.not_mem_nil, or_false, reduceCtorEq] at h
    obtain ⟨rfl, rfl⟩ := h
    exact ⟨by decide, by simp⟩
  · simp
  · decide +kernel

/-- `c"\\\\{x}"`, a backslash and the interpolation of `x`, becomes a text without interpolation. -/
theorem c_interpolation_lost : ∃ ps, Holes ascii ps ∧
    meaningOf ascii ('c' :: '"' :: (render cChar ps ++ ['"'])) = some [.ch '\\', .ch '{', .ch 'x', .ch '}'] ∧
    ps = [.ch '\\', .hole ['x'] none] := by
  refine ⟨_, ?_, ?_, rfl⟩
  · intro t f h
    simp only [List.mem_cons, Piece.hole.injEq, List.not_mem_nil, or_false, false_or, reduceCtorEq] at h
    obtain ⟨rfl, rfl⟩ := h
    exact ⟨by decide, by simp⟩
  · decide +kernel

/-- `c"{x}\\}"`, the interpolation of `x` and a closing brace, is rejected. -/
theorem c_escape_error : ∃ ps, Holes ascii ps ∧ meaningOf ascii ('c' :: '"' :: (render cChar ps ++ ['"'])) = none ∧
    ps = [.hole ['x'] none, .ch '}'] := by
  refine ⟨_, ?_, ?_, rfl⟩
  · intro t f h
    simp only [List.mem_cons, Piece.hole.injEq, List.not_mem_nil, or_false, reduceCtorEq] at h
    obtain ⟨rfl, rfl⟩ := h
    exact ⟨by decide, by simp⟩
  · decide +kernel

-- the hypotheses are met: `"a{{b{x}c{y:%d}"`, and the c-string `c"a\{b{x}"`
def samplePlain : List Piece := [.ch 'a', .ch '{', .ch 'b', .hole ['x'] none, .ch 'c', .hole ['y'] (some ['%', 'd'])]
def sampleC : List Piece := [.ch 'a', .ch '{', .ch 'b', .hole ['x'] none, .ch '"']

theorem samplePlain_holes : Holes ascii samplePlain := by
  intro t f h
  simp only [samplePlain, List.mem_cons, Piece.hole.injEq, List.not_mem_nil, or_false, false_or, reduceCtorEq] at h
  rcases h with ⟨rfl, rfl⟩ | ⟨rfl, rfl⟩
  · exact ⟨by decide, by simp⟩
  · refine ⟨by decide, fun g hg => ?_⟩
    cases hg
    exact ⟨by decide, '%', ['d'], rfl, by decide, by decide⟩

example : PlainSafe false samplePlain ∧ (∀ c, Piece.ch c ∈ samplePlain → c ≠ '"') := by
  simp [samplePlain, PlainSafe]
example : meaningOf ascii ('"' :: (render plainChar samplePlain ++ ['"'])) = some samplePlain := by decide +kernel
example : CSafe true sampleC := by simp [sampleC, CSafe]
example : meaningOf ascii ('c' :: '"' :: (render cChar sampleC ++ ['"'])) = some sampleC := by decide +kernel

end Verif.StrPat
