import Verif.FmtShift

/-!
# Proofs only.  The lexer without positions
-/

namespace Verif.Fmt

open Verif.Lex

/-- What the lexer remembers after a token it has just read. -/
def after (lw : Option Kind × Bool) (k : Kind) : Option Kind × Bool :=
  if k = .whitespace then (lw.1, true) else if !k.isTrivial then (some k, false) else lw
/-- What the lexer remembers after a token from its buffer. -/
def afterB (lw : Option Kind × Bool) (t : Tok) : Option Kind × Bool :=
  if !t.kind.isTrivial then (some t.kind, false) else lw
/-- What the lexer remembers after a token and those buffered with it. -/
def afterAll (last : Option Kind) (ws : Bool) (t : Tok) (buf : List Tok) : Option Kind × Bool :=
  buf.foldl afterB (after (last, ws) t.kind)

/-- The lexer, giving the tokens with their texts. -/
inductive Lexes (cc : CharClass) : Option Kind → Bool → List Char → List (Kind × List Char) → Prop
  | nil {last ws} : Lexes cc last ws [] []
  | step {last ws c mid rest t buf l ps} : dispatch cc last ws 0 c (mid ++ rest) c.utf8Size = (t, buf, ⟨rest, l⟩) →
      Lexes cc (afterAll last ws t buf).1 (afterAll last ws t buf).2 rest ps →
      Lexes cc last ws (c :: (mid ++ rest)) (pieces (c :: mid) (t :: buf) ++ ps)

theorem Lexes.det {cc last ws cs ps qs} (h : Lexes cc last ws cs ps) : Lexes cc last ws cs qs → ps = qs := by
  induction h generalizing qs with
  | nil => intro h2; cases h2; rfl
  | @step last ws c mid rest t buf l ps hd _ ih =>
    intro h2
    generalize hx : c :: (mid ++ rest) = x at h2
    cases h2 with
    | nil => cases hx
    | @step _ _ c2 mid2 rest2 t2 buf2 l2 ps2 hd2 hr2 =>
      simp only [List.cons.injEq] at hx
      obtain ⟨rfl, hx⟩ := hx
      rw [← hx, hd] at hd2
      simp only [Prod.mk.injEq, Cur.mk.injEq] at hd2
      obtain ⟨rfl, rfl, rfl, rfl⟩ := hd2
      have := List.append_cancel_right hx
      subst this
      rw [ih hr2]

theorem run_buffer' (cc : CharClass) (buf : List Tok) : ∀ (fuel : Nat) (s : St), s.buffer = buf →
    run cc (fuel + buf.length) s = (run cc fuel ⟨s.chars, s.loc, (buf.foldl afterB (s.last, s.ws)).1,
      (buf.foldl afterB (s.last, s.ws)).2, []⟩).map (buf ++ ·) := by
  induction buf with
  | nil =>
    intro fuel s hb
    have : s = ⟨s.chars, s.loc, s.last, s.ws, []⟩ := by cases s; simp_all
    simp only [List.foldl_nil, List.length_nil, Nat.add_zero]
    rw [← this]
    simp
  | cons t buf ih =>
    intro fuel s hb
    simp only [List.length_cons]
    rw [← Nat.add_assoc, run]
    have hn : next cc s = some (t, if !t.kind.isTrivial then { s with buffer := buf, last := some t.kind, ws := false }
        else { s with buffer := buf }) := by
      unfold next
      rw [hb]
    rw [hn]
    dsimp only
    have hf : (t :: buf).foldl afterB (s.last, s.ws) = buf.foldl afterB (afterB (s.last, s.ws) t) := rfl
    rw [hf]
    by_cases h : (!t.kind.isTrivial) = true
    · have ha : afterB (s.last, s.ws) t = (some t.kind, false) := by rw [afterB, if_pos h]
      rw [ha, if_pos h, ih fuel { s with buffer := buf, last := some t.kind, ws := false } rfl]
      simp [Option.map_map, Function.comp_def]
    · have ha : afterB (s.last, s.ws) t = (s.last, s.ws) := by rw [afterB, if_neg h]
      rw [ha, if_neg h, ih fuel { s with buffer := buf } rfl]
      simp [Option.map_map, Function.comp_def]

theorem tiles_pieces {ws m p cs ts m'} (h : Tiles ws m p cs ts m') : ∀ pre, p = bytes pre →
    (flat (pieces (pre ++ cs) ts)).Sublist cs ∧ ∀ t ∈ ts, ∃ a, text (pre ++ cs) t = some a ∧ a ≠ [] := by
  induction h with
  | nil => intro pre _; exact ⟨.slnil, by simp⟩
  | @tok m p cs rest k ts m' hne hal _ ih =>
    intro pre hp
    obtain ⟨h1, h3⟩ := ih (pre ++ cs) (by rw [bytes_append, hp])
    have ht : text (pre ++ (cs ++ rest)) ⟨k, p, p + bytes cs⟩ = some cs := by
      subst hp; exact text_mid pre cs rest k
    rw [List.append_assoc] at h1 h3
    refine ⟨?_, ?_⟩
    · unfold pieces flat at h1 ⊢
      rw [List.map_cons, List.flatMap_cons, ht]
      exact (List.Sublist.refl cs).append h1
    · intro t htm
      rcases List.mem_cons.mp htm with rfl | htm
      · exact ⟨cs, ht, hne⟩
      · exact h3 t htm
  | @gap p c rest ts m' hw _ ih =>
    intro pre hp
    obtain ⟨h1, h3⟩ := ih (pre ++ [c]) (by rw [bytes_append, hp]; rfl)
    simp only [List.append_assoc, List.cons_append, List.nil_append] at h1 h3
    exact ⟨h1.cons c, h3⟩

/-- The tokens of a call are in the text it takes. -/
theorem dispatch_pieces {cc : CharClass} {last : Option Kind} {ws : Bool} {c : Char} {mid rest : List Char} {t : Tok}
    {buf : List Tok} {l : Nat} (hd : dispatch cc last ws 0 c (mid ++ rest) c.utf8Size = (t, buf, ⟨rest, l⟩)) :
    (flat (pieces (c :: mid) (t :: buf))).Sublist (c :: mid) ∧
      (∀ u ∈ t :: buf, ∃ a, text (c :: mid) u = some a ∧ a ≠ []) ∧ l = bytes (c :: mid) ∧ buf.length ≤ mid.length := by
  have hg := dispatch_good (cc := cc) (last := last) (ws := ws) (p := 0) (c := c) (chars := mid ++ rest)
  rw [Nat.zero_add, hd] at hg
  obtain ⟨taken, ⟨h1, h2⟩, h3⟩ := hg
  dsimp only at h1 h2 h3
  have := List.append_cancel_right h1
  subst this
  obtain ⟨g1, g2⟩ := tiles_pieces h3 [] rfl
  refine ⟨g1, g2, by rw [h2]; simp [bytes], ?_⟩
  have := h3.length_le
  simp at this
  omega

theorem dispatch_mid (cc : CharClass) (last : Option Kind) (ws : Bool) (c : Char) (cs : List Char) :
    ∃ mid rest t buf l, cs = mid ++ rest ∧ dispatch cc last ws 0 c (mid ++ rest) c.utf8Size = (t, buf, ⟨rest, l⟩) := by
  have hg := dispatch_good (cc := cc) (last := last) (ws := ws) (p := 0) (c := c) (chars := cs)
  rw [Nat.zero_add] at hg
  cases hd : dispatch cc last ws 0 c cs c.utf8Size with
  | mk t r =>
    obtain ⟨buf, ch, l⟩ := r
    rw [hd] at hg
    obtain ⟨taken, ⟨h1, h2⟩, h3⟩ := hg
    dsimp only at h1
    exact ⟨taken, ch, t, buf, l, h1, by rw [← h1, hd]⟩

theorem pieces_more {a : List Char} {ts : List Tok} (h : ∀ t ∈ ts, ∃ x, text a t = some x ∧ x ≠ []) (b : List Char) :
    pieces (a ++ b) ts = pieces a ts := by
  unfold pieces
  refine List.map_congr_left fun t ht => ?_
  obtain ⟨x, hx, _⟩ := h t ht
  rw [hx, text_more b hx]

theorem pieces_up (pre cs : List Char) (ts : List Tok) : pieces (pre ++ cs) (ts.map (up (bytes pre))) = pieces cs ts := by
  unfold pieces
  rw [List.map_map]
  refine List.map_congr_left fun t _ => ?_
  simp only [Function.comp_apply, text_up]
  rfl

theorem run_lexes (cc : CharClass) (n : Nat) : ∀ (s : St) (fuel : Nat) (pre : List Char), s.buffer = [] →
    s.chars.length ≤ n → s.chars.length + 1 ≤ fuel → s.loc = bytes pre →
    ∃ ts, run cc fuel s = some ts ∧ Lexes cc s.last s.ws s.chars (pieces (pre ++ s.chars) ts) := by
  induction n with
  | zero =>
    intro s fuel pre hb hl hf _
    obtain ⟨fuel, rfl⟩ : ∃ f, fuel = f + 1 := ⟨fuel - 1, by omega⟩
    have hc : s.chars = [] := List.length_eq_zero_iff.mp (by omega)
    refine ⟨[], ?_, by rw [hc]; exact .nil⟩
    unfold run next
    rw [hb, hc]
  | succ n ih =>
    intro s fuel pre hb hl hf hloc
    obtain ⟨fuel, rfl⟩ : ∃ f, fuel = f + 1 := ⟨fuel - 1, by omega⟩
    cases hc : s.chars with
    | nil =>
      refine ⟨[], ?_, .nil⟩
      unfold run next
      rw [hb, hc]
    | cons c cs =>
      obtain ⟨mid, rest, t, buf, l, rfl, hd⟩ := dispatch_mid cc s.last s.ws c cs
      obtain ⟨_, htx, hlen, hbl⟩ := dispatch_pieces hd
      rw [hc] at hl hf
      simp only [List.length_cons, List.length_append] at hl hf
      have hd' : dispatch cc s.last s.ws s.loc c (mid ++ rest) (s.loc + c.utf8Size) =
          (up (bytes pre) t, buf.map (up (bytes pre)), ⟨rest, l + bytes pre⟩) := by
        have := dispatch_up cc s.last s.ws 0 (bytes pre) c (mid ++ rest) (l := c.utf8Size) (utf8Size_pos c)
        rw [hd, Nat.zero_add] at this
        rw [hloc, Nat.add_comm (bytes pre), this]
        rfl
      have hn : next cc s = some (up (bytes pre) t, ⟨rest, l + bytes pre, (after (s.last, s.ws) t.kind).1,
          (after (s.last, s.ws) t.kind).2, buf.map (up (bytes pre))⟩) := by
        unfold next
        rw [hb, hc]
        dsimp only
        rw [hd']
        dsimp only
        have hk : (up (bytes pre) t).kind = t.kind := rfl
        rw [hk]
        unfold after
        split
        · rfl
        · split <;> rfl
      unfold run
      rw [hn]
      dsimp only
      obtain ⟨k, rfl⟩ : ∃ k, fuel = k + (buf.map (up (bytes pre))).length := by
        rw [List.length_map]
        exact ⟨fuel - buf.length, by omega⟩
      rw [List.length_map] at hf
      have hrb := run_buffer' cc (buf.map (up (bytes pre))) k ⟨rest, l + bytes pre, (after (s.last, s.ws) t.kind).1,
          (after (s.last, s.ws) t.kind).2, buf.map (up (bytes pre))⟩ rfl
      have hfold : (buf.map (up (bytes pre))).foldl afterB ((after (s.last, s.ws) t.kind).1, (after (s.last, s.ws) t.kind).2) =
          afterAll s.last s.ws t buf := by
        rw [List.foldl_map]
        rfl
      dsimp only at hrb
      rw [hfold] at hrb
      obtain ⟨ts, hts, hlx⟩ := ih ⟨rest, l + bytes pre, (afterAll s.last s.ws t buf).1, (afterAll s.last s.ws t buf).2, []⟩ k
        (pre ++ (c :: mid)) rfl (by dsimp only; omega) (by dsimp only; omega)
        (by dsimp only; rw [hlen, bytes_append]; omega)
      refine ⟨up (bytes pre) t :: (buf.map (up (bytes pre)) ++ ts), ?_, ?_⟩
      · rw [hrb, hts]; rfl
      · have e : pieces (pre ++ c :: (mid ++ rest)) (up (bytes pre) t :: (buf.map (up (bytes pre)) ++ ts)) =
            pieces (c :: mid) (t :: buf) ++ pieces (pre ++ (c :: mid) ++ rest) ts := by
          have e1 : up (bytes pre) t :: (buf.map (up (bytes pre)) ++ ts) = (t :: buf).map (up (bytes pre)) ++ ts := rfl
          rw [e1]
          have e2 : ∀ a x y, pieces a (x ++ y) = pieces a x ++ pieces a y := by
            intro a x y; simp [pieces]
          rw [e2, pieces_up]
          have e3 : c :: (mid ++ rest) = (c :: mid) ++ rest := rfl
          rw [e3, pieces_more htx, List.append_assoc]
        rw [e]
        exact .step hd hlx

theorem tokens_lexes (cc : CharClass) (src : List Char) :
    ∃ ts, tokens cc src = some ts ∧ Lexes cc none false src (pieces src ts) :=
  run_lexes cc src.length (St.init src) (src.length + 1) [] rfl (Nat.le_refl _) (Nat.le_refl _) rfl

/-- What the lexer gives is what `Lexes` says. -/
theorem lexes_tokens {cc : CharClass} {src : List Char} {ps : List (Kind × List Char)} (h : Lexes cc none false src ps) :
    ∃ ts, tokens cc src = some ts ∧ pieces src ts = ps := by
  obtain ⟨ts, h1, h2⟩ := tokens_lexes cc src
  exact ⟨ts, h1, h2.det h⟩

end Verif.Fmt
