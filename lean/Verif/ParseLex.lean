import Verif.ParseElem
import Verif.LexProps

/-!
# What the lexer gives the parser
-/

namespace Verif.Parse

open Verif.Lex

/-- The tokens of a string pattern, as the parser needs them. -/
theorem runStr_strOk {cc : CharClass} {off : Nat} {next : SSt → Option (Tok × SSt)}
    (hs : ∀ s t s', next s = some (t, s') → Step cc off s t s') {e : Kind} (he : isPatternEnd e = true)
    (rest : List Kind) (fuel : Nat) : ∀ s : SSt,
    strOk e s.interp ((runStr next fuel s).map Tok.kind ++ e :: rest) = true ∧
    ∀ t ∈ runStr next fuel s, patternEnd t.kind = none := by
  have hend : ∀ b, strOk e b (e :: rest) = true := by intro b; cases b <;> simp [strOk]
  induction fuel with
  | zero => intro s; exact ⟨hend _, by simp [runStr]⟩
  | succ fuel ih =>
    intro s
    unfold runStr
    split
    · exact ⟨hend _, by simp⟩
    · rename_i t s' hx
      obtain ⟨h1, h2⟩ := (hs s t s' hx).mode
      obtain ⟨i1, i2⟩ := ih s'
      have hnone : patternEnd t.kind = none := by
        have : allowed (modeOf s) t.kind = true := h2
        unfold modeOf at this
        revert this
        split <;> cases t.kind <;> simp [allowed, patternEnd]
      refine ⟨?_, ?_⟩
      · rw [List.map_cons, List.cons_append]
        have hne : t.kind ≠ e := by
          intro hh
          have h1' := h1
          rw [hh] at h1'
          simp only [isPatternEnd, Bool.or_eq_true, decide_eq_true_eq] at he
          unfold modeOf at h1'
          rcases he with (rfl | rfl) | rfl <;> simp only [step] at h1' <;> revert h1' <;> split <;> simp
        unfold modeOf at h1 h2
        cases hi : s.interp with
        | false =>
          rw [hi] at h1 h2
          simp only [Bool.false_eq_true, if_false] at h1 h2
          simp only [strOk]
          rw [if_neg hne]
          cases hi' : s'.interp with
          | false =>
            rw [hi'] at h1 i1
            have hk : t.kind = .stringLiteralContent ∨ t.kind = .stringEscapedOpen ∨ t.kind = .stringEscapedClose := by
              revert h1 h2
              cases t.kind <;> simp [step, allowed]
            rw [if_pos hk]
            exact i1
          | true =>
            rw [hi'] at h1 i1
            have hk : t.kind = .openBrace := by
              revert h1 h2
              cases t.kind <;> simp [step, allowed]
            rw [if_neg (by rw [hk]; decide), if_pos hk]
            exact i1
        | true =>
          rw [hi] at h1 h2
          simp only [if_true] at h1 h2
          simp only [strOk]
          rw [if_neg hne]
          cases hi' : s'.interp with
          | false =>
            rw [hi'] at h1 i1
            have hk : t.kind = .closeBrace := by
              revert h1 h2
              cases t.kind <;> simp [step, allowed]
            rw [if_pos hk]
            exact i1
          | true =>
            rw [hi'] at h1 i1
            have hk : t.kind ≠ .closeBrace ∧ ¬ (t.kind = .stringLiteralContent ∨ isPatternEnd t.kind = true) := by
              revert h1 h2
              cases t.kind <;> simp [step, allowed, isPatternEnd]
            rw [if_neg hk.1, if_neg hk.2]
            exact i1
      · intro u hu
        rcases List.mem_cons.1 hu with rfl | hu
        · exact hnone
        · exact i2 u hu

theorem patternToks_strOk (cc : CharClass) (c : Bool) (content : List Char) (off : Nat) {e : Kind}
    (he : isPatternEnd e = true) (rest : List Kind) :
    strOk e false ((patternToks cc c content off).map Tok.kind ++ e :: rest) = true ∧
    ∀ t ∈ patternToks cc c content off, patternEnd t.kind = none := by
  unfold patternToks
  cases c with
  | true =>
    exact runStr_strOk (cc := cc) (off := off) (fun s t s' h => cstrNext_step h) he rest _ ⟨content, 0, false, false⟩
  | false =>
    exact runStr_strOk (cc := cc) (off := off) (fun s t s' h => strNext_step h) he rest _ ⟨content, 0, false, false⟩

/-- What `dispatch` makes, for strings. -/
def StrFine (r : Tok × List Tok × Cur) : Prop :=
  (∀ e, patternEnd r.1.kind = some e → ∀ rest, strOk e false (r.2.1.map Tok.kind ++ rest) = true) ∧
  ∀ t ∈ r.2.1, patternEnd t.kind = none

theorem strFine_plain {t : Tok} {cur : Cur} (h : patternEnd t.kind = none) : StrFine (t, [], cur) :=
  ⟨by intro e he; rw [h] at he; simp at he, by simp⟩

theorem strFine_ite {P : Prop} [Decidable P] {a b : Tok × List Tok × Cur} (ha : StrFine a) (hb : StrFine b) :
    StrFine (if P then a else b) := by
  split
  · exact ha
  · exact hb

theorem strFine_dquote (cc : CharClass) (pre : Prefix) (p i : Nat) (chars : List Char) (loc : Nat) :
    StrFine (dquote cc pre p i chars loc) := by
  unfold dquote
  obtain ⟨content, cur, closed⟩ := dqLoop (pre = .c) chars loc
  dsimp only
  have hsimple : patternEnd (simpleKind pre) = none := by cases pre <;> rfl
  split
  · exact strFine_plain hsimple
  · split
    · exact strFine_plain hsimple
    · split
      · split
        · refine ⟨?_, ?_⟩
          · intro e he rest
            have : e = patternEndKind pre := by
              revert he
              cases pre <;> simp [patternStartKind, patternEnd, patternEndKind] <;> exact Eq.symm
            subst this
            have := (patternToks_strOk cc (pre = .c) content (i + 1) (isEnd_of_patternEnd he) rest).1
            simpa using this
          · intro t ht
            rcases List.mem_append.1 ht with ht | ht
            · refine (patternToks_strOk cc (pre = .c) content (i + 1) (e := .stringPatternEnd) rfl []).2 t ht
            · simp at ht
              subst ht
              cases pre <;> rfl
        · exact strFine_plain hsimple
      · split
        · refine ⟨?_, ?_⟩
          · intro e he rest
            have : e = patternEndKind pre := by
              revert he
              cases pre <;> simp [patternStartKind, patternEnd, patternEndKind] <;> exact Eq.symm
            subst this
            have := (patternToks_strOk cc (pre = .c) content (i + 1) (isEnd_of_patternEnd he) rest).1
            simpa using this
          · intro t ht
            rcases List.mem_append.1 ht with ht | ht
            · refine (patternToks_strOk cc (pre = .c) content (i + 1) (e := .stringPatternEnd) rfl []).2 t ht
            · simp at ht
              subst ht
              cases pre <;> rfl
        · exact strFine_plain hsimple

theorem strFine_normal (cc : CharClass) (i : Nat) (c : Char) (chars : List Char) (loc : Nat) :
    StrFine (normal cc i c chars loc) := by
  unfold normal
  dsimp only
  repeat' split
  all_goals first
    | exact strFine_dquote _ _ _ _ _ _
    | exact strFine_plain rfl

theorem strFine_dispatch (cc : CharClass) (last : Option Kind) (ws : Bool) (i : Nat) (c : Char) (chars : List Char)
    (loc : Nat) : StrFine (dispatch cc last ws i c chars loc) := by
  have hk : ∀ a b, patternEnd a = none → patternEnd b = none → patternEnd (applyKind last ws a b) = none := by
    intro a b ha hb
    unfold applyKind
    split
    · split
      · exact hb
      · exact ha
    · exact ha
  have hp : patternEnd (parenKind last ws) = none := by
    unfold parenKind
    split
    · split
      · rfl
      · split <;> rfl
    · rfl
  have hnum : ∀ l, patternEnd (number i chars l).1.kind = none := by
    intro l
    unfold number
    dsimp only
    split <;> rfl
  have hcol : patternEnd (colon cc i chars loc).1.kind = none := by
    unfold colon
    split
    · rfl
    · split
      · rfl
      · split <;> rfl
  have hmin : patternEnd (minus cc i chars loc).1.kind = none := by
    unfold minus
    split
    · split
      · exact hnum _
      · rfl
    · rfl
  unfold dispatch
  dsimp only
  repeat' with_reducible apply strFine_ite
  all_goals first
    | exact strFine_dquote _ _ _ _ _ _
    | exact strFine_normal _ _ _ _ _
    | exact strFine_plain (hk _ _ rfl rfl)
    | exact strFine_plain hp
    | exact strFine_plain hcol
    | exact strFine_plain hmin
    | exact strFine_plain (hnum _)
    | exact strFine_plain (show patternEnd (oper cc i chars loc).1.kind = none from rfl)
    | exact strFine_plain rfl

theorem stringsOk_append {a b : List Kind} (ha : ∀ k ∈ a, patternEnd k = none) (hb : StringsOk b) : StringsOk (a ++ b) := by
  induction a with
  | nil => exact hb
  | cons k a ih =>
    refine ⟨?_, ih fun x hx => ha x (by simp [hx])⟩
    intro e he
    rw [ha k (by simp)] at he
    simp at he

theorem run_strings (cc : CharClass) : ∀ (fuel : Nat) (s : St) (ts : List Tok), run cc fuel s = some ts →
    (∀ t ∈ s.buffer, patternEnd t.kind = none) → ∃ rest, ts = s.buffer ++ rest ∧ StringsOk (rest.map Tok.kind) := by
  intro fuel
  induction fuel with
  | zero => intro s ts h; simp [run] at h
  | succ fuel ih =>
    intro s ts h hb
    rw [run] at h
    cases hn : Lex.next cc s with
    | none =>
      rw [hn] at h
      simp at h
      subst h
      unfold Lex.next at hn
      split at hn
      · simp at hn
      · rename_i hbuf
        exact ⟨[], by rw [hbuf]; rfl, trivial⟩
    | some r =>
      obtain ⟨t, s'⟩ := r
      rw [hn] at h
      dsimp only at h
      cases hr : run cc fuel s' with
      | none => rw [hr] at h; simp at h
      | some us =>
        rw [hr] at h
        simp at h
        subst h
        unfold Lex.next at hn
        split at hn
        · rename_i t' buf hbuf
          simp only [Option.some.injEq, Prod.mk.injEq] at hn
          obtain ⟨rfl, hs'⟩ := hn
          have hbuf' : s'.buffer = buf := by rw [← hs']; split <;> rfl
          obtain ⟨rest, h1, h2⟩ := ih s' us hr (by
            intro x hx
            rw [hbuf'] at hx
            exact hb x (by rw [hbuf]; simp [hx]))
          exact ⟨rest, by rw [hbuf, h1, hbuf']; rfl, h2⟩
        · rename_i hbuf
          split at hn
          · simp at hn
          · rename_i c cs hc
            have hf := strFine_dispatch cc s.last s.ws s.loc c cs (s.loc + c.utf8Size)
            generalize dispatch cc s.last s.ws s.loc c cs (s.loc + c.utf8Size) = d at hf hn
            obtain ⟨t', buffer, cur⟩ := d
            dsimp only at hn hf
            simp only [Option.some.injEq, Prod.mk.injEq] at hn
            obtain ⟨rfl, hs'⟩ := hn
            have hbuf' : s'.buffer = buffer := by
              rw [← hs']
              split
              · rfl
              · split <;> rfl
            obtain ⟨rest, h1, h2⟩ := ih s' us hr (by rw [hbuf']; exact hf.2)
            rw [hbuf'] at h1
            subst h1
            refine ⟨_, by rw [hbuf]; rfl, ?_⟩
            rw [List.map_cons, List.map_append]
            refine ⟨fun e he => hf.1 e he _, stringsOk_append ?_ h2⟩
            intro k hk
            obtain ⟨x, hx, rfl⟩ := List.mem_map.1 hk
            exact hf.2 x hx

theorem tokens_strings {cc : CharClass} {src : List Char} {ts : List Tok} (h : tokens cc src = some ts) :
    StringsOk (ts.map Tok.kind) := by
  obtain ⟨rest, h1, h2⟩ := run_strings cc _ (St.init src) ts h (by simp [St.init])
  have : ts = rest := h1
  rw [this]
  exact h2

theorem adj_applies {ts : List Tok} : ∀ {m prev}, Adj m prev ts → AppliesOk (ts.map Tok.kind) := by
  induction ts with
  | nil => intros; trivial
  | cons t ts ih =>
    intro m prev h
    refine ⟨?_, ih h.2.2⟩
    intro hk k' hk'
    cases ts with
    | nil => simp at hk'
    | cons u us =>
      simp at hk'
      subst hk'
      cases ha : isApplyKind u.kind with
      | false => rfl
      | true =>
        obtain ⟨_, k, hk1, hk2⟩ := h.2.2.1 ha
        simp at hk1
        subst hk1
        rcases hk with hk | hk
        · revert hk hk2
          cases t.kind <;> simp [Kind.isTrivial, Kind.isCallableTerminal]
        · rw [hk] at hk2; simp [Kind.isCallableTerminal] at hk2

/-- The tokens of a text as the parser sees them. -/
def ptoks (src : List Char) (ts : List Tok) : List PTok :=
  ts.map fun t => ⟨t.kind, text src t == some ['.']⟩

theorem ptoks_kinds (src : List Char) (ts : List Tok) : (ptoks src ts).map PTok.kind = ts.map Tok.kind := by
  simp [ptoks, Function.comp_def]

theorem tokens_safe {cc : CharClass} (hcc : cc.Sane) {src : List Char} {ts : List Tok} (h : tokens cc src = some ts)
    (hc : ColonsOk false (ts.map Tok.kind)) : Safe (.bracketOpen ∈ ts.map Tok.kind) (ptoks src ts) :=
  ⟨by rw [ptoks_kinds]; exact hc, by rw [ptoks_kinds]; exact adj_applies (tokens_adj hcc h),
    by rw [ptoks_kinds]; exact tokens_strings h, by rw [ptoks_kinds]; exact id⟩

end Verif.Parse
