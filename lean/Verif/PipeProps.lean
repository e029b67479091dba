import Verif.PipeModel

/-!
# A command gives its result, or is given up after its time limit (C71)

What one relies on is `Limited`: at every moment the driver can go on by itself, so that in the end it has the result or the
time has run out.  It is so when what the command is to read fits into a pipe (`limited_partial`), and then, if there is
nothing for it to read, the result is what the command does and nothing else (`result_own`).  It is not so in general: the
time is measured only from when everything has been written, and a command that writes before it has read everything may never
read it (`stuck`, `cat_stuck`).  And a command that is to read something but does not may give its result or an error, as it
happens (`race`).
-/

namespace Verif.Pipe

/-- The full statement: wherever things stand, if it is not over the driver has something it can do. -/
def Limited (C : Cmd) (cap : Nat) (stdin : Option Str) : Prop :=
  ∀ s, Reach C cap (begin C stdin) s → (∃ o, s.phase = .over o) ∨ ∃ s', Ours C cap s s'

/-- All that is still to be read fits in the pipe. -/
theorem fits_inv {C : Cmd} {cap : Nat} {stdin : Str} (hf : stdin.length ≤ cap) {s : Sys C}
    (h : Reach C cap (begin C (some stdin)) s) :
    match s.phase with
    | .writing left => left.length + s.inp.length ≤ cap
    | _ => True := by
  induction h with
  | refl => simpa [begin] using hf
  | @tail t u _ hs ih =>
    rcases hs with hs | hs
    · cases hs with
      | write hp hi hc =>
        rw [hp] at ih
        simp only [List.length_cons, List.length_append, List.length_nil] at ih ⊢
        omega
      | broken hp hc => trivial
      | close hp => trivial
      | gather hp ho => simp only [hp] at ih ⊢
      | done hp hc ho hq => trivial
      | timeout hp => trivial
    · cases hs with
      | flush hp ho => exact ih
      | work hp hc hn => exact ih
      | write hp hc hn => exact ih
      | read hp hc hn h0 h1 h2 =>
        cases hq : t.phase with
        | writing left =>
          rw [hq] at ih
          simp only [List.length_drop] at ih ⊢
          omega
        | waiting => trivial
        | over o => trivial
      | eof hp hc hn hi ho => exact ih
      | exit hp hc hn => exact ih

/-- **What fits in the pipe does not hold the driver up**, whatever the command does. -/
theorem limited_partial (C : Cmd) (cap : Nat) (stdin : Option Str) (hf : ∀ s, stdin = some s → s.length ≤ cap) :
    Limited C cap stdin := by
  intro s h
  cases hp : s.phase with
  | over o => exact .inl ⟨o, rfl⟩
  | waiting => exact .inr ⟨_, .timeout hp⟩
  | writing left =>
    right
    cases left with
    | nil => exact ⟨_, .close hp⟩
    | cons c left =>
      cases hc : s.child.isLeft with
      | false => exact ⟨_, .broken hp hc⟩
      | true =>
        cases stdin with
        | some x =>
          have := fits_inv (hf x rfl) h
          rw [hp] at this
          simp only [List.length_cons] at this
          exact ⟨_, .write hp (by omega) hc⟩
        | none =>
          exfalso
          have : ∀ t, Reach C cap (begin C none) t → ∀ l, t.phase ≠ .writing l := by
            intro t ht
            induction ht with
            | refl => intro l h; cases h
            | tail _ hs ih =>
              rcases hs with hs | hs
              · cases hs with
                | write hp _ _ => exact fun _ _ => ih _ hp
                | broken hp _ => exact fun _ _ => ih _ hp
                | close hp => exact fun _ _ => ih _ hp
                | gather _ _ => exact ih
                | done _ _ _ _ => intro l h; cases h
                | timeout _ => intro l h; cases h
              · cases hs <;> exact ih
          exact this s h _ hp

/-! ## What the result is -/

/-- What a command does when it finds nothing to read: what it writes and how it exits. -/
inductive Emits (C : Cmd) : C.σ → Str → Int → Prop where
  | work {q q' o c} : C.next q = .work q' → Emits C q' o c → Emits C q o c
  | read {q m k o c} : C.next q = .read m k → Emits C (k []) o c → Emits C q o c
  | write {q w q' o c} : C.next q = .write w q' → Emits C q' o c → Emits C q (w ++ o) c
  | exit {q c} : C.next q = .exit c → Emits C q [] c

theorem emits_det {C : Cmd} {q o c} (h : Emits C q o c) : ∀ {o' c'}, Emits C q o' c' → o = o' ∧ c = c' := by
  induction h with
  | work hn _ ih =>
    intro o' c' h'
    cases h' with
    | work hn' h'' => rw [hn] at hn'; cases hn'; exact ih h''
    | read hn' _ => rw [hn] at hn'; cases hn'
    | write hn' _ => rw [hn] at hn'; cases hn'
    | exit hn' => rw [hn] at hn'; cases hn'
  | read hn _ ih =>
    intro o' c' h'
    cases h' with
    | work hn' _ => rw [hn] at hn'; cases hn'
    | read hn' h'' => rw [hn] at hn'; cases hn'; exact ih h''
    | write hn' _ => rw [hn] at hn'; cases hn'
    | exit hn' => rw [hn] at hn'; cases hn'
  | write hn _ ih =>
    intro o' c' h'
    cases h' with
    | work hn' _ => rw [hn] at hn'; cases hn'
    | read hn' _ => rw [hn] at hn'; cases hn'
    | write hn' h'' =>
      rw [hn] at hn'
      cases hn'
      obtain ⟨rfl, rfl⟩ := ih h''
      exact ⟨rfl, rfl⟩
    | exit hn' => rw [hn] at hn'; cases hn'
  | exit hn =>
    intro o' c' h'
    cases h' with
    | work hn' _ => rw [hn] at hn'; cases hn'
    | read hn' _ => rw [hn] at hn'; cases hn'
    | write hn' _ => rw [hn] at hn'; cases hn'
    | exit hn' => rw [hn] at hn'; cases hn'; exact ⟨rfl, rfl⟩

/-- What remains of the command, put after what it has written so far, is what the command does. -/
def Owes (C : Cmd) (s : Sys C) : Prop :=
  s.inp = [] ∧ (∀ l, s.phase ≠ .writing l) ∧ s.phase ≠ .over .broken ∧
    (match s.child with
    | .inl q => ∀ o c, Emits C q o c → Emits C C.init (s.got ++ s.out ++ s.pending ++ o) c
    | .inr c => Emits C C.init (s.got ++ s.out ++ s.pending) c) ∧
    ∀ o c, s.phase = .over (.result o c) → Emits C C.init o c

theorem owes_inv {C : Cmd} {cap : Nat} {s : Sys C} (h : Reach C cap (begin C none) s) : Owes C s := by
  induction h with
  | refl => exact ⟨rfl, (fun l h => by cases h), (fun h => by cases h), (fun o c h => h), fun o c h => by cases h⟩
  | tail _ hs ih =>
    obtain ⟨hi, hw, hb, hd, ho⟩ := ih
    rcases hs with hs | hs
    · cases hs with
      | write hp _ _ => exact (hw _ hp).elim
      | broken hp _ => exact (hw _ hp).elim
      | close hp => exact (hw _ hp).elim
      | gather hp hout =>
        refine ⟨hi, hw, hb, ?_, ho⟩
        rw [hout] at hd
        simpa using hd
      | done hp hc hout hq =>
        refine ⟨hi, (fun l h => by cases h), (fun h => by cases h), hd, ?_⟩
        intro o c h
        cases h
        rw [hc, hout, hq] at hd
        simpa using hd
      | timeout hp => exact ⟨hi, (fun l h => by cases h), (fun h => by cases h), hd, fun o c h => by cases h⟩
    · cases hs with
      | flush hp hout =>
        refine ⟨hi, hw, hb, ?_, ho⟩
        rw [hp] at hd
        simpa using hd
      | work hp hc hn =>
        refine ⟨hi, hw, hb, ?_, ho⟩
        rw [hc] at hd
        exact fun o c h => hd o c (.work hn h)
      | write hp hc hn =>
        refine ⟨hi, hw, hb, ?_, ho⟩
        rw [hc, hp] at hd
        intro o c h
        have := hd _ c (.write hn h)
        simpa using this
      | read hp hc hn h0 h1 h2 => rw [hi] at h2; simp at h2; omega
      | eof hp hc hn he hx =>
        refine ⟨hi, hw, hb, ?_, ho⟩
        rw [hc] at hd
        exact fun o c h => hd o c (.read hn h)
      | exit hp hc hn =>
        refine ⟨hi, hw, hb, ?_, ho⟩
        rw [hc, hp] at hd
        have := hd [] _ (.exit hn)
        simpa [hp] using this

/-- **The result of a command is what the command does**, if there is nothing for it to read: what it has written, all of it
and in order, and its exit code; and there is no error. -/
theorem result_own (C : Cmd) (cap : Nat) (s : Sys C) (h : Reach C cap (begin C none) s) :
    (∀ o c, s.phase = .over (.result o c) → Emits C C.init o c) ∧ s.phase ≠ .over .broken :=
  let ⟨_, _, hb, _, ho⟩ := owes_inv h
  ⟨ho, hb⟩

/-- So two runs of it that end give the same. -/
theorem result_same (C : Cmd) (cap cap' : Nat) (s s' : Sys C) (h : Reach C cap (begin C none) s)
    (h' : Reach C cap' (begin C none) s') {o c o' c'} (ho : s.phase = .over (.result o c))
    (ho' : s'.phase = .over (.result o' c')) : o = o' ∧ c = c' :=
  emits_det ((result_own C cap s h).1 o c ho) ((result_own C cap' s' h').1 o' c' ho')

/-! ## Where it is not so -/

/-- `cat`: read up to `most` characters, write them, and so on until there are no more. -/
def cat (most : Nat) : Cmd where
  σ := Option Str
  next
    | none => .read most (fun s => some s)
    | some [] => .exit 0
    | some s => .write s none
  init := none

/-- What `cat` has in its hands. -/
def inHand {most : Nat} (s : Sys (cat most)) : Str := s.pending ++ match s.child with
  | .inl (some x) => x
  | _ => []

/-- Everything is somewhere, and the pipes and `cat` hold only so much. -/
def Jam (most cap n : Nat) (s : Sys (cat most)) : Prop :=
  (∃ left, s.phase = .writing left ∧ left.length + s.inp.length + (inHand s).length + s.out.length = n) ∧
    s.inp.length ≤ cap ∧ s.out.length ≤ cap ∧ s.inOpen = true ∧ (inHand s).length ≤ most ∧ s.got = [] ∧
    ∃ x : Option Str, s.child = .inl x ∧ x ≠ some [] ∧ (x ≠ none → s.pending = [])

theorem jam_inv {most cap : Nat} {stdin : Str} (hl : 2 * cap + most < stdin.length) {s : Sys (cat most)}
    (h : Reach (cat most) cap (begin (cat most) (some stdin)) s) : Jam most cap stdin.length s := by
  induction h with
  | refl => exact ⟨⟨stdin, rfl, by simp [begin, inHand, cat]⟩, by simp [begin], by simp [begin], rfl,
      by simp [begin, inHand, cat], rfl, none, rfl, by simp, by simp⟩
  | tail _ hs ih =>
    obtain ⟨⟨left, hp, hn⟩, hi, ho, hop, hh, hg, x, hx, hne, hpe⟩ := ih
    rcases hs with hs | hs
    · cases hs with
      | write hp' hi' hc' =>
        rw [hp] at hp'
        cases hp'
        refine ⟨⟨_, rfl, ?_⟩, ?_, ho, hop, hh, hg, x, hx, hne, hpe⟩
        · simp only [List.length_append, List.length_cons, List.length_nil] at hn ⊢
          simp only [inHand] at hn ⊢
          omega
        · simp; omega
      | broken hp' hc' => rw [hx] at hc'; cases hc'
      | close hp' =>
        rw [hp] at hp'
        cases hp'
        simp only [List.length_nil] at hn
        omega
      | gather hp' _ => rw [hp] at hp'; cases hp'
      | done hp' _ _ _ => rw [hp] at hp'; cases hp'
      | timeout hp' => rw [hp] at hp'; cases hp'
    · cases hs with
      | flush hq hq' =>
        refine ⟨⟨left, hp, ?_⟩, hi, ?_, hop, ?_, hg, x, hx, hne, ?_⟩
        · simp only [inHand, hq, hx, List.length_append, List.length_cons, List.length_nil] at hn ⊢
          omega
        · simp; omega
        · simp only [inHand, hq, hx, List.length_append, List.length_cons] at hh ⊢
          omega
        · intro h; rw [hpe h] at hq; cases hq
      | work hq hc hn' =>
        rw [hx] at hc
        cases hc
        cases x with
        | none => cases hn'
        | some w =>
          cases w with
          | nil => exact (hne rfl).elim
          | cons => cases hn'
      | write hq hc hn' =>
        rw [hx] at hc
        cases hc
        cases x with
        | none => cases hn'
        | some w =>
          cases w with
          | nil => exact (hne rfl).elim
          | cons c w =>
            cases hn'
            simp only [inHand, hq, hx] at hn hh
            refine ⟨⟨left, hp, ?_⟩, hi, ho, hop, ?_, hg, none, rfl, by simp, by simp⟩
            · simp only [inHand, List.length_append, List.length_nil, List.nil_append] at hn ⊢
              omega
            · simp only [inHand, List.append_nil, List.nil_append] at hh ⊢
              exact hh
      | read hq hc hn' h0 h1 h2 =>
        rw [hx] at hc
        cases hc
        cases x with
        | some w =>
          cases w with
          | nil => exact (hne rfl).elim
          | cons => cases hn'
        | none =>
          cases hn'
          rename_i k
          simp only [inHand, hq, hx] at hn hh
          refine ⟨⟨left, hp, ?_⟩, ?_, ho, hop, ?_, hg, _, rfl, ?_, fun _ => hq⟩
          · simp only [inHand, hq, List.length_drop, List.length_take, List.nil_append, List.length_nil] at hn ⊢
            omega
          · simp; omega
          · simp only [inHand, hq, List.length_take, List.nil_append]
            omega
          · intro h
            simp only [Option.some.injEq, List.take_eq_nil_iff] at h
            rcases h with h | h
            · omega
            · rw [h] at h2; simp at h2; omega
      | eof hq hc hn' he hx' => rw [hop] at hx'; cases hx'
      | exit hq hc hn' =>
        rw [hx] at hc
        cases hc
        cases x with
        | none => cases hn'
        | some w =>
          cases w with
          | nil => exact (hne rfl).elim
          | cons => cases hn'

/-- **More input than the two pipes and `cat` hold is never got rid of**: whatever happens the driver is still writing, and
its time limit has not begun. -/
theorem stuck (most cap : Nat) (stdin : Str) (hl : 2 * cap + most < stdin.length) (s : Sys (cat most))
    (h : Reach (cat most) cap (begin (cat most) (some stdin)) s) : ∃ c left, s.phase = .writing (c :: left) := by
  obtain ⟨⟨left, hp, hn⟩, hi, ho, hop, hh, hg, x, hx, hne, hpe⟩ := jam_inv hl h
  cases left with
  | nil => simp only [List.length_nil] at hn; omega
  | cons c left => exact ⟨c, left, hp⟩

/-- A state in which nobody can do anything. -/
def Dead {C : Cmd} (cap : Nat) (s : Sys C) : Prop := ∀ s', ¬ Step C cap s s'

/-- `cat`, a pipe of one character, and `abcd` to be written: the `a` is in the pipe out, `b` in the hands of `cat`, `c` in
the pipe in, and `d` still to be written. -/
def jammed : Sys (cat 1) :=
  ⟨.writing ['d'], ['c'], true, ['a'], ['b'], .inl none, []⟩

theorem jammed_reached : Reach (cat 1) 1 (begin (cat 1) (some "abcd".toList)) jammed := by
  have r0 : Reach (cat 1) 1 (begin (cat 1) (some "abcd".toList)) (begin (cat 1) (some "abcd".toList)) := .refl
  have r1 := r0.tail (.inl (.write (c := 'a') (left := ['b', 'c', 'd']) rfl (by decide) rfl))
  have r2 := r1.tail (.inr (.read (q := (none : Option Str)) (most := 1) (k := fun s => (some s : Option Str)) (n := 1) rfl rfl rfl (by decide) (by decide) (by decide)))
  have r3 := r2.tail (.inr (.write (q := (some ['a'] : Option Str)) (o := ['a']) (q' := (none : Option Str)) rfl rfl rfl))
  have r4 := r3.tail (.inr (.flush (c := 'a') (rest := []) rfl (by decide)))
  have r5 := r4.tail (.inl (.write (c := 'b') (left := ['c', 'd']) rfl (by decide) rfl))
  have r6 := r5.tail (.inr (.read (q := (none : Option Str)) (most := 1) (k := fun s => (some s : Option Str)) (n := 1) rfl rfl rfl (by decide) (by decide) (by decide)))
  have r7 := r6.tail (.inr (.write (q := (some ['b'] : Option Str)) (o := ['b']) (q' := (none : Option Str)) rfl rfl rfl))
  have r8 := r7.tail (.inl (.write (c := 'c') (left := ['d']) rfl (by decide) rfl))
  exact r8

theorem jammed_dead : Dead 1 jammed := by
  intro s' h
  rcases h with h | h
  · cases h with
    | write hp hi _ => simp [jammed] at hi
    | broken _ hc => cases hc
    | close hp => cases hp
    | gather hp _ => cases hp
    | done hp _ _ _ => cases hp
    | timeout hp => cases hp
  · cases h with
    | flush _ ho => simp [jammed] at ho
    | work hp _ _ => cases hp
    | write hp _ _ => cases hp
    | read hp _ _ _ _ _ => cases hp
    | eof hp _ _ _ _ => cases hp
    | exit hp _ _ => cases hp

/-- **So the time limit does not always apply**: a command and an input with which everything stands still for ever. -/
theorem cat_stuck : ¬ ∀ C cap stdin, 0 < cap → Limited C cap stdin := by
  intro h
  rcases h (cat 1) 1 (some "abcd".toList) (by decide) jammed jammed_reached with ⟨o, ho⟩ | ⟨s', hs⟩
  · cases ho
  · exact jammed_dead s' (.inl hs)

/-- A command that exits at once. -/
def quits : Cmd where
  σ := Unit
  next := fun _ => .exit 0
  init := ()

/-- **A command that does not read what it is given may succeed or fail, as it happens**: the same command with the same
input ends with its result, or with an error because it was gone before it could be written to. -/
theorem race : ∃ C cap stdin, ∃ s s' : Sys C, Reach C cap (begin C (some stdin)) s ∧ Reach C cap (begin C (some stdin)) s' ∧
    s.phase = .over (.result [] 0) ∧ s'.phase = .over .broken := by
  refine ⟨quits, 1, ['x'], ?_⟩
  have r0 : Reach quits 1 (begin quits (some ['x'])) (begin quits (some ['x'])) := .refl
  have a1 := r0.tail (.inl (.write (c := 'x') (left := []) rfl (by decide) rfl))
  have a2 := a1.tail (.inl (.close rfl))
  have a3 := a2.tail (.inr (.exit (q := ()) (code := 0) rfl rfl rfl))
  have a4 := a3.tail (.inl (.done (code := 0) rfl rfl rfl rfl))
  have b1 := r0.tail (.inr (.exit (q := ()) (code := 0) rfl rfl rfl))
  have b2 := b1.tail (.inl (.broken (c := 'x') (left := []) rfl rfl))
  exact ⟨_, _, a4, b2, rfl, rfl⟩

/-- A case: `echo`, with nothing to read. -/
def echo : Cmd where
  σ := Bool
  next
    | false => .write "hi".toList true
    | true => .exit 0
  init := false

example : Emits echo echo.init "hi".toList 0 :=
  Emits.write (C := echo) (q := false) (w := "hi".toList) (q' := true) (o := []) rfl (Emits.exit (C := echo) (q := true) rfl)

example : Limited echo 1 none := limited_partial echo 1 none (fun _ h => by cases h)

example : ∃ s, Reach echo 1 (begin echo none) s ∧ s.phase = .over (.result "hi".toList 0) := by
  have r0 : Reach echo 1 (begin echo none) (begin echo none) := .refl
  have r1 := r0.tail (.inr (.write (q := false) (o := "hi".toList) (q' := true) rfl rfl rfl))
  have r2 := r1.tail (.inr (.flush (c := 'h') (rest := ['i']) rfl (by decide)))
  have r3 := r2.tail (.inl (.gather (c := 'h') (rest := []) rfl rfl))
  have r4 := r3.tail (.inr (.flush (c := 'i') (rest := []) rfl (by decide)))
  have r5 := r4.tail (.inl (.gather (c := 'i') (rest := []) rfl rfl))
  have r6 := r5.tail (.inr (.exit (q := true) (code := 0) rfl rfl rfl))
  have r7 := r6.tail (.inl (.done (code := 0) rfl rfl rfl rfl))
  exact ⟨_, r7, rfl⟩

end Verif.Pipe
