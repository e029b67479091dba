import Verif.IoWhole

/-!
# Programs that run commands (C68, C69, C70)

Without permission no command is run, and nothing else is different (`no_command`, `denied_or_same`).  With it the commands
are run one after another in the order in which the program puts them, each with what came of those before, whatever the
collector moves in the meantime (`perform_does`, `perform_stops`, `perform_sound`), and the laws of a monad hold (`left_unit`,
`right_unit`, `assoc`).  A command is given the arguments of the program only if the list of them has been built already and
nothing about them is special (`exec_partial`); otherwise some of them are lost (`args_lost`, `args_empty`, `args_nul`), and so
is an input that reads `null` (`stdin_null`).
-/

namespace Verif.Io

/-! ## A small language, for cases -/

/-- Values of the small language: texts, lists, blocks, something not yet evaluated, the functions of the monad that wait for
a world, functions of one argument, applications, and the constructors of the monad. -/
inductive Tm where
  | str (s : Str) | boxed (t : Tm) | nul | nil | cons (h t : Tm) | blk (es : Tm) | kv (k : Str) (v : Tm)
  | tagged (g : Str) (t : Tm) | later (t : Tm) | bad
  | retF (v : Tm) | bindF (a k : Tm) | actF (s : Tm)
  | const (t : Tm) | retK | seqK (k h : Tm)
  | app (f x : Tm) | app2 (f x y : Tm)
  | ioRet (w v : Tm) | ioBind (w k a : Tm) | ioAct (w s : Tm) | ioFail (w e : Tm)
  | doc (t : Tm)
deriving DecidableEq

def Tm.look : Tm → Look Tm
  | .str s => .native (some s) | .boxed t => .box t | .nul => .null | .nil => .nil | .cons h t => .cons h t
  | .blk es => .block es | .kv k v => .pair (some k) v | .tagged g t => .tagged (some g) t
  | .ioRet w v => .ret w v | .ioBind w k a => .bind w k a | .ioAct w s => .act w s | .ioFail w e => .fail w e
  | _ => .other

def Tm.evalN : Nat → Tm → Option (Except Unit Tm)
  | 0, _ => none
  | n + 1, t => match t with
    | .later t => evalN n t
    | .tagged _ t => evalN n t
    | .bad => some (.error ())
    | .app2 f x y => evalN n (.app (.app f x) y)
    | .app f x => match f with
      | .retF v => some (.ok (.ioRet x v))
      | .bindF a k => some (.ok (.ioBind x k a))
      | .actF s => some (.ok (.ioAct x s))
      | .const t => evalN n t
      | .retK => some (.ok (.retF x))
      | .seqK k h => some (.ok (.bindF (.app k x) h))
      | f => match evalN n f with
        | some (.ok f) => evalN n (.app f x)
        | y => y
    | t => some (.ok t)

def Tm.isFun : Tm → Bool
  | .retF _ | .bindF .. | .actF _ | .const _ | .retK | .seqK .. => true
  | _ => false

def small : Lang where
  T := Tm
  E := Unit
  look := Tm.look
  eval := Tm.evalN 20
  app1 := .app
  app2 := .app2
  unit := .nul
  result r := .blk (.cons (.kv "stdout".toList (.boxed (.str r.out))) .nil)
  ioReturn := .ioRet
  isFun := Tm.isFun
  render := .doc

instance : DecidableEq small.T := inferInstanceAs (DecidableEq Tm)
instance : DecidableEq small.E := inferInstanceAs (DecidableEq Unit)

instance {ε α : Type} [DecidableEq ε] [DecidableEq α] : DecidableEq (Except ε α)
  | .ok a, .ok b => if h : a = b then isTrue (h ▸ rfl) else isFalse (fun e => h (Except.ok.inj e))
  | .error a, .error b => if h : a = b then isTrue (h ▸ rfl) else isFalse (fun e => h (Except.error.inj e))
  | .ok _, .error _ => isFalse (fun e => nomatch e)
  | .error _, .ok _ => isFalse (fun e => nomatch e)

theorem small_sound : Sound small := fun w v => ⟨.ioRet w v, rfl, rfl⟩

/-- `io.exec(...)` in the small language: `io.exec`, lib/prelude.eu:66. -/
def execF (cmd args : Tm) : Tm := .actF (.tagged "io-exec".toList
  (.blk (.cons (.kv "cmd".toList cmd) (.cons (.kv "args".toList args) (.cons (.kv "timeout".toList (.boxed (.str "30".toList))) .nil)))))

/-- `io.shell-with(...)` in the small language: lib/prelude.eu:62. -/
def shellF (cmd stdin timeout : Tm) : Tm := .actF (.tagged "io-shell".toList
  (.blk (.cons (.kv "cmd".toList cmd) (.cons (.kv "timeout".toList timeout) (.cons (.kv "stdin".toList stdin) .nil)))))

def txt (s : String) : Tm := .boxed (.str s.toList)

/-- Run `echo`, then `ls`, then give back a text. -/
def twice : Tm := .bindF (execF (txt "echo") (.cons (txt "hi") .nil))
  (.const (.bindF (execF (txt "ls") .nil) (.const (.retF (txt "done")))))

/-- An operating system on which every command succeeds. -/
def calm : Os Unit := fun _ _ => .ok ⟨"out".toList, [], 0⟩

/-- What a run leaves: the commands run and the value written, if there is one. -/
def Res.left {α : Type} {L : Lang} : Res L α → List Spec × Option L.T
  | .ok _ m => (m.done, some m.now.val)
  | .stop _ m => (m.done, none)
  | .fault m => (m.done, none)
  | .away m => (m.done, none)

/-- The commands run by the time a piece of the driver comes out, however it does. -/
def Res.done {α : Type} {L : Lang} : Res L α → List Spec
  | .ok _ m | .stop _ m | .fault m | .away m => m.done

variable {L : Lang}

/-! ## Without permission -/

theorem bareRun_denied (os : Os L.E) : ∀ (n : Nat) (h : List Spec) (u : L.T), (bareRun L os false n h u).1 = h
  | 0, h, u => rfl
  | n + 1, h, u => by
    have ih := bareRun_denied os n
    have hOn : ∀ h t, (goOn L (bareRun L os false n) h t).1 = h := by
      intro h t
      unfold goOn
      cases L.eval t with
      | none => rfl
      | some x =>
        cases x with
        | error e => rfl
        | ok u => exact ih h u
    have hIn : ∀ h t, (goIn L (bareRun L os false n) h t).1 = h := by
      intro h t
      unfold goIn
      cases L.eval t with
      | none => rfl
      | some x =>
        cases x with
        | error e => rfl
        | ok u =>
          dsimp only
          split
          · exact ih h u
          · rfl
    rw [bareRun.eq_2]
    cases L.look u with
    | bind w k a =>
      dsimp only
      have hi := hIn h (L.app1 a w)
      cases hg : goIn L (bareRun L os false n) h (L.app1 a w) with
      | mk h₁ o =>
        rw [hg] at hi
        cases hi
        cases o with
        | none => rfl
        | some x =>
          cases x with
          | error e => rfl
          | ok v => exact hOn _ _
    | _ => rfl

theorem wholeAgrees_done {x : Res L Unit} {p : Outcome L} (h : WholeAgrees x p) : x.done = p.1 := by
  cases x with
  | ok a m =>
    cases hp : p.2 with
    | none => simp [WholeAgrees, hp] at h
    | some y =>
      cases y with
      | error e => simp [WholeAgrees, hp] at h
      | ok d => simp [WholeAgrees, hp] at h; exact h.1
  | stop e m =>
    cases hp : p.2 with
    | none => simp [WholeAgrees, hp] at h
    | some y =>
      cases y with
      | error e => simp [WholeAgrees, hp] at h; exact h.2
      | ok d => simp [WholeAgrees, hp] at h
  | fault m => simp [WholeAgrees] at h
  | away m =>
    cases hp : p.2 with
    | none => simp [WholeAgrees, hp] at h; exact h
    | some y => cases y <;> simp [WholeAgrees, hp] at h

/-- **Without permission no command is run (C68)**: whatever the program, whatever the collector does, and however the
program ends or if it does not end. -/
theorem no_command (L : Lang) (gc : Nat → Bool) (os : Os L.E) (n : Nat) (root : L.T) :
    (perform L gc os false n (start L root)).done = [] := by
  rw [wholeAgrees_done (perform_agrees gc os false n root)]
  have hs : ∀ u, (bareShown L os false n u).1 = [] := by
    intro u
    unfold bareShown
    have := bareRun_denied os n [] u
    cases hq : bareRun L os false n [] u with
    | mk h o =>
      rw [hq] at this
      cases this
      cases o with
      | none => rfl
      | some x => cases x <;> rfl
  unfold bareWhole
  cases L.eval root with
  | none => rfl
  | some x =>
    cases x with
    | error e => rfl
    | ok u =>
      dsimp only
      split
      · exact hs u
      · split
        · cases L.eval (L.app1 u L.unit) with
          | none => rfl
          | some y =>
            cases y with
            | error e => rfl
            | ok u' =>
              dsimp only
              split
              · exact hs u'
              · rfl
        · rfl

example : (perform small (fun _ => true) calm false 20 (start small twice)).left = ([], none) := by decide +kernel

theorem runs_denied {os : Os L.E} {h t h' r} (hr : Runs L os false h t h' r) :
    h' = h ∧ (r = .error .denied ∨ Runs L os true h t h r) := by
  induction hr with
  | err he => exact ⟨rfl, .inr (.err he)⟩
  | plain he hi => exact ⟨rfl, .inr (.plain he hi)⟩
  | ret he hl => exact ⟨rfl, .inr (.ret he hl)⟩
  | fail he hl hf => exact ⟨rfl, .inr (.fail he hl hf)⟩
  | denied he hl _ => exact ⟨rfl, .inl rfl⟩
  | bad _ _ ha _ => cases ha
  | broken _ _ ha _ _ => cases ha
  | act _ _ ha _ _ => cases ha
  | bind he hl _ _ i1 i2 =>
    obtain ⟨rfl, h1 | h1⟩ := i1
    · cases h1
    · obtain ⟨rfl, h2 | h2⟩ := i2
      · exact ⟨rfl, .inl h2⟩
      · exact ⟨rfl, .inr (.bind he hl h1 h2)⟩
  | cut he hl _ i1 =>
    obtain ⟨rfl, h1 | h1⟩ := i1
    · exact ⟨rfl, .inl h1⟩
    · exact ⟨rfl, .inr (.cut he hl h1)⟩

/-- **And nothing else is different (C68)**: what a program does without permission is to say that it has none, or what it
does with permission, having run no command. -/
theorem denied_or_same {os : Os L.E} {root : L.T} {h d} (hw : Whole L os false root h d) :
    h = [] ∧ (d = .error .denied ∨ Whole L os true root [] d) := by
  cases hw with
  | err he => exact ⟨rfl, .inr (.err he)⟩
  | act he hi hr hs =>
    obtain ⟨rfl, h1 | h1⟩ := runs_denied hr
    · cases h1
    · exact ⟨rfl, .inr (.act he hi h1 hs)⟩
  | actErr he hi hr =>
    obtain ⟨rfl, h1 | h1⟩ := runs_denied hr
    · exact ⟨rfl, .inl h1⟩
    · exact ⟨rfl, .inr (.actErr he hi h1)⟩
  | doc he hi hf hs => exact ⟨rfl, .inr (.doc he hi hf hs)⟩
  | fnErr he hi hf he' => exact ⟨rfl, .inr (.fnErr he hi hf he')⟩
  | fnDoc he hi hf he' hi' hs => exact ⟨rfl, .inr (.fnDoc he hi hf he' hi' hs)⟩
  | fn he hi hf he' hi' hr hs =>
    obtain ⟨rfl, h1 | h1⟩ := runs_denied hr
    · cases h1
    · exact ⟨rfl, .inr (.fn he hi hf he' hi' h1 hs)⟩
  | fnActErr he hi hf he' hi' hr =>
    obtain ⟨rfl, h1 | h1⟩ := runs_denied hr
    · exact ⟨rfl, .inl h1⟩
    · exact ⟨rfl, .inr (.fnActErr he hi hf he' hi' h1)⟩

/-- A case: a program of the monad without commands is the same without permission. -/
example : Whole small calm true (.retF (txt "x")) [] (.ok (.doc (txt "x"))) :=
  (denied_or_same (Whole.fn (L := small) (os := calm) (u := .retF (txt "x")) (u' := .ioRet .nul (txt "x")) (h := []) (v := txt "x") rfl rfl rfl rfl rfl
    (.ret (L := small) (u := (.ioRet .nul (txt "x") : Tm)) rfl rfl) (.ok rfl))).2.resolve_left (by intro h; cases h)

/-! ## With permission -/

/-- **The driver never holds a value that has been moved, and its stash is never short (C69)**, whenever the collector
collects. -/
theorem perform_sound (L : Lang) (gc : Nat → Bool) (os : Os L.E) (allow : Bool) (n : Nat) (root : L.T) (m : Mach L.T) :
    perform L gc os allow n (start L root) ≠ .fault m := by
  intro h
  have := perform_agrees gc os allow n root
  rw [h] at this
  simp [WholeAgrees] at this

/-- **The driver does what the program is to do (C69)**: with the collector collecting when it likes, it writes `d` after the
commands `h` exactly when that is what the program does. -/
theorem perform_does (L : Lang) (so : Sound L) (gc : Nat → Bool) (os : Os L.E) (allow : Bool) (root : L.T) (h : List Spec)
    (d : L.T) : (∃ n m, perform L gc os allow n (start L root) = .ok () m ∧ m.done = h ∧ m.now.val = d) ↔
      Whole L os allow root h (.ok d) := by
  rw [← bareWhole_iff so]
  constructor
  · rintro ⟨n, m, e, rfl, rfl⟩
    refine ⟨n, ?_⟩
    have := perform_agrees gc os allow n root
    rw [e] at this
    cases hq : bareWhole L os allow n root with
    | mk h o =>
      rw [hq] at this
      cases o with
      | none => exact this.elim
      | some y =>
        cases y with
        | error _ => exact this.elim
        | ok d => simp only [WholeAgrees] at this; rw [this.1, this.2]
  · rintro ⟨n, hn⟩
    refine ⟨n, ?_⟩
    have := perform_agrees gc os allow n root
    rw [hn] at this
    cases hp : perform L gc os allow n (start L root) with
    | ok a m => rw [hp] at this; exact ⟨m, rfl, this.1, this.2⟩
    | stop e m => rw [hp] at this; exact this.elim
    | fault m => rw [hp] at this; exact this.elim
    | away m => rw [hp] at this; exact this.elim

/-- **And it fails as the program fails (C69).** -/
theorem perform_stops (L : Lang) (so : Sound L) (gc : Nat → Bool) (os : Os L.E) (allow : Bool) (root : L.T) (h : List Spec)
    (e : Stop L.E) : (∃ n m, perform L gc os allow n (start L root) = .stop e m ∧ m.done = h) ↔
      Whole L os allow root h (.error e) := by
  rw [← bareWhole_iff so]
  constructor
  · rintro ⟨n, m, he, rfl⟩
    refine ⟨n, ?_⟩
    have := perform_agrees gc os allow n root
    rw [he] at this
    cases hq : bareWhole L os allow n root with
    | mk h o =>
      rw [hq] at this
      cases o with
      | none => exact this.elim
      | some y =>
        cases y with
        | ok _ => exact this.elim
        | error e' => simp only [WholeAgrees] at this; rw [this.1, this.2]
  · rintro ⟨n, hn⟩
    refine ⟨n, ?_⟩
    have := perform_agrees gc os allow n root
    rw [hn] at this
    cases hp : perform L gc os allow n (start L root) with
    | ok a m => rw [hp] at this; exact this.elim
    | stop e m => rw [hp] at this; exact ⟨m, by rw [this.1], this.2⟩
    | fault m => rw [hp] at this; exact this.elim
    | away m => rw [hp] at this; exact this.elim

/-- A case: two commands and a text, with a collection at every run. -/
example : (perform small (fun _ => true) calm true 20 (start small twice)).left =
    ([.exec "echo".toList ["hi".toList] none 30, .exec "ls".toList [] none 30], some (.doc (txt "done"))) := by
  decide +kernel

theorem specOf_agree {n k : Nat} {t : L.T} {r r'} (h : specOf L n t = some r) (h' : specOf L k t = some r') : r = r' := by
  have a := specOf_up (Nat.le_max_left n k) h
  have b := specOf_up (Nat.le_max_right n k) h'
  rw [a] at b
  exact Option.some.inj b

theorem failureOf_agree {n k : Nat} {t : L.T} {r r'} (h : failureOf L n t = some r) (h' : failureOf L k t = some r') :
    r = r' := by
  have a := failureOf_up (Nat.le_max_left n k) h
  have b := failureOf_up (Nat.le_max_right n k) h'
  rw [a] at b
  exact Option.some.inj b

/-- **What a program does is settled (C69)**: with the same answers from outside it does the same every time. -/
theorem runs_det {os : Os L.E} {allow : Bool} (so : Sound L) {h t h₁ r₁ h₂ r₂} (a : Runs L os allow h t h₁ r₁)
    (b : Runs L os allow h t h₂ r₂) : h₁ = h₂ ∧ r₁ = r₂ := by
  obtain ⟨e, he, rfl, rfl⟩ | ⟨u, he, n, hn⟩ := runs_bareRun so a
  · obtain ⟨e', he', rfl, rfl⟩ | ⟨u', he', n', hn'⟩ := runs_bareRun so b
    · rw [he] at he'; cases he'; exact ⟨rfl, rfl⟩
    · rw [he] at he'; cases he'
  · obtain ⟨e', he', rfl, rfl⟩ | ⟨u', he', n', hn'⟩ := runs_bareRun so b
    · rw [he] at he'; cases he'
    · rw [he] at he'
      cases he'
      have x := up (f := bareRun L os allow) bareRun_mono (Nat.le_max_left n n') _ _ _ _ hn
      have y := up (f := bareRun L os allow) bareRun_mono (Nat.le_max_right n n') _ _ _ _ hn'
      rw [x] at y
      cases y
      exact ⟨rfl, rfl⟩

/-- **A command once run stays run (C69)**: what comes later is added at the end. -/
theorem runs_append {os : Os L.E} {allow : Bool} {h t h' r} (a : Runs L os allow h t h' r) : ∃ more, h' = h ++ more := by
  induction a with
  | err _ => exact ⟨[], by simp⟩
  | plain _ _ => exact ⟨[], by simp⟩
  | ret _ _ => exact ⟨[], by simp⟩
  | fail _ _ _ => exact ⟨[], by simp⟩
  | denied _ _ _ => exact ⟨[], by simp⟩
  | bad _ _ _ _ => exact ⟨[], by simp⟩
  | broken _ _ _ _ _ => exact ⟨_, rfl⟩
  | act _ _ _ _ _ => exact ⟨_, rfl⟩
  | bind _ _ _ _ i1 i2 =>
    obtain ⟨m1, rfl⟩ := i1
    obtain ⟨m2, rfl⟩ := i2
    exact ⟨m1 ++ m2, by simp⟩
  | cut _ _ _ i1 => exact i1

/-! ## The laws of a monad -/

theorem bind_iff {os : Os L.E} {allow : Bool} {t u w k a : L.T} {h h' r} (he : L.eval t = some (.ok u))
    (hl : L.look u = .bind w k a) : Runs L os allow h t h' r ↔
      (∃ h₁ v, Runs L os allow h (L.app1 a w) h₁ (.ok v) ∧ Runs L os allow h₁ (L.app2 k v w) h' r) ∨
        (∃ e, Runs L os allow h (L.app1 a w) h' (.error e) ∧ r = .error e) := by
  constructor
  · intro hr
    cases hr with
    | bind he' hl' h1 h2 =>
      rw [he] at he'; cases he'
      rw [hl] at hl'; cases hl'
      exact .inl ⟨_, _, h1, h2⟩
    | cut he' hl' h1 =>
      rw [he] at he'; cases he'
      rw [hl] at hl'; cases hl'
      exact .inr ⟨_, h1, rfl⟩
    | err he' => rw [he] at he'; cases he'
    | plain he' hi => rw [he] at he'; cases he'; rw [hl] at hi; cases hi
    | ret he' hl' => rw [he] at he'; cases he'; rw [hl] at hl'; cases hl'
    | fail he' hl' _ => rw [he] at he'; cases he'; rw [hl] at hl'; cases hl'
    | denied he' hl' _ => rw [he] at he'; cases he'; rw [hl] at hl'; cases hl'
    | bad he' hl' _ _ => rw [he] at he'; cases he'; rw [hl] at hl'; cases hl'
    | broken he' hl' _ _ _ => rw [he] at he'; cases he'; rw [hl] at hl'; cases hl'
    | act he' hl' _ _ _ => rw [he] at he'; cases he'; rw [hl] at hl'; cases hl'
  · rintro (⟨h₁, v, h1, h2⟩ | ⟨e, h1, rfl⟩)
    · exact .bind he hl h1 h2
    · exact .cut he hl h1

theorem ret_iff {os : Os L.E} {allow : Bool} {t u w v : L.T} {h h' r} (he : L.eval t = some (.ok u))
    (hl : L.look u = .ret w v) : Runs L os allow h t h' r ↔ h' = h ∧ r = .ok v := by
  constructor
  · intro hr
    cases hr with
    | ret he' hl' => rw [he] at he'; cases he'; rw [hl] at hl'; cases hl'; exact ⟨rfl, rfl⟩
    | bind he' hl' _ _ => rw [he] at he'; cases he'; rw [hl] at hl'; cases hl'
    | cut he' hl' _ => rw [he] at he'; cases he'; rw [hl] at hl'; cases hl'
    | err he' => rw [he] at he'; cases he'
    | plain he' hi => rw [he] at he'; cases he'; rw [hl] at hi; cases hi
    | fail he' hl' _ => rw [he] at he'; cases he'; rw [hl] at hl'; cases hl'
    | denied he' hl' _ => rw [he] at he'; cases he'; rw [hl] at hl'; cases hl'
    | bad he' hl' _ _ => rw [he] at he'; cases he'; rw [hl] at hl'; cases hl'
    | broken he' hl' _ _ _ => rw [he] at he'; cases he'; rw [hl] at hl'; cases hl'
    | act he' hl' _ _ _ => rw [he] at he'; cases he'; rw [hl] at hl'; cases hl'
  · rintro ⟨rfl, rfl⟩
    exact .ret he hl

/-- **`bind(return(v), k)` is `k(v)` (C69).** -/
theorem left_unit {os : Os L.E} {allow : Bool} {b a k v : L.T} (hb : IsBind L b a k) (ha : IsReturn L a v) (w : L.T) (h h' r) :
    Runs L os allow h (L.app1 b w) h' r ↔ Runs L os allow h (L.app2 k v w) h' r := by
  obtain ⟨u, he, hl⟩ := hb w
  obtain ⟨u', he', hl'⟩ := ha w
  rw [bind_iff he hl]
  simp only [ret_iff he' hl']
  constructor
  · rintro (⟨_, _, ⟨rfl, hv⟩, h2⟩ | ⟨_, ⟨_, hv⟩, _⟩)
    · cases hv; exact h2
    · cases hv
  · intro h2
    exact .inl ⟨h, v, ⟨rfl, rfl⟩, h2⟩

/-- **`bind(a, return)` is `a` (C69).** -/
theorem right_unit {os : Os L.E} {allow : Bool} {b a k : L.T} (hb : IsBind L b a k)
    (hk : ∀ v w, ∃ u, L.eval (L.app2 k v w) = some (.ok u) ∧ L.look u = .ret w v) (w : L.T) (h h' r) :
    Runs L os allow h (L.app1 b w) h' r ↔ Runs L os allow h (L.app1 a w) h' r := by
  obtain ⟨u, he, hl⟩ := hb w
  rw [bind_iff he hl]
  constructor
  · rintro (⟨h₁, v, h1, h2⟩ | ⟨e, h1, rfl⟩)
    · obtain ⟨u', he', hl'⟩ := hk v w
      rw [ret_iff he' hl'] at h2
      obtain ⟨rfl, rfl⟩ := h2
      exact h1
    · exact h1
  · intro h1
    cases r with
    | error e => exact .inr ⟨e, h1, rfl⟩
    | ok v =>
      obtain ⟨u', he', hl'⟩ := hk v w
      exact .inl ⟨h', v, h1, (ret_iff he' hl').2 ⟨rfl, rfl⟩⟩

theorem runs_congr {os : Os L.E} {allow : Bool} {t t' : L.T} {h h' r} (he : L.eval t = L.eval t') :
    Runs L os allow h t h' r ↔ Runs L os allow h t' h' r := by
  have key : ∀ {t t' : L.T} {h h' r}, L.eval t = L.eval t' → Runs L os allow h t h' r → Runs L os allow h t' h' r := by
    intro t t' h h' r he hr
    cases hr with
    | err h1 => exact .err (he ▸ h1)
    | plain h1 h2 => exact .plain (he ▸ h1) h2
    | ret h1 h2 => exact .ret (he ▸ h1) h2
    | fail h1 h2 h3 => exact .fail (he ▸ h1) h2 h3
    | denied h1 h2 h3 => exact .denied (he ▸ h1) h2 h3
    | bad h1 h2 h3 h4 => exact .bad (he ▸ h1) h2 h3 h4
    | broken h1 h2 h3 h4 h5 => exact .broken (he ▸ h1) h2 h3 h4 h5
    | act h1 h2 h3 h4 h5 => exact .act (he ▸ h1) h2 h3 h4 h5
    | bind h1 h2 h3 h4 => exact .bind (he ▸ h1) h2 h3 h4
    | cut h1 h2 h3 => exact .cut (he ▸ h1) h2 h3
  exact ⟨key he, key he.symm⟩

/-- **`bind(bind(a, k), j)` is `bind(a, x ↦ bind(k(x), j))` (C69).** -/
theorem assoc {os : Os L.E} {allow : Bool} {b b' b'' a k j kj : L.T} (hb : IsBind L b b' j) (hb' : IsBind L b' a k)
    (hb'' : IsBind L b'' a kj)
    (hkj : ∀ x w, ∃ u c, L.eval (L.app2 kj x w) = some (.ok u) ∧ L.look u = .bind w j c ∧
      L.eval (L.app1 c w) = L.eval (L.app2 k x w)) (w : L.T) (h h' r) :
    Runs L os allow h (L.app1 b w) h' r ↔ Runs L os allow h (L.app1 b'' w) h' r := by
  obtain ⟨u, he, hl⟩ := hb w
  obtain ⟨u', he', hl'⟩ := hb' w
  obtain ⟨u'', he'', hl''⟩ := hb'' w
  rw [bind_iff he hl, bind_iff he'' hl'']
  constructor
  · rintro (⟨h₁, v, h1, h2⟩ | ⟨e, h1, rfl⟩)
    · rw [bind_iff he' hl'] at h1
      obtain ⟨h₀, x, h3, h4⟩ | ⟨e, _, hc⟩ := h1
      · obtain ⟨y, c, hy, hly, hc⟩ := hkj x w
        exact .inl ⟨h₀, x, h3, (bind_iff hy hly).2 (.inl ⟨h₁, v, (runs_congr hc).2 h4, h2⟩)⟩
      · cases hc
    · rw [bind_iff he' hl'] at h1
      obtain ⟨h₀, x, h3, h4⟩ | ⟨e', h3, hc⟩ := h1
      · obtain ⟨y, c, hy, hly, hc⟩ := hkj x w
        exact .inl ⟨h₀, x, h3, (bind_iff hy hly).2 (.inr ⟨e, (runs_congr hc).2 h4, rfl⟩)⟩
      · exact .inr ⟨e', h3, hc⟩
  · rintro (⟨h₀, x, h1, h2⟩ | ⟨e, h1, rfl⟩)
    · obtain ⟨y, c, hy, hly, hc⟩ := hkj x w
      rw [bind_iff hy hly] at h2
      obtain ⟨h₁, v, h3, h4⟩ | ⟨e, h3, rfl⟩ := h2
      · exact .inl ⟨h₁, v, (bind_iff he' hl').2 (.inl ⟨h₀, x, h1, (runs_congr hc).1 h3⟩), h4⟩
      · exact .inr ⟨e, (bind_iff he' hl').2 (.inl ⟨h₀, x, h1, (runs_congr hc).1 h3⟩), rfl⟩
    · exact .inr ⟨e, (bind_iff he' hl').2 (.inr ⟨e, h1, rfl⟩), rfl⟩

/-- The laws apply to the small language: a `bind`, a `return`, and a continuation that binds. -/
example (a k : Tm) : IsBind small (.bindF a k) a k := fun w => ⟨.ioBind w k a, rfl, rfl⟩
example (v : Tm) : IsReturn small (.retF v) v := fun w => ⟨.ioRet w v, rfl, rfl⟩
example : ∀ v w : Tm, ∃ u, small.eval (small.app2 .retK v w) = some (.ok u) ∧ small.look u = .ret w v :=
  fun v w => ⟨.ioRet w v, rfl, rfl⟩
example (t j : Tm) : ∀ x w : Tm, ∃ u c, small.eval (small.app2 (.seqK (.const (.retF t)) j) x w) = some (.ok u) ∧
    small.look u = .bind w j c ∧ small.eval (small.app1 c w) = small.eval (small.app2 (.const (.retF t)) x w) :=
  fun x w => ⟨.ioBind w j (.app (.const (.retF t)) x), .app (.const (.retF t)) x, rfl, rfl, rfl⟩

/-! ## What a command is given -/

theorem splitNul_plain : ∀ (s : Str), '\x00' ∉ s → splitNul s = [s]
  | [], _ => rfl
  | c :: cs, h => by
    simp only [List.mem_cons, not_or] at h
    unfold splitNul
    rw [if_neg (fun e => h.1 e.symm), splitNul_plain cs h.2]

theorem splitNul_sep : ∀ (s t : Str), '\x00' ∉ s → splitNul (s ++ '\x00' :: t) = s :: splitNul t
  | [], t, _ => by simp [splitNul]
  | c :: cs, t, h => by
    simp only [List.mem_cons, not_or] at h
    simp only [List.cons_append]
    rw [splitNul, if_neg (fun e => h.1 e.symm), splitNul_sep cs t h.2]

theorem split_join : ∀ (ss : List Str), ss ≠ [] → (∀ s ∈ ss, '\x00' ∉ s) → splitNul (joinNul ss) = ss
  | [], h, _ => (h rfl).elim
  | [s], _, h => splitNul_plain s (h s (by simp))
  | s :: s' :: ss, _, h => by
    show splitNul (s ++ '\x00' :: joinNul (s' :: ss)) = _
    rw [splitNul_sep _ _ (h s (by simp)), split_join (s' :: ss) (by simp) (fun x hx => h x (by simp [hx]))]

theorem joinNul_nil : ∀ (ss : List Str), joinNul ss = [] → ss = [] ∨ ss = [[]]
  | [], _ => .inl rfl
  | [s], h => .inr (by rw [show s = [] from h])
  | s :: s' :: ss, h => by
    exfalso
    have : s ++ '\x00' :: joinNul (s' :: ss) = [] := h
    simp at this

/-- **What is joined with NUL comes apart again**, if no part has a NUL in it and the parts are not a single empty one. -/
theorem splitArgs_join (ss : List Str) (hn : ∀ s ∈ ss, '\x00' ∉ s) (he : ss ≠ [[]]) : splitArgs (joinNul ss) = ss := by
  unfold splitArgs
  cases ss with
  | nil => rfl
  | cons s ss =>
    cases hj : (joinNul (s :: ss)).isEmpty with
    | true =>
      have := joinNul_nil (s :: ss) (by simpa using hj)
      rcases this with h | h
      · cases h
      · exact (he h).elim
    | false =>
      simp only [Bool.false_eq_true, if_false]
      exact split_join _ (by simp) hn

theorem digit_digitChar {d : Nat} (h : d < 10) : digit d.digitChar = some d := by
  unfold digit
  rw [Nat.toNat_digitChar_of_lt_ten h]
  simp only [show 48 + d - 48 = d by omega]
  simp
  omega

theorem digits_append : ∀ (a b : Str) (n : Nat), digits n (a ++ b) = (digits n a).bind (fun m => digits m b)
  | [], b, n => rfl
  | c :: a, b, n => by
    simp only [List.cons_append, digits]
    cases digit c with
    | none => rfl
    | some d => exact digits_append a b _

theorem digits_toDigits (n : Nat) : digits 0 (Nat.toDigits 10 n) = some n := by
  induction n using Nat.strongRecOn with
  | ind n ih =>
    rw [Nat.toDigits_eq_if (by decide)]
    split
    · rename_i h
      simp [digits, digit_digitChar h]
    · rename_i h
      rw [digits_append, ih (n / 10) (by omega)]
      simp only [Option.bind_some, digits, digit_digitChar (Nat.mod_lt n (by decide : 0 < 10))]
      congr 1
      omega

/-- **A number written in digits is read as that number**, if it has no more than 64 bits. -/
theorem parse_written {n : Nat} (h : n < 2 ^ 64) : parseU64 (Nat.toDigits 10 n) = some n := by
  have hd := digits_toDigits n
  have hp := Nat.length_toDigits_pos (b := 10) (n := n)
  have hplus : '+' ∉ Nat.toDigits 10 n := by
    intro hm
    have := Nat.isDigit_of_mem_toDigits (by decide) (by decide) hm
    revert this
    decide
  unfold parseU64
  cases hq : Nat.toDigits 10 n with
  | nil => rw [hq] at hp; cases hp
  | cons c cs =>
    rw [hq] at hd hplus
    have hc : c ≠ '+' := fun e => hplus (e ▸ List.mem_cons_self)
    have key : ∀ ds : Str, ds = c :: cs → (match ds with
        | [] => none
        | _ => (digits 0 ds).bind (fun n => if n < 2 ^ 64 then some n else none)) = some n := by
      rintro _ rfl
      simp only [hd, Option.bind_some, if_pos h]
    apply key
    split
    · rename_i e
      exact (hc (List.cons.inj e).1).elim
    · rfl

/-- A list that is there already evaluates to itself. -/
def Settled (L : Lang) : Prop := ∀ t, isList L t = true → L.eval t = some (.ok t)

theorem isText_plain {t : L.T} {s : Str} (h : IsText L t s) :
    ∃ u, plainOf L t = some (.ok u) ∧ isList L u = false ∧ ∀ n, scalar L (n + 2) u = some (some s) := by
  obtain ⟨u, he, hl⟩ := h
  refine ⟨u, ?_, ?_, ?_⟩
  · unfold plainOf valueOf andThen
    rw [he]
    rcases hl with hl | ⟨i, hl, hi⟩
    · simp [hl, Look.isIo, boxInner]
    · simp [hl, hi, Look.isIo, boxInner]
  · rcases hl with hl | ⟨i, hl, hi⟩
    · simp [isList, hl]
    · simp [isList, hl]
  · intro n
    rcases hl with hl | ⟨i, hl, hi⟩
    · simp [scalar, hl]
    · simp [scalar, hl, hi]

theorem built_elements (hs : Settled L) : ∀ {u : L.T}, Built L u → ∀ {ss : List Str}, IsTexts L u ss →
    ∃ es, elements L (ss.length + 1) u = some es ∧ ∀ n, textsOf L (n + 2) es = some (.ok ss) := by
  intro u hb
  induction hb with
  | nil hl =>
    rename_i t
    intro ss ht
    have he := hs t (by simp [isList, hl])
    cases ht with
    | nil he' _ => exact ⟨[], by simp [elements, hl], fun n => rfl⟩
    | cons he' hl' _ _ => rw [he] at he'; cases he'; rw [hl] at hl'; cases hl'
  | cons hl _ ih =>
    rename_i t x s _
    intro ss ht
    have he := hs t (by simp [isList, hl])
    cases ht with
    | nil he' hl' => rw [he] at he'; cases he'; rw [hl] at hl'; cases hl'
    | cons he' hl' hx hxs =>
      rw [he] at he'; cases he'
      rw [hl] at hl'; cases hl'
      obtain ⟨es, h1, h2⟩ := ih hxs
      refine ⟨x :: es, ?_, ?_⟩
      · rw [List.length_cons, elements]
        simp only [hl, h1, Option.map_some]
      · intro n
        obtain ⟨u, hp, _, hsc⟩ := isText_plain hx
        unfold textsOf
        rw [hp]
        simp only [andThen, inTime, hsc n, Option.map_some, h2 n]

theorem elements_up {n k : Nat} {t : L.T} {r} (hk : n ≤ k) (h : elements L n t = some r) : elements L k t = some r := by
  induction hk with
  | refl => exact h
  | step _ ih => exact elements_mono _ _ ih

theorem entries_up {n k : Nat} {t : L.T} {r} (hk : n ≤ k) (h : entries L n t = some r) : entries L k t = some r := by
  induction hk with
  | refl => exact h
  | step _ ih => exact entries_mono _ _ ih

/-- The field that holds a list of texts, when the list is there already. -/
theorem fieldOf_texts (hs : Settled L) {t u : L.T} {ss : List Str} (he : L.eval t = some (.ok u)) (hb : Built L u)
    (ht : IsTexts L u ss) {n : Nat} (hn : ss.length + 2 ≤ n) :
    fieldOf L n t = some (.ok (if ss.isEmpty then none else some (joinNul ss))) := by
  obtain ⟨es, h1, h2⟩ := built_elements hs hb ht
  have hlist : isList L u = true := by
    cases hb with
    | nil hl => simp [isList, hl]
    | cons hl _ => simp [isList, hl]
  have hp : plainOf L t = some (.ok u) := by
    unfold plainOf valueOf andThen
    rw [he]
    cases hb with
    | nil hl => simp [hl, Look.isIo, boxInner]
    | cons hl _ => simp [hl, Look.isIo, boxInner]
  obtain ⟨m, rfl⟩ : ∃ m, n = m + 2 := ⟨n - 2, by omega⟩
  unfold fieldOf
  rw [hp]
  simp only [andThen, hlist, if_true, inTime, elements_up (show ss.length + 1 ≤ m + 2 by omega) h1, Option.map_some, h2 m]

/-- The field that holds a text. -/
theorem fieldOf_text {t : L.T} {s : Str} (h : IsText L t s) {n : Nat} (hn : 2 ≤ n) :
    fieldOf L n t = some (.ok (some s)) := by
  obtain ⟨u, hp, hl, hsc⟩ := isText_plain h
  obtain ⟨m, rfl⟩ : ∃ m, n = m + 2 := ⟨n - 2, by omega⟩
  unfold fieldOf
  rw [hp]
  simp only [andThen, hl, Bool.false_eq_true, if_false, inTime, hsc m, Option.map_some]

/-- The spec block `s` is `{:tag ...}` with the fields `raw`. -/
def HasFields (L : Lang) (s : L.T) (tag : Str) (raw : List (Str × L.T)) : Prop :=
  peelTag L 64 s = some tag ∧ ∃ b es n, L.eval (peel L 64 s) = some (.ok b) ∧ L.look b = .block es ∧
    entries L n es = some raw

/-- What `io.exec` should make of a list of texts: the full statement of C70 for it. -/
def ExecFaithful (L : Lang) : Prop := ∀ (s c a tm : L.T) (cmd : Str) (args : List Str) (secs : Nat),
  HasFields L s "io-exec".toList [("cmd".toList, c), ("args".toList, a), ("timeout".toList, tm)] →
  IsText L c cmd → IsTexts L a args → IsText L tm (Nat.toDigits 10 secs) → secs < 2 ^ 64 →
  ∃ n, specOf L n s = some (.ok (.exec cmd args none secs))

/-- **`io.exec` gives a command its arguments (C70)**, all of them and in order, if the list of them has been built already,
no argument has a NUL in it, and they are not one empty argument. -/
theorem exec_partial (hset : Settled L) {s c a tm u : L.T} {cmd : Str} {args : List Str} {secs : Nat}
    (hf : HasFields L s "io-exec".toList [("cmd".toList, c), ("args".toList, a), ("timeout".toList, tm)])
    (hc : IsText L c cmd) (hu : L.eval a = some (.ok u)) (hb : Built L u) (ha : IsTexts L u args)
    (hnul : ∀ x ∈ args, '\x00' ∉ x) (hone : args ≠ [[]]) (ht : IsText L tm (Nat.toDigits 10 secs))
    (hlt : secs < 2 ^ 64) : ∃ n, specOf L n s = some (.ok (.exec cmd args none secs)) := by
  have hp := parse_written hlt
  obtain ⟨htag, b, es, n₀, he, hl, hes⟩ := hf
  refine ⟨max n₀ (args.length + 2), ?_⟩
  unfold specOf
  have hv : valueOf L (peel L 64 s) = some (.ok b) := by
    unfold valueOf
    rw [he]
    simp [hl, Look.isIo]
  have hr : rawOf L (max n₀ (args.length + 2)) b =
      some (.ok [("cmd".toList, c), ("args".toList, a), ("timeout".toList, tm)]) := by
    unfold rawOf
    rw [hl]
    simp only [inTime, entries_up (Nat.le_max_left n₀ _) hes, Option.map_some]
  rw [hv]
  simp only [andThen, hr, fieldsOf, fieldOf_text hc (show 2 ≤ max n₀ (args.length + 2) by omega),
    fieldOf_texts hset hu hb ha (show args.length + 2 ≤ max n₀ (args.length + 2) by omega),
    fieldOf_text ht (show 2 ≤ max n₀ (args.length + 2) by omega)]
  rw [htag]
  congr 1
  cases args with
  | nil => simp [actionSpec, Fields.get, timeoutOf, stdinOf, hp, Option.join]
  | cons x xs =>
    have := splitArgs_join (x :: xs) hnul hone
    simp [actionSpec, Fields.get, timeoutOf, stdinOf, hp, Option.join, this]

theorem small_settled : Settled small := by
  intro t h
  cases t <;> first | rfl | cases h

/-- A case: `io.exec(["echo", "a", "b"])`. -/
example : ∃ n, specOf small n (.tagged "io-exec".toList (.blk (.cons (.kv "cmd".toList (txt "echo"))
    (.cons (.kv "args".toList (.cons (txt "a") (.cons (txt "b") .nil)))
      (.cons (.kv "timeout".toList (txt "30")) .nil))))) =
    some (.ok (.exec "echo".toList ["a".toList, "b".toList] none 30)) := by
  have tx : ∀ s : String, IsText small (txt s) s.toList := fun s => ⟨txt s, rfl, .inr ⟨.str s.toList, rfl, rfl⟩⟩
  refine exec_partial (u := (.cons (txt "a") (.cons (txt "b") .nil) : Tm)) small_settled ⟨rfl, _, _, 5, rfl, rfl, rfl⟩ (tx "echo") rfl
    (.cons rfl (.cons rfl (.nil rfl))) (.cons rfl rfl (tx "a") (.cons rfl rfl (tx "b") (.nil rfl rfl))) (by decide) (by decide)
    (tx "30") (by decide)

/-- A list of two whose tail is still to be evaluated, as `map` makes it. -/
def lazyArgs : Tm := .cons (txt "a") (.later (.cons (txt "b") .nil))

theorem small_text (s : String) : IsText small (txt s) s.toList := ⟨txt s, rfl, .inr ⟨.str s.toList, rfl, rfl⟩⟩

/-- The action made of a command and its arguments. -/
def execSpec (args : Tm) : Tm := .tagged "io-exec".toList
  (.blk (.cons (.kv "cmd".toList (txt "echo")) (.cons (.kv "args".toList args) (.cons (.kv "timeout".toList (txt "30")) .nil))))

theorem execSpec_fields (args : Tm) : HasFields small (execSpec args) "io-exec".toList
    [("cmd".toList, txt "echo"), ("args".toList, args), ("timeout".toList, txt "30")] := ⟨rfl, _, _, 5, rfl, rfl, rfl⟩

/-- **Arguments are lost (C70)**: the list is `a`, `b`, but its tail has not been evaluated, and the command is given `a`
alone. -/
theorem args_lost : ¬ ExecFaithful small := by
  intro h
  obtain ⟨n, hn⟩ := h (execSpec lazyArgs) (txt "echo") lazyArgs (txt "30") "echo".toList ["a".toList, "b".toList] 30
    (execSpec_fields lazyArgs) (small_text "echo")
    (.cons rfl rfl (small_text "a") (.cons (u := (.cons (txt "b") .nil : Tm)) rfl rfl (small_text "b") (.nil rfl rfl)))
    (small_text "30") (by decide)
  have hk : specOf small 10 (execSpec lazyArgs) = some (.ok (.exec "echo".toList ["a".toList] none 30)) := by decide +kernel
  have := specOf_agree hn hk
  simp at this

/-- **A single empty argument is lost (C70)**, although the list is there. -/
theorem args_empty : IsTexts small (.cons (txt "") .nil) [[]] ∧
    specOf small 10 (execSpec (.cons (txt "") .nil)) = some (.ok (.exec "echo".toList [] none 30)) :=
  ⟨.cons rfl rfl (small_text "") (.nil rfl rfl), by decide +kernel⟩

/-- **An argument with a NUL in it becomes two (C70).** -/
theorem args_nul : IsTexts small (.cons (txt "a\x00b") .nil) ["a\x00b".toList] ∧
    specOf small 10 (execSpec (.cons (txt "a\x00b") .nil)) =
      some (.ok (.exec "echo".toList ["a".toList, "b".toList] none 30)) :=
  ⟨.cons rfl rfl (small_text "a\x00b") (.nil rfl rfl), by decide +kernel⟩

/-- **`io.shell-with` gives a command its input and its time limit (C70)**, if the input is not empty and does not read
`null`, and the limit is a number of seconds. -/
theorem shell_partial {s c i tm : L.T} {cmd inp : Str} {secs : Nat}
    (hf : HasFields L s "io-shell".toList [("cmd".toList, c), ("timeout".toList, tm), ("stdin".toList, i)])
    (hc : IsText L c cmd) (hi : IsText L i inp) (hne : inp ≠ []) (hnull : inp ≠ "null".toList)
    (ht : IsText L tm (Nat.toDigits 10 secs)) (hlt : secs < 2 ^ 64) :
    ∃ n, specOf L n s = some (.ok (.shell cmd (some inp) secs)) := by
  have hp := parse_written hlt
  obtain ⟨htag, b, es, n₀, he, hl, hes⟩ := hf
  refine ⟨max n₀ 2, ?_⟩
  unfold specOf
  have hv : valueOf L (peel L 64 s) = some (.ok b) := by
    unfold valueOf
    rw [he]
    simp [hl, Look.isIo]
  have hr : rawOf L (max n₀ 2) b = some (.ok [("cmd".toList, c), ("timeout".toList, tm), ("stdin".toList, i)]) := by
    unfold rawOf
    rw [hl]
    simp only [inTime, entries_up (Nat.le_max_left n₀ _) hes, Option.map_some]
  rw [hv]
  simp only [andThen, hr, fieldsOf, fieldOf_text hc (show 2 ≤ max n₀ 2 by omega),
    fieldOf_text hi (show 2 ≤ max n₀ 2 by omega), fieldOf_text ht (show 2 ≤ max n₀ 2 by omega)]
  rw [htag]
  congr 1
  have h1 : inp.isEmpty = false := by cases inp with | nil => exact (hne rfl).elim | cons => rfl
  have h2 : (!decide (inp = "null".toList)) = true := by simpa using hnull
  simp [actionSpec, Fields.get, timeoutOf, stdinOf, hp, Option.join, Option.filter, h1]
  simpa using hnull

/-- The action made of a shell command, what it is to read, and its limit. -/
def shellSpec (stdin timeout : Tm) : Tm := .tagged "io-shell".toList
  (.blk (.cons (.kv "cmd".toList (txt "cat")) (.cons (.kv "timeout".toList timeout) (.cons (.kv "stdin".toList stdin) .nil))))

/-- A case: `cat`, with something to read. -/
example : ∃ n, specOf small n (shellSpec (txt "x") (txt "5")) = some (.ok (.shell "cat".toList (some "x".toList) 5)) :=
  shell_partial (L := small) (c := txt "cat") (i := txt "x") (tm := txt "5") (secs := 5) ⟨rfl, _, _, 5, rfl, rfl, rfl⟩
    (small_text "cat") (small_text "x") (by decide) (by decide) (small_text "5") (by decide)

/-- **An input that reads `null` is lost (C70)**: the command is given nothing to read. -/
theorem stdin_null : specOf small 10 (shellSpec (txt "null") (txt "5")) = some (.ok (.shell "cat".toList none 5)) := by
  decide +kernel

/-- **A limit that is not a whole number of seconds is 30 seconds (C70).** -/
theorem timeout_default : specOf small 10 (shellSpec (txt "x") (txt "1.5")) =
    some (.ok (.shell "cat".toList (some "x".toList) 30)) := by
  decide +kernel

end Verif.Io
