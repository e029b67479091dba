/-!
# Running one command

`run_command`, `src/driver/io_common.rs:242-289`: the command is started, what it is to read is written to it, and then a
thread waits for it while the driver waits for the thread no longer than the time limit.

The command is any program that works, reads, writes and exits.  A pipe holds no more than `cap` characters; to write to a
pipe that is full is to wait, and so is to read from one that is empty while the other end is open.  What the processes and
the thread do may be interleaved in any way; the time may run out at any moment at which it is being measured.

Simplifications: one output pipe instead of two; a command that cannot be started, which gives a result at once (254-269), is
left out; what is written is given as characters rather than bytes.
-/

namespace Verif.Pipe

abbrev Str := List Char

/-- What a command does next. -/
inductive Move (σ : Type) where
  | work (s : σ)
  | read (most : Nat) (k : Str → σ)
  | write (out : Str) (s : σ)
  | exit (code : Int)

/-- A command: its states and what it does in each. -/
structure Cmd where
  σ : Type
  next : σ → Move σ
  init : σ

/-- `CommandResult` or `IoRunError`, io_common.rs:27-56. -/
inductive Outcome where
  | result (out : Str) (code : Int)
  | broken
  | timeout
deriving DecidableEq

/-- Where the driver is: writing what is left (271-277), waiting (281-288), or done. -/
inductive Phase where
  | writing (left : Str)
  | waiting
  | over (o : Outcome)
deriving DecidableEq

/-- The whole: the driver, the pipe into the command and whether its end is still open, the pipe out of it, the command (with
what it is in the middle of writing) or its exit code, and what the thread has read. -/
structure Sys (C : Cmd) where
  phase : Phase
  inp : Str
  inOpen : Bool
  out : Str
  pending : Str
  child : C.σ ⊕ Int
  got : Str

/-- After `spawn`, io_common.rs:248-271: with something to write, or with nothing and no input at all. -/
def begin (C : Cmd) (stdin : Option Str) : Sys C := match stdin with
  | some s => ⟨.writing s, [], true, [], [], .inl C.init, []⟩
  | none => ⟨.waiting, [], false, [], [], .inl C.init, []⟩

/-- A step of the driver itself. -/
inductive Ours (C : Cmd) (cap : Nat) : Sys C → Sys C → Prop where
  /-- `write_all`, io_common.rs:273: something goes into the pipe. -/
  | write {s c left} : s.phase = .writing (c :: left) → s.inp.length < cap → s.child.isLeft = true →
      Ours C cap s { s with phase := .writing left, inp := s.inp ++ [c] }
  /-- `write_all` to a command that is gone, io_common.rs:273-274. -/
  | broken {s c left} : s.phase = .writing (c :: left) → s.child.isLeft = false →
      Ours C cap s { s with phase := .over .broken }
  /-- All is written, and the pipe is closed, io_common.rs:275-277. -/
  | close {s} : s.phase = .writing [] → Ours C cap s { s with phase := .waiting, inOpen := false }
  /-- `wait_with_output`, io_common.rs:283: the thread reads. -/
  | gather {s c rest} : s.phase = .waiting → s.out = c :: rest →
      Ours C cap s { s with out := rest, got := s.got ++ [c] }
  /-- The thread has everything, io_common.rs:286-295. -/
  | done {s code} : s.phase = .waiting → s.child = .inr code → s.out = [] → s.pending = [] →
      Ours C cap s { s with phase := .over (.result s.got code) }
  /-- `recv_timeout`, io_common.rs:286 and 297. -/
  | timeout {s} : s.phase = .waiting → Ours C cap s { s with phase := .over .timeout }

/-- A step of the command. -/
inductive Theirs (C : Cmd) (cap : Nat) : Sys C → Sys C → Prop where
  | flush {s c rest} : s.pending = c :: rest → s.out.length < cap →
      Theirs C cap s { s with pending := rest, out := s.out ++ [c] }
  | work {s q q'} : s.pending = [] → s.child = .inl q → C.next q = .work q' → Theirs C cap s { s with child := .inl q' }
  | write {s q o q'} : s.pending = [] → s.child = .inl q → C.next q = .write o q' →
      Theirs C cap s { s with pending := o, child := .inl q' }
  | read {s q most k n} : s.pending = [] → s.child = .inl q → C.next q = .read most k → 0 < n → n ≤ most →
      n ≤ s.inp.length → Theirs C cap s { s with inp := s.inp.drop n, child := .inl (k (s.inp.take n)) }
  | eof {s q most k} : s.pending = [] → s.child = .inl q → C.next q = .read most k → s.inp = [] → s.inOpen = false →
      Theirs C cap s { s with child := .inl (k []) }
  | exit {s q code} : s.pending = [] → s.child = .inl q → C.next q = .exit code →
      Theirs C cap s { s with child := .inr code }

/-- Any step. -/
def Step (C : Cmd) (cap : Nat) (s s' : Sys C) : Prop := Ours C cap s s' ∨ Theirs C cap s s'

/-- Some steps. -/
inductive Reach (C : Cmd) (cap : Nat) : Sys C → Sys C → Prop where
  | refl {s} : Reach C cap s s
  | tail {s t u} : Reach C cap s t → Step C cap t u → Reach C cap s u

end Verif.Pipe
