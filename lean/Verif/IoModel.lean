/-!
# Programs that run commands

`src/driver/bytecode_io_run.rs` and the part of `src/driver/io_common.rs` that makes a command out of what the program says;
`src/driver/eval.rs:587-622`, which calls them; and, of `src/eval/bytecode/machine.rs`, the part they use.

The machine itself is a parameter, `Lang`: a type of values, what each looks like when it is not evaluated further, and what
evaluating it comes to.  What is modelled is the driver round it, with the stash by which it keeps values over a run that may
move everything in memory.  A value held by the driver is a `Ref`: the value, and the age of the heap in which it was found.
A collection makes the heap a new age; what is on the stash is carried over, and what is not may no longer be looked at.

Simplifications: an operation that only allocates does not collect (`gc_poll` is called from the dispatch loop and nowhere
else, machine.rs:578-592, and at the end of a run, 3260 and 3705); allocation does not fail; source positions are left out; the container frame against which
`peel_io_spec` resolves the body of a `Meta` is part of what `look` sees; what the operating system answers is a function of
the commands run so far.
-/

namespace Verif.Io

/-- A string, as its characters. -/
abbrev Str := List Char

/-! ## Values -/

/-- What is to be seen of a value without evaluating it: a native and its text (`scalar_from_native`, machine.rs:4287-4299),
one of the constructors of stg/tags.rs:11-46 with its fields resolved, or one of the three kinds of code which
`peel_io_spec` can see through (machine.rs:3741-3798).  The key of a pair is as `value_symbol` finds it
(machine.rs:931-967). -/
inductive Look (T : Type) where
  | native (s : Option Str)
  | box (t : T)
  | null | yes | no
  | nil | cons (head tail : T)
  | block (entries : T)
  | pair (key : Option Str) (v : T)
  | atom (t : T) | ann (t : T) | tagged (tag : Option Str) (body : T)
  | ret (w v : T) | bind (w k a : T) | act (w s : T) | fail (w e : T)
  | other
deriving DecidableEq

/-- `DataConstructor::is_io_constructor`, stg/tags.rs:108-113: the constructors on which the machine yields
(machine.rs:1041-1047). -/
def Look.isIo {T : Type} : Look T → Bool
  | .ret .. | .bind .. | .act .. | .fail .. => true
  | _ => false

/-- What a command gives back: `CommandResult`, io_common.rs:51-56. -/
structure Reply where
  out : Str
  err : Str
  code : Int
deriving DecidableEq

/-- The machine the driver drives: its values, how they look, what evaluating one comes to (`none` if it does not end),
and the values that the driver can build (machine.rs:3907-4019 and bytecode_io_run.rs:300-307). -/
structure Lang where
  T : Type
  E : Type
  look : T → Look T
  eval : T → Option (Except E T)
  app1 : T → T → T
  app2 : T → T → T → T
  unit : T
  result : Reply → T
  ioReturn : T → T → T
  isFun : T → Bool
  render : T → T

/-- A command as it is handed over: `ActionSpec`, io_common.rs:62-74. -/
inductive Spec where
  | shell (cmd : Str) (stdin : Option Str) (secs : Nat)
  | exec (cmd : Str) (args : List Str) (stdin : Option Str) (secs : Nat)
deriving DecidableEq

/-- Why a run stops: `IoRunError`, io_common.rs:27-39.  The panics of the driver itself are one case. -/
inductive Stop (E : Type) where
  | failed (msg : Str)
  | denied
  | timeout (secs : Nat)
  | command (msg : Str)
  | machine (e : E)
  | noCmd
  | unknown
  | panic
deriving DecidableEq

/-- What the operating system makes of a command, given those run before: `run_spec`, io_common.rs:292-334. -/
abbrev Os (E : Type) := List Spec → Spec → Except (Stop E) Reply

/-! ## From fields to a command -/

/-- `HashMap<String, Option<String>>`, latest first. -/
abbrev Fields := List (Str × Option Str)

/-- `fields.get(k)` -/
def Fields.get (fs : Fields) (k : Str) : Option (Option Str) := (fs.find? (fun p => p.1 = k)).map (·.2)

/-- `fields.contains_key(k)` -/
def Fields.has (fs : Fields) (k : Str) : Bool := fs.any (fun p => p.1 = k)

/-- The value of a digit. -/
def digit (c : Char) : Option Nat :=
  if 48 ≤ c.toNat && c.toNat ≤ 57 then some (c.toNat - 48) else none

/-- The value of a row of digits, most significant first. -/
def digits : Nat → Str → Option Nat
  | n, [] => some n
  | n, c :: cs => match digit c with
    | some d => digits (10 * n + d) cs
    | none => none

/-- `s.parse::<u64>().ok()`: digits, perhaps after a plus sign, that make a number of 64 bits. -/
def parseU64 (s : Str) : Option Nat :=
  let ds := match s with
    | '+' :: rest => rest
    | _ => s
  match ds with
  | [] => none
  | _ => (digits 0 ds).bind (fun n => if n < 2 ^ 64 then some n else none)

/-- The time limit, io_common.rs:104-108. -/
def timeoutOf (fs : Fields) : Nat := ((fs.get "timeout".toList).join.bind parseU64).getD 30

/-- What is written to the command, io_common.rs:110-113. -/
def stdinOf (fs : Fields) : Option Str :=
  (fs.get "stdin".toList).join.filter (fun s => !s.isEmpty && s ≠ "null".toList)

/-- `infer_action_tag`, io_common.rs:162-172. -/
def inferTag (fs : Fields) : Option Str :=
  if fs.has "args".toList then some "io-exec".toList
  else if fs.has "cmd".toList then some "io-shell".toList
  else if fs.has "message".toList then some "io-fail".toList
  else none

/-- Cut at each NUL: `s.split('\x00')`. -/
def splitNul : Str → List Str
  | [] => [[]]
  | c :: cs =>
    if c = '\x00' then [] :: splitNul cs
    else match splitNul cs with
      | [] => [[c]]
      | p :: ps => (c :: p) :: ps

/-- `split_nul_args`, io_common.rs:194-200. -/
def splitArgs (s : Str) : List Str := if s.isEmpty then [] else splitNul s

/-- `parts.join("\x00")`. -/
def joinNul : List Str → Str
  | [] => []
  | [p] => p
  | p :: ps => p ++ '\x00' :: joinNul ps

/-- `action_spec_from_fields`, io_common.rs:99-157, with `require_cmd`, io_common.rs:175-189. -/
def actionSpec {E : Type} (tag : Option Str) (fs : Fields) : Except (Stop E) Spec :=
  match tag.orElse (fun _ => inferTag fs) with
  | some t =>
    if t = "io-exec".toList then
      match (fs.get "cmd".toList).join with
      | some c => .ok (.exec c (((fs.get "args".toList).join.map splitArgs).getD []) (stdinOf fs) (timeoutOf fs))
      | none => .error .noCmd
    else if t = "io-shell".toList then
      match (fs.get "cmd".toList).join with
      | some c => .ok (.shell c (stdinOf fs) (timeoutOf fs))
      | none => .error .noCmd
    else if t = "io-fail".toList then
      .error (.failed (((fs.get "message".toList).join).getD "io.fail".toList))
    else .error .unknown
  | none => .error .unknown

/-! ## Looking at values -/

section Looking
variable (L : Lang)

/-- `whnf_scalar_string`, machine.rs:4025-4082; the outer `none` when it has not come to an end. -/
def scalar : Nat → L.T → Option (Option Str)
  | 0, _ => none
  | n + 1, t => match L.look t with
    | .native s => some s
    | .atom u => scalar n u
    | .null => some (some [])
    | .yes => some (some "true".toList)
    | .no => some (some "false".toList)
    | .box u => scalar n u
    | _ => some none

/-- `value_is_list`, machine.rs:4082-4092. -/
def isList (t : L.T) : Bool := match L.look t with
  | .nil | .cons .. => true
  | _ => false

/-- `list_element_values`, machine.rs:4096-4140: the elements as far as the list is already built. -/
def elements : Nat → L.T → Option (List L.T)
  | 0, _ => none
  | n + 1, t => match L.look t with
    | .cons h u => (elements n u).map (h :: ·)
    | _ => some []

/-- The loop of `block_field_values`, machine.rs:4215-4281. -/
def entries : Nat → L.T → Option (List (Str × L.T))
  | 0, _ => none
  | n + 1, t => match L.look t with
    | .cons h u => match L.look h with
      | .pair (some k) v => (entries n u).map ((k, v) :: ·)
      | _ => entries n u
    | _ => some []

/-- `peel_box_inner`, machine.rs:4146-4173. -/
def boxInner (t : L.T) : Option L.T := match L.look t with
  | .box u => match L.look u with
    | .native _ => none
    | _ => some u
  | _ => none

/-- `peel_io_spec`, machine.rs:3730-3799. -/
def peel : Nat → L.T → L.T
  | 0, t => t
  | n + 1, t => match L.look t with
    | .atom u => peel n u
    | .ann u => peel n u
    | .tagged _ b => b
    | _ => t

/-- `peel_io_spec_tag`, machine.rs:3816-3877. -/
def peelTag : Nat → L.T → Option Str
  | 0, _ => none
  | n + 1, t => match L.look t with
    | .atom u => peelTag n u
    | .ann u => peelTag n u
    | .tagged g _ => g
    | _ => none

end Looking

/-! ## The machine as the driver holds it -/

/-- A value held by the driver: what it is, and the age of the heap when it was found there. -/
structure Ref (T : Type) where
  val : T
  age : Nat

/-- `BcMachineState` as far as the driver touches it (machine.rs:300-320): the age of the heap, the stash with its top first,
the current value, whether the machine has yielded, how many runs there have been; and the commands run so far. -/
structure Mach (T : Type) where
  age : Nat
  stash : List (Ref T)
  now : Ref T
  yielded : Bool
  runs : Nat
  done : List Spec

/-- How a piece of the driver comes out: with an answer, with an error, with a panic or a stale value in its hands, or not at
all (the machine does not end, or the turns allowed are used up). -/
inductive Res (L : Lang) (α : Type) where
  | ok (a : α) (m : Mach L.T)
  | stop (e : Stop L.E) (m : Mach L.T)
  | fault (m : Mach L.T)
  | away (m : Mach L.T)

/-- A piece of the driver. -/
abbrev Drive (L : Lang) (α : Type) := Mach L.T → Res L α

namespace Drive
variable {L : Lang} {α β : Type}

/-- `Ok(a)` -/
def pure (a : α) : Drive L α := fun m => .ok a m
/-- `Err(e)?` -/
def stop (e : Stop L.E) : Drive L α := fun m => .stop e m
/-- One thing after another, with `?` between. -/
def bind (x : Drive L α) (f : α → Drive L β) : Drive L β := fun m => match x m with
  | .ok a m' => f a m'
  | .stop e m' => .stop e m'
  | .fault m' => .fault m'
  | .away m' => .away m'

instance : Monad (Drive L) := { pure := Drive.pure, bind := Drive.bind }

/-- Something that may not come to an end. -/
def ends (x : Option α) : Drive L α := fun m => match x with
  | some a => .ok a m
  | none => .away m

end Drive

section Ops
variable (L : Lang)

/-- To look at a value it must belong to the heap as it is now. -/
def open' (r : Ref L.T) : Drive L L.T := fun m => if r.age = m.age then .ok r.val m else .fault m

/-- A value found in, or built on, the heap as it is now. -/
def held (t : L.T) : Drive L (Ref L.T) := fun m => .ok ⟨t, m.age⟩ m

/-- `stash_push`, machine.rs:3587-3589. -/
def push (r : Ref L.T) : Drive L Unit := fun m => .ok () { m with stash := r :: m.stash }

/-- `stash_pop`, machine.rs:3592-3597: a panic when there is nothing there. -/
def pop : Drive L (Ref L.T) := fun m => match m.stash with
  | r :: rs => .ok r { m with stash := rs }
  | [] => .fault m

/-- `stash_peek`, machine.rs:3600-3603: a panic when the stash is not so deep. -/
def peek (d : Nat) : Drive L (Ref L.T) := fun m => match m.stash[d]? with
  | some r => .ok r m
  | none => .fault m

/-- `resume`, machine.rs:3608-3612. -/
def resume (r : Ref L.T) : Drive L Unit := fun m => .ok () { m with now := r, yielded := false }

/-- Carry a value over to a heap of another age, if it was good in the heap as it was. -/
def carry {T : Type} (old new : Nat) (r : Ref T) : Ref T := if r.age = old then ⟨r.val, new⟩ else r

/-- What a run does to everything but the value it is for: if `gc` says that it collects, all that is reachable from the
stash and the current value is moved (machine.rs:687-689, 726-728). -/
def moved (gc : Nat → Bool) {T : Type} (m : Mach T) : Mach T :=
  let age := if gc m.runs then m.age + 1 else m.age
  { m with age := age, stash := m.stash.map (carry m.age age), now := carry m.age age m.now, runs := m.runs + 1 }

/-- `run`, machine.rs (the dispatch loop, which collects when asked): the current value is evaluated, and the machine is seen
to have yielded if what it comes to is one of the constructors of the monad. -/
def run (gc : Nat → Bool) : Drive L Unit := fun m =>
  if m.now.age = m.age then
    let m' := moved gc m
    match L.eval m.now.val with
    | none => .away m'
    | some (.error e) => .stop (.machine e) m'
    | some (.ok t) => .ok () { m' with now := ⟨t, m'.age⟩, yielded := (L.look t).isIo }
  else .fault m

/-- `evaluate_to_whnf_for_io`, machine.rs:3654-3668, with `enter_whnf_subrun` and `exit_whnf_subrun`, 604-662: the current
value goes on the stash for the time being, and comes back before an error is passed on. -/
def whnf (gc : Nat → Bool) (r : Ref L.T) : Drive L (Ref L.T) := fun m =>
  match run L gc { m with now := r, stash := m.now :: m.stash, yielded := false } with
  | .ok () m' => match m'.stash with
    | c :: cs =>
      let back := { m' with now := c, stash := cs, yielded := true }
      if m'.yielded then .stop .panic back else .ok m'.now back
    | [] => .fault m'
  | .stop e m' => match m'.stash with
    | c :: cs => .stop e { m' with now := c, stash := cs, yielded := true }
    | [] => .fault m'
  | .fault m' => .fault m'
  | .away m' => .away m'

/-- `build_apply1`, machine.rs:3907-3919. -/
def apply1 (f a : Ref L.T) : Drive L (Ref L.T) := do
  let f ← open' L f
  let a ← open' L a
  held L (L.app1 f a)

/-- `build_apply2`, machine.rs:3922-3939. -/
def apply2 (f a b : Ref L.T) : Drive L (Ref L.T) := do
  let f ← open' L f
  let a ← open' L a
  let b ← open' L b
  held L (L.app2 f a b)

/-! ## The command of an action -/

/-- `force_field`, bytecode_io_run.rs:124-137. -/
def forceField (gc : Nat → Bool) (r : Ref L.T) : Drive L (Ref L.T) := do
  let w ← whnf L gc r
  let t ← open' L w
  match boxInner L t with
  | some u => do
    let u ← held L u
    whnf L gc u
  | none => pure w

/-- Put values on the stash so that they come off first one first: bytecode_io_run.rs:74-76 and 93-95. -/
def pushAll : List L.T → Drive L Unit
  | [] => pure ()
  | t :: ts => do
    pushAll ts
    let r ← held L t
    push L r

/-- The loop over the elements of a list, bytecode_io_run.rs:96-103. -/
def partsLoop (gc : Nat → Bool) (turns : Nat) : Nat → Drive L (List Str)
  | 0 => pure []
  | n + 1 => do
    let e ← pop L
    let w ← forceField L gc e
    let t ← open' L w
    let s ← Drive.ends (scalar L turns t)
    let rest ← partsLoop gc turns n
    pure (match s with
      | some s => s :: rest
      | none => rest)

/-- What a field comes to, bytecode_io_run.rs:81-112. -/
def fieldText (gc : Nat → Bool) (turns : Nat) (raw : Ref L.T) : Drive L (Option Str) := do
  let w ← forceField L gc raw
  let t ← open' L w
  if isList L t then do
    let es ← Drive.ends (elements L turns t)
    pushAll L es
    let parts ← partsLoop L gc turns es.length
    pure (if parts.isEmpty then none else some (joinNul parts))
  else Drive.ends (scalar L turns t)

/-- The loop over the fields, bytecode_io_run.rs:78-114. -/
def fieldsLoop (gc : Nat → Bool) (turns : Nat) : List Str → Fields → Drive L Fields
  | [], fs => pure fs
  | k :: ks, fs => do
    let raw ← pop L
    let s ← fieldText L gc turns raw
    fieldsLoop gc turns ks ((k, s) :: fs)

/-- `block_field_values`, machine.rs:4178-4283: the value must be a block. -/
def blockFields (turns : Nat) (t : L.T) : Drive L (List (Str × L.T)) := match L.look t with
  | .block es => Drive.ends (entries L turns es)
  | _ => Drive.stop .panic

/-- `evaluate_spec_block`, bytecode_io_run.rs:44-121. -/
def specBlock (gc : Nat → Bool) (turns : Nat) (spec : Ref L.T) : Drive L Spec := do
  let t ← open' L spec
  let tag := peelTag L 64 t
  let body ← held L (peel L 64 t)
  let block ← whnf L gc body
  let b ← open' L block
  let raw ← blockFields L turns b
  pushAll L (raw.map (·.2))
  let fs ← fieldsLoop L gc turns (raw.map (·.1)) []
  match actionSpec tag fs with
  | .ok s => pure s
  | .error e => Drive.stop e

/-! ## The loop -/

/-- `run_spec`, io_common.rs:292-334: the command is run, and that it was is on record. -/
def runSpec (os : Os L.E) (s : Spec) : Drive L Reply := fun m =>
  let m' := { m with done := m.done ++ [s] }
  match os m.done s with
  | .ok r => .ok r m'
  | .error e => .stop e m'

/-- `machine.evaluate_to_whnf_for_io(error_value).ok().and_then(...)`, bytecode_io_run.rs:178-183: what a failure says. -/
def failText (gc : Nat → Bool) (turns : Nat) (r : Ref L.T) : Drive L Str := fun m => match whnf L gc r m with
  | .ok w m' => (do
      let t ← open' L w
      let s ← Drive.ends (scalar L turns t)
      pure (s.getD "IO monad failure".toList)) m'
  | .stop _ m' => .ok "IO monad failure".toList m'
  | .fault m' => .fault m'
  | .away m' => .away m'

/-- `io_run`, bytecode_io_run.rs:145-297, for so many turns. -/
def ioRun (gc : Nat → Bool) (os : Os L.E) (allow : Bool) : Nat → Drive L (Ref L.T)
  | 0 => fun m => .away m
  | n + 1 => do
    let y ← (fun m => Res.ok m.yielded m)
    let now ← (fun m => Res.ok m.now m)
    if !y then Drive.stop .panic else do
    let t ← open' L now
    match L.look t with
    | .ret _ v => held L v
    | .fail _ e => do
      let r ← held L e
      let msg ← failText L gc n r
      Drive.stop (.failed msg)
    | .act w s =>
      if !allow then Drive.stop .denied else do
      let w ← held L w
      let s ← held L s
      push L w
      let spec ← specBlock L gc n s
      let reply ← runSpec L os spec
      let res ← held L (L.result reply)
      push L res
      let res ← pop L
      let w ← pop L
      let w ← open' L w
      let res ← open' L res
      let r ← held L (L.ioReturn w res)
      push L r
      let r ← peek L 0
      resume L r
      run L gc
      let _ ← pop L
      ioRun gc os allow n
    | .bind w k a => do
      let w ← held L w
      let k ← held L k
      let a ← held L a
      push L k
      push L w
      let w ← peek L 0
      let aw ← apply1 L a w
      push L aw
      let aw ← peek L 0
      resume L aw
      run L gc
      let _ ← pop L
      let y ← (fun m => Res.ok m.yielded m)
      if !y then Drive.stop .panic else do
      let v ← ioRun gc os allow n
      push L v
      let v ← peek L 0
      let w ← peek L 1
      let k ← peek L 2
      let c ← apply2 L k v w
      let _ ← pop L
      let _ ← pop L
      let _ ← pop L
      push L c
      let c ← peek L 0
      resume L c
      run L gc
      let _ ← pop L
      ioRun gc os allow n
    | _ => Drive.stop .panic

/-! ## A whole program -/

/-- `build_render_doc` and the run after it, bytecode_io_run.rs:300-307 and 339-344: the value is written out. -/
def renderValue (gc : Nat → Bool) (r : Ref L.T) : Drive L Unit := do
  let t ← open' L r
  let c ← held L (L.render t)
  resume L c
  run L gc

/-- `io_run_and_render`, bytecode_io_run.rs:348-356. -/
def ioRunAndRender (gc : Nat → Bool) (os : Os L.E) (allow : Bool) (n : Nat) : Drive L Unit := do
  let v ← ioRun L gc os allow n
  renderValue L gc v

/-- `inject_world_and_run`, bytecode_io_run.rs:313-334. -/
def inject (gc : Nat → Bool) : Drive L Bool := do
  let now ← (fun m => Res.ok m.now m)
  let t ← open' L now
  if !L.isFun t then pure false else do
  let c ← held L (L.app1 t L.unit)
  resume L c
  run L gc
  fun m => .ok m.yielded m

/-- `Executor::execute` from the first run on, driver/eval.rs:587-622, starting with the program as the current value. -/
def perform (gc : Nat → Bool) (os : Os L.E) (allow : Bool) (n : Nat) : Drive L Unit := do
  run L gc
  let y ← (fun m => Res.ok m.yielded m)
  if y then ioRunAndRender L gc os allow n else do
  let y ← inject L gc
  if y then ioRunAndRender L gc os allow n else do
  let now ← (fun m => Res.ok m.now m)
  renderValue L gc now

/-- The machine before the first run (`BytecodeMachine::new`, machine.rs). -/
def start (root : L.T) : Mach L.T := ⟨0, [], ⟨root, 0⟩, false, 0, []⟩

end Ops

end Verif.Io
