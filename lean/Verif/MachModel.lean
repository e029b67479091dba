import Verif.EnvModel
import Verif.SemSpec

/-!
# The machine

`src/eval/bytecode/machine.rs`: the state, the return rules and the dispatch, over the syntax trees of `BcModel` and the
frames of `EnvModel`.  That the bytes and the pre-decoded records say what the trees say is `BcProps` and `EngProps`;
here a closure's code is a tree.

Not modelled: source annotations and traces; `LookupLit` (it stops with `outside`); intrinsics other than those that read
natives and give back something to evaluate (no forcing inside an intrinsic, no captures, no effects); collection
(`GcProps`, `HeapProps`); tick and heap limits; the stop at an effect constructor (`yielded_io`), which is a normal stop
here.  `Err` is shared with the reference semantics, `SemSpec`: the messages and locations of `ExecutionError` are dropped.
-/

namespace Verif.Mach
open Verif.Bc Verif.Env Verif.Sem

/-- `BcValue`, closure.rs:104-107, with the fields of `BcClosure`, closure.rs:23-60. -/
inductive MVal (K : Type) where
  | native (k : K)
  | clo (upd : Bool) (arity : Nat) (code : Syn K) (env : Chain)

variable {K : Type}

/-- `BcClosure::new`, closure.rs. -/
def MVal.new (code : Syn K) (env : Chain) : MVal K := .clo false 0 code env

/-- `form_info`, machine.rs:1934-1940, and `BcClosure::close`. -/
def closeForm (f : Form K) (env : Chain) : MVal K :=
  match f.head with
  | .thunk => .clo true 0 f.body env
  | .lambda b _ => .clo false b f.body env
  | .value => .clo false 0 f.body env

/-- `BcContinuation`, cont.rs:25-137, without annotations, `CaptureEnd` and `LookupLitForce`. -/
inductive Cont (K : Type) where
  | branch (bs : Brs K) (fb : Fb K) (env : Chain)
  | update (env : Chain) (index : Nat)
  | applyTo (args : Arr)
  | deMeta (handler orElse : Syn K) (env : Chain)
  | seqBind (body : Syn K) (env : Chain)
  | fusedLeft (id : Nat) (right : Ref K) (env : Chain)
  | fusedRight (id : Nat) (left : MVal K) (env : Chain)

/-- What the machine runs: the world of the reference semantics, and whether the annotations have been peeled off the code
(`EU_PREDECODE`, on unless told otherwise; predecode.rs:300-330). -/
structure Prog (K : Type) extends World K where
  peel : Bool

/-- The part of `BcMachineState`, machine.rs:662-712, that the rules read and write. -/
structure State (K : Type) where
  store : Store (MVal K)
  cur : MVal K
  stack : List (Cont K)

/-- What one step does. -/
inductive Step (K : Type) where
  | next (s : State K)
  | done (s : State K)
  | error (x : Err)

/-- The root frame is array 0 and the globals' frame array 1, in `BytecodeMachine::new`, machine.rs:3180-3205.  (With no
globals the code uses the root frame for both; both are then empty.) -/
def rootEnv : Chain := [Frame.new ⟨0, 0⟩ 0]
def globalsEnv (P : Prog K) : Chain := Frame.new ⟨1, P.globals.length⟩ 0 :: rootEnv

/-- `BytecodeMachine::new`, machine.rs:3136-3232. -/
def init (P : Prog K) (root : Syn K) : State K :=
  ⟨[[], P.globals.map (closeForm · rootEnv)], .new root rootEnv, []⟩

/-- `resolve_ref`, machine.rs:108-131; constants are in the tree. -/
def resolveRef (P : Prog K) (σ : Store (MVal K)) (env : Chain) : Ref K → Except Err (MVal K)
  | .l i => match get σ env i with
    | some v => .ok v
    | none => .error (.badIndex i)
  | .g i => match get σ (globalsEnv P) i with
    | some v => .ok v
    | none => .error (.badGlobal i)
  | .v k => .ok (.native k)

def resolveRefs (P : Prog K) (σ : Store (MVal K)) (env : Chain) : List (Ref K) → Except Err (List (MVal K))
  | [] => .ok []
  | r :: rs => match resolveRef P σ env r with
    | .error x => .error x
    | .ok v => match resolveRefs P σ env rs with
      | .error x => .error x
      | .ok vs => .ok (v :: vs)

/-- The arguments of `classify` (`EnvModel`), which asks only which are local and where. -/
def toArg : Ref K → Arg
  | .l i => .loc i
  | .g i => .glob i
  | .v _ => .val 0

/-- `env_from_data_args`, machine.rs:809-853, and its copying, 859-900. -/
def dataEnv (P : Prog K) (σ : Store (MVal K)) (cons : Chain) (args : List (Ref K)) (next : Chain) :
    Except Err (Store (MVal K) × Chain) :=
  match cons with
  | [] => .error .outside
  | f :: _ =>
    match classify (args.map toArg) f with
    | .sequential => .ok (σ, Frame.new f.bindings 0 :: next)
    | .remapped remap => .ok (σ, Frame.newRemapped f.bindings remap 0 :: next)
    | .copy => match resolveRefs P σ cons args with
      | .error x => .error x
      | .ok vs => .ok (saturate σ vs 0 next)

/-- `enter_local`, machine.rs:1956-1985, and `enter_global`, 1997-2026: the slot's value becomes current; a thunk is
black-holed and an update is pushed. `x` is the error for a slot that is not there. -/
def enterSlot (s : State K) (env : Chain) (i : Nat) (x : Err) : Step K :=
  match get s.store env i with
  | none => .error x
  | some v =>
    match v with
    | .clo true _ _ _ =>
      match update s.store env i (.new .hole env) with
      | none => .error x
      | some σ => .next ⟨σ, v, .update env i :: s.stack⟩
    | _ => .next { s with cur := v }

/-- The `Atom` case of `handle_op_predecoded`, machine.rs:2604-2624, and `enter_meta_body`, 1790-1806.  A constant
becomes current here; the code returns it in the same step. -/
def enterRef (P : Prog K) (s : State K) (env : Chain) : Ref K → Step K
  | .l i => enterSlot s env i (.badIndex i)
  | .g i => enterSlot s (globalsEnv P) i (.badGlobal i)
  | .v k => .next { s with cur := .native k }

/-- `enter_callable`, machine.rs:2030-2047. -/
def enterCallable (P : Prog K) (s : State K) (env : Chain) : Ref K → Step K
  | .v _ => .error .notCallable
  | r => enterRef P s env r

/-- The code a look at a node sees: past annotations when they have been peeled. -/
def peeled (P : Prog K) : Syn K → Syn K
  | .ann smid body => if P.peel then peeled P body else .ann smid body
  | c => c

/-- `bc_is_settled`, machine.rs:1866-1877, and `bc_is_settled_pd`, 1881-1895. -/
def settled (P : Prog K) : MVal K → Bool
  | .native _ => false
  | .clo upd a c _ => !upd && (decide (a > 0) || (match peeled P c with | .atom _ => true | _ => false))

/-- `make_arg_array`, machine.rs:1903-1930, and `make_arg_array_pd`, 2507-2534. -/
def makeArgs (P : Prog K) (σ : Store (MVal K)) (env : Chain) (eager : Bool) :
    List (Ref K) → Except Err (List (MVal K))
  | [] => .ok []
  | r :: rs =>
    let one : Except Err (MVal K) :=
      match r with
      | .l i => match get σ env i with
        | some v => if eager || settled P v then .ok v else .ok (.new (.atom r) env)
        | none => if eager then .error (.badIndex i) else .ok (.new (.atom r) env)
      | _ => .ok (.new (.atom r) env)
    match one with
    | .error x => .error x
    | .ok v => match makeArgs P σ env eager rs with
      | .error x => .error x
      | .ok vs => .ok (v :: vs)

/-- The cells of an argument array. -/
def cells (σ : Store (MVal K)) (a : Arr) : List (MVal K) := (σ[a.id]?).getD []

/-- `from_value` into a continuation's environment, then its code. -/
def bindOne (s : State K) (v : MVal K) (code : Syn K) (env : Chain) : Step K :=
  let (σ, env) := fromValue s.store v 0 env
  .next { s with store := σ, cur := .new code env }

/-- `native_from_value`, machine.rs:4346-4389: through bare references to a native; the fuel is that of the longest chain
wanted. The number of parameters of what is looked at is not asked. -/
def nativeOf (P : Prog K) (σ : Store (MVal K)) : Nat → MVal K → Option K
  | _, .native k => some k
  | 0, _ => none
  | n + 1, .clo _ _ c env => match peeled P c with
    | .atom r => match resolveRef P σ env r with
      | .ok v => nativeOf P σ n v
      | .error _ => none
    | _ => none

/-- `k` is what `native_from_value` finds. -/
def NativeIs (P : Prog K) (σ : Store (MVal K)) (v : MVal K) (k : K) : Prop := ∃ n, nativeOf P σ n v = some k

/-- The natives an intrinsic reads, `resolve_native`, machine.rs:4631-4650, with fuel for the chains. -/
def nativeArgs (P : Prog K) (σ : Store (MVal K)) (fuel : Nat) : List (MVal K) → Option (List K)
  | [] => some []
  | v :: vs => match nativeOf P σ fuel v with
    | some k => (nativeArgs P σ fuel vs).map (k :: ·)
    | none => none

/-- Dispatch of an intrinsic, `dispatch`, machine.rs:3316-3390.  Its result is closed code, run at the root. -/
def runPrim (P : Prog K) (s : State K) (fuel : Nat) (id : Nat) (vs : List (MVal K)) : Step K :=
  match nativeArgs P s.store fuel vs with
  | none => .error .argShape
  | some ks => match P.prim id ks with
    | .ok c => .next { s with cur := .new c rootEnv }
    | .error x => .error (.prim x)

/-- `partially_apply`, machine.rs:1815-1848, with `pap_offset`, program.rs:88-96. -/
def partially (s : State K) (arity : Nat) (fn : MVal K) (env : Chain) (args : Arr) : Step K :=
  let supplied := args.len
  let pending := arity - supplied
  if supplied = 0 ∨ pending = 0 ∨ supplied > 16 ∨ pending > 16 then .error .papRange
  else
    let (σ, env) := saturate s.store (fn :: cells s.store args) 0 env
    .next { s with store := σ, cur := .clo false pending (papCode supplied pending) env }

/-- `return_native`, machine.rs:1383-1517. -/
def returnNative (P : Prog K) (fuel : Nat) (s : State K) (k : K) : Step K :=
  match s.stack with
  | [] => .done s
  | .branch _ fb env :: st => match fb with
    | .some b => bindOne { s with stack := st } (.native k) b env
    | .none => .error .noBranchNative
  | .update env i :: st => match update s.store env i (.native k) with
    | some σ => .next { s with store := σ, stack := st }
    | none => .error (.badIndex i)
  | .applyTo _ :: _ => .error .notCallable
  | .deMeta _ o env :: st => bindOne { s with stack := st } (.native k) o env
  | .seqBind b env :: st => .next { s with cur := .new b env, stack := st }
  | .fusedLeft id r env :: st => .next { s with cur := .new (.atom r) env, stack := .fusedRight id (.native k) env :: st }
  | .fusedRight id l _ :: st => runPrim P { s with stack := st } fuel id [l, .native k]

/-- `return_fun`, machine.rs:1524-1680: `fn` is the closure of `arity` parameters, `code` and `fenv`. -/
def returnFun (P : Prog K) (fuel : Nat) (s : State K) (arity : Nat) (code : Syn K) (fenv : Chain) : Step K :=
  match s.stack with
  | [] => .done s
  | .applyTo args :: st =>
    if args.len = arity then .next { s with cur := .new code (Frame.new args 0 :: fenv), stack := st }
    else if args.len < arity then partially { s with stack := st } arity s.cur fenv args
    else
      let vs := cells s.store args
      let (σ, env) := saturate s.store (vs.take arity) 0 fenv
      let (σ, a) := allocArray σ (vs.drop arity)
      .next ⟨σ, .new code env, .applyTo a :: st⟩
  | .branch _ fb env :: st => match fb with
    | .some b => bindOne { s with stack := st } s.cur b env
    | .none => .error .funToCase
  | .update env i :: st => match update s.store env i s.cur with
    | some σ => .next { s with store := σ, stack := st }
    | none => .error (.badIndex i)
  | .deMeta _ o env :: st => bindOne { s with stack := st } s.cur o env
  | .seqBind b env :: st => .next { s with cur := .new b env, stack := st }
  | .fusedLeft id r env :: st => .next { s with cur := .new (.atom r) env, stack := .fusedRight id s.cur env :: st }
  | .fusedRight id l _ :: st => runPrim P { s with stack := st } fuel id [l, s.cur]

/-- `fused_boxed_field`, machine.rs:1296-1330. -/
def boxedField (P : Prog K) (σ : Store (MVal K)) (tag : Nat) (args : List (Ref K)) (env : Chain) :
    Except Err (Option (MVal K)) :=
  if boxed tag then match args with
    | [] => .error .missingField
    | r :: _ => match resolveRef P σ env r with
      | .ok v => .ok (some v)
      | .error x => .error x
  else .ok none

/-- `return_data`, machine.rs:1034-1287: the constructor's closure, over `cenv`, is current. -/
def returnData (P : Prog K) (fuel : Nat) (s : State K) (tag : Nat) (args : List (Ref K)) (cenv : Chain) : Step K :=
  match s.stack with
  | [] => .done s
  | .branch bs fb env :: st =>
    match branch bs tag with
    | some body =>
      match (if args.isEmpty then .ok (s.store, env) else dataEnv P s.store cenv args env) with
      | .ok (σ, env) => .next ⟨σ, .new body env, st⟩
      | .error x => .error x
    | none => match fb with
      | .some b => bindOne { s with stack := st } s.cur b env
      | .none => .error (.noBranchData tag)
  | .update env i :: st => match update s.store env i s.cur with
    | some σ => .next { s with store := σ, stack := st }
    | none => .error (.badIndex i)
  | .applyTo args :: st =>
    if tag = 8 then
      let (σ, a) := allocArray s.store (cells s.store args ++ [s.cur])
      enterCallable P { s with store := σ, stack := .applyTo a :: st } rootEnv (.g P.merge)
    else .error .notCallable
  | .deMeta _ o env :: st => bindOne { s with stack := st } s.cur o env
  | .seqBind b env :: st => .next { s with cur := .new b env, stack := st }
  | .fusedLeft id r env :: st =>
    match boxedField P s.store tag args cenv with
    | .error x => .error x
    | .ok (some v) => .next { s with cur := v }
    | .ok none => .next { s with cur := .new (.atom r) env, stack := .fusedRight id s.cur env :: st }
  | .fusedRight id l _ :: st =>
    match boxedField P s.store tag args cenv with
    | .error x => .error x
    | .ok (some v) => .next { s with cur := v }
    | .ok none => runPrim P { s with stack := st } fuel id [l, s.cur]

/-- `return_meta`, machine.rs:1705-1780. -/
def returnMeta (P : Prog K) (s : State K) (m b : Ref K) (env : Chain) : Step K :=
  match s.stack with
  | [] => match resolveRef P s.store env m with
    | .error x => .error x
    | .ok _ => enterRef P s env b
  | .deMeta h _ denv :: st =>
    match resolveRefs P s.store env [m, b] with
    | .error x => .error x
    | .ok vs =>
      let (σ, env) := saturate s.store vs 0 denv
      .next ⟨σ, .new h env, st⟩
  | .update uenv i :: st => match update s.store uenv i s.cur with
    | some σ => .next { s with store := σ, stack := st }
    | none => .error (.badIndex i)
  | _ => enterRef P s env b

/-- The `DirectApp` case, machine.rs:2733-2797. -/
def directApp (P : Prog K) (s : State K) (env : Chain) (f : Ref K) (vs : List (MVal K)) : Step K :=
  let (σ, a) := allocArray s.store vs
  let go (cenv : Chain) (i : Nat) (x : Err) : Step K :=
    match get σ cenv i with
    | none => .error x
    | some (.native _) => .error .notCallable
    | some (.clo upd ar c fenv) =>
      if upd then
        match update σ cenv i (.new .hole cenv) with
        | none => .error x
        | some σ => .next ⟨σ, .clo upd ar c fenv, .update cenv i :: .applyTo a :: s.stack⟩
      else if ar = a.len then .next ⟨σ, .new c (Frame.new a 0 :: fenv), s.stack⟩
      else .next ⟨σ, .clo upd ar c fenv, .applyTo a :: s.stack⟩
  match f with
  | .l i => go env i (.badIndex i)
  | .g i => go (globalsEnv P) i (.badGlobal i)
  | .v _ => .error .notCallable

/-- `handle_op_predecoded`, machine.rs:2572-2902, and `handle_op`, 2060-2445.  Under `peel` the step of `ann` is part of
the next. -/
def handleOp (P : Prog K) (fuel : Nat) (s : State K) (code : Syn K) (env : Chain) : Step K :=
  match code with
  | .atom r => enterRef P s env r
  | .cons tag args => returnData P fuel s tag args env
  | .bif id args => match resolveRefs P s.store env args with
    | .error _ => .error .argShape
    | .ok vs => runPrim P s fuel id vs
  | .case scr bs fb => .next { s with cur := .new scr env, stack := .branch bs fb env :: s.stack }
  | .seq scr body => .next { s with cur := .new scr env, stack := .seqBind body env :: s.stack }
  | .ann _ body => .next { s with cur := .new body env }
  | .fused id l r => .next { s with cur := .new (.atom l) env, stack := .fusedLeft id r env :: s.stack }
  | .hole => .error .hole
  | .app f args eager => match makeArgs P s.store env eager args with
    | .error x => .error x
    | .ok vs =>
      let (σ, a) := allocArray s.store vs
      enterCallable P { s with store := σ, stack := .applyTo a :: s.stack } env f
  | .dapp _ f args eager => match makeArgs P s.store env eager args with
    | .error x => .error x
    | .ok vs => directApp P s env f vs
  | .let_ fs body =>
    let (σ, env') := saturate s.store ((forms fs).map (closeForm · env)) 0 env
    .next { s with store := σ, cur := .new body env' }
  | .letrec fs body =>
    let env' := Frame.new ⟨s.store.length, (forms fs).length⟩ 0 :: env
    .next { s with store := s.store ++ [(forms fs).map (closeForm · env')], cur := .new body env' }
  | .metaOf m b => returnMeta P s m b env
  | .demeta scr h o => .next { s with cur := .new scr env, stack := .deMeta h o env :: s.stack }
  | .lookup _ _ _ _ => .error .outside

/-- `step_predecoded`, machine.rs:3010-3047, and `step`, 2450-2500.  `fuel` bounds the chains of references an intrinsic
follows in this step. -/
def step (P : Prog K) (fuel : Nat) (s : State K) : Step K :=
  match s.cur with
  | .native k => returnNative P fuel s k
  | .clo _ (a + 1) c env => returnFun P fuel s (a + 1) c env
  | .clo _ 0 c env => handleOp P fuel s c env

/-- How a run ends. -/
inductive Outcome (K : Type) where
  | value (s : State K)
  | error (x : Err)

/-- `run`, machine.rs:3235-3270: the states passed, and the end if there is one within `n` steps. -/
def run (P : Prog K) (fuel : Nat) : Nat → State K → Option (Outcome K)
  | 0, _ => none
  | n + 1, s => match step P fuel s with
    | .next s' => run P fuel n s'
    | .done s' => some (.value s')
    | .error x => some (.error x)

/-- What can be seen of the value a run ended with. -/
def showOf : MVal K → Option (Seen K)
  | .native k => some (.native k)
  | .clo _ (a + 1) _ _ => some (.function (a + 1))
  | .clo _ 0 (.cons t as) _ => some (.data t as.length)
  | .clo _ 0 _ _ => none

end Verif.Mach
