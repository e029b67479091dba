import Verif.BcModel

/-!
# From core expressions to STG syntax

`src/core/demand.rs`, the part of `src/core/expr.rs` that reaches the compiler, and `src/eval/stg/compiler.rs`.

`K` is the type of native constants.  A source location (`Smid`) is a number, 0 being the invalid one; it is kept where the
compiler puts it into its output.  A number, string or symbol literal is the native it is stored as.
-/

namespace Verif.Comp
open Verif.Bc

/-! ## Demands -/

/-- `Cardinality`, core/demand.rs:94-105. -/
inductive Card where
  | unknown | absent | once | multi
  deriving DecidableEq, Repr

/-- `Strictness`, core/demand.rs:119-129. -/
inductive Strictness where
  | unknown | lazy | strict
  deriving DecidableEq, Repr

/-- `Demand`, core/demand.rs:30-46. -/
structure Demand where
  card : Card := .unknown
  strictness : Strictness := .unknown
  whnf : Bool := false
  recursive : Bool := false
  deriving DecidableEq, Repr

/-- `Demand::skip_update`, core/demand.rs:65-69. -/
def Demand.skipUpdate (d : Demand) : Bool := d.whnf || d.card == .once || d.card == .absent

/-- `Demand::at_most_once`, core/demand.rs:72-77. -/
def Demand.atMostOnce : Demand := { card := .once }

/-- The test made before a binding is marked for forcing, compiler.rs:971 and 1221. -/
def Demand.forced (d : Demand) : Bool := d.strictness == .strict && !d.recursive

/-! ## Core expressions -/

/-- `Primitive`, core/expr.rs. -/
inductive Prim (K : Type) where
  | num (k : K)
  | str (k : K)
  | sym (k : K)
  | bool (b : Bool)
  | null
  | typeData (k : K)

mutual
/-- `Expr`, core/expr.rs, in de Bruijn form (core/binding.rs:51-58): a variable is so many scopes out and so many names
along.  `other` stands for the expressions the compiler refuses. -/
inductive Exp (K : Type) where
  | var (scope binder : Nat) (name : Option String)
  | free (name : String)
  | let_ (bs : Binds K) (body : Exp K)
  | lam (smid params : Nat) (body : Exp K)
  | app (smid : Nat) (f : Exp K) (args : Exps K)
  | lit (p : Prim K)
  | list (smid : Nat) (xs : Exps K)
  | block (smid : Nat) (kvs : Kvs K)
  | intrinsic (name : String)
  | lookup (smid : Nat) (obj : Exp K) (key : K)
  | lookupOr (smid : Nat) (obj : Exp K) (key : K) (dft : Exp K)
  | metaOf (smid : Nat) (body m : Exp K)
  | operator (smid : Nat) (body : Exp K)
  | other
/-- `Vec<RcExpr>`. -/
inductive Exps (K : Type) where
  | nil
  | cons (x : Exp K) (xs : Exps K)
/-- `Vec<CoreBinding>`: a name, what is known of its use, what it is bound to. -/
inductive Binds (K : Type) where
  | nil
  | cons (name : String) (demand : Demand) (x : Exp K) (rest : Binds K)
/-- `BlockMap`, in order of insertion. -/
inductive Kvs (K : Type) where
  | nil
  | cons (key : K) (x : Exp K) (rest : Kvs K)
end

variable {K : Type}

/-- `RcExpr::smid`.  Only that of a lambda reaches the output by way of this function, so that the others' are not kept. -/
def Exp.smid : Exp K → Nat
  | .lam s _ _ => s
  | _ => 0

/-! ## The compiler's surroundings -/

/-- `CompileError`, compiler.rs:50-100, those that this code raises; `panic` is an index out of bounds. -/
inductive CErr where
  | freeVar (name : String)
  | unknownIntrinsic (name : String)
  | overflow
  | maxLambdaArgs
  | unexpected
  | panic
  deriving DecidableEq, Repr

/-- What the compiler asks of a `StgIntrinsic`, machine/intrinsic.rs:340-380: its arity, whether it may be put in at the
call, and the body of its wrapper. -/
structure Wrapper (K : Type) where
  arity : Nat
  inlinable : Bool
  body : Syn K

abbrev Sig := List Demand

/-- `RenderType`, stg/mod.rs. -/
inductive Render where
  | headless | doc | fragment
  deriving DecidableEq

/-- `Compiler`, compiler.rs:500-538, with what it reads from tables elsewhere: the number of each intrinsic
(`intrinsics::index`), which of them are fused (compiler.rs:1246-1250), and the numbers of those it calls itself. -/
structure Config (K : Type) where
  annotate : Bool
  render : Render
  noUpdates : Bool
  noInline : Bool
  index : String → Option Nat
  wrapper : Nat → Option (Wrapper K)
  fusible : Nat → Bool
  intrinsicSig : String → Option Sig
  userSig : String → Option Sig
  preludeSig : String → Option Sig
  prelude : String → Option Nat
  /-- `intrinsics::catalogue().len()`. -/
  base : Nat
  emptyList : Nat
  renderDoc : Nat
  renderFragment : Nat
  lookupOr : Nat
  lookupFail : Nat
  /-- `dsl::no_index()`. -/
  noIndex : K

/-! ## Contexts -/

/-- `Context`, compiler.rs:426-442, one frame of it; the list is the chain of `next`. -/
structure Frame (K : Type) where
  isScope : Bool
  refs : List (Ref K)
  size : Nat

abbrev Ctx (K : Type) := List (Frame K)

/-- `Reference::bump`, stg/syntax.rs:86-91. -/
def bump (n : Nat) : Ref K → Ref K
  | .l i => .l (i + n)
  | r => r

/-- `Context::lookup`, compiler.rs:475-494. -/
def ctxLookup : Ctx K → Nat → Nat → Except CErr (Ref K)
  | [], _, _ => .error .overflow
  | f :: rest, s, b =>
    if f.isScope then
      match s with
      | 0 => match f.refs[b]? with
        | some r => .ok r
        | none => .error .panic
      | s + 1 => (ctxLookup rest s b).map (bump f.size)
    else (ctxLookup rest s b).map (bump f.size)

/-! ## Syntax to be made once the context is known -/

/-- `StgSyn::is_whnf`, stg/syntax.rs:244-253. -/
def synWhnf : Syn K → Bool
  | .cons _ _ | .metaOf _ _ | .atom (.v _) => true
  | _ => false

/-- `ProtoSyntax`, compiler.rs:544-598: as a body (`take_syntax`) and as a binding (`take_lambda_form`). -/
structure Proto (K : Type) where
  syn : Ctx K → Except CErr (Syn K)
  form : Ctx K → Except CErr (Form K)

/-- The default `take_lambda_form`, compiler.rs:559-577: value or thunk. -/
def formOf (cfg : Config K) (d : Demand) (s : Syn K) : Form K :=
  if d.skipUpdate || synWhnf s || cfg.noUpdates then ⟨.value, s⟩ else ⟨.thunk, s⟩

def Proto.ofSyn (cfg : Config K) (d : Demand) (s : Ctx K → Except CErr (Syn K)) : Proto K :=
  ⟨s, fun c => (s c).map (formOf cfg d)⟩

/-- The default `take_syntax`, compiler.rs:583-597. -/
def Proto.ofForm (f : Ctx K → Except CErr (Form K)) : Proto K :=
  ⟨fun c => (f c).map fun f => .let_ (.cons f.head f.body .nil) (.atom (.l 0)), f⟩

/-- `Holder`, compiler.rs:1051-1089. -/
def holder (cfg : Config K) (s : Syn K) : Proto K := .ofSyn cfg {} fun _ => .ok s

/-- `ProtoVar`, compiler.rs:993-1017. -/
def protoVar (cfg : Config K) (s b : Nat) : Proto K := .ofSyn cfg {} fun c => (ctxLookup c s b).map .atom

/-- `ProtoReference`, compiler.rs:601-604, by `ProtoVar` and `ProtoRef` (1003-1007, 1031-1035). -/
inductive PRef (K : Type) where
  | var (s b : Nat)
  | ref (r : Ref K)

def PRef.take (c : Ctx K) : PRef K → Except CErr (Ref K)
  | .var s b => ctxLookup c s b
  | .ref r => .ok r

def takeAll (c : Ctx K) : List (PRef K) → Except CErr (List (Ref K))
  | [] => .ok []
  | p :: ps => match p.take c with
    | .error x => .error x
    | .ok r => match takeAll c ps with
      | .error x => .error x
      | .ok rs => .ok (r :: rs)

/-! ## Let binders -/

/-- `LetBinder`, compiler.rs:610-632.  `body`, `size` and `context` are passed to `intoStg` instead. -/
structure Binder (K : Type) where
  isScope : Bool
  recursive : Bool
  protos : List (Ctx K → Except CErr (Form K))
  refs : List (Ref K)
  strict : List Nat

/-- `LetBinder::root`, compiler.rs:636-647. -/
def Binder.root : Binder K := ⟨false, true, [], [], []⟩
/-- `LetBinder::synthetic_let`, compiler.rs:651-662. -/
def Binder.synthetic : Binder K := ⟨false, false, [], [], []⟩
/-- `LetBinder::for_scope`, compiler.rs:680-691. -/
def Binder.forScope : Binder K := ⟨true, true, [], [], []⟩

/-- What changes a binder and may fail.  A failure leaves the binder as it then was, since `compile_lookup` goes on with it. -/
abbrev C (K : Type) (α : Type) := Binder K → Except CErr α × Binder K

def C.pure {α} (a : α) : C K α := fun b => (.ok a, b)
def C.fail {α} (x : CErr) : C K α := fun b => (.error x, b)
def C.bind {α β} (m : C K α) (f : α → C K β) : C K β := fun b =>
  match m b with
  | (.ok a, b) => f a b
  | (.error x, b) => (.error x, b)
def C.of {α} : Except CErr α → C K α
  | .ok a => .pure a
  | .error x => .fail x

/-- `LetBinder::ensure_recursive`, compiler.rs:714-716. -/
def ensureRec : C K Unit := fun b => (.ok (), { b with recursive := true })

/-- `LetBinder::add_deferred`, compiler.rs:813-820. -/
def addDeferred (f : Ctx K → Except CErr (Form K)) : C K (Ref K) := fun b =>
  (.ok (.l b.protos.length), { b with protos := b.protos ++ [f] })

/-- `LetBinder::add`, compiler.rs:836-843; the assertion is for debug builds only. -/
def add (cfg : Config K) (s : Syn K) : C K (Ref K) := addDeferred (holder cfg s).form

/-- `LetBinder::running_ref`, compiler.rs:696-702. -/
def Binder.running (b : Binder K) (i : Nat) : Option (Ref K) := if b.recursive then b.refs[i]? else none

/-- `LetBinder::mark_strict`, compiler.rs:847-851, and the test around its calls, 971-975 and 1221-1225. -/
def markStrict (d : Demand) (r : Ref K) : C K Unit := fun b =>
  match r with
  | .l n => (.ok (), if d.forced && !b.strict.contains n then { b with strict := b.strict ++ [n] } else b)
  | _ => (.ok (), b)

/-- `LetBinder::add_var_index`, compiler.rs:854-856. -/
def addVar (r : Ref K) : C K Unit := fun b => (.ok (), { b with refs := b.refs ++ [r] })

/-- The bindings, realised in turn, compiler.rs:748-752. -/
def realise (c : Ctx K) : List (Ctx K → Except CErr (Form K)) → Except CErr (Forms K)
  | [] => .ok .nil
  | p :: ps => match p c with
    | .error x => .error x
    | .ok f => match realise c ps with
      | .error x => .error x
      | .ok fs => .ok (.cons f.head f.body fs)

/-- Is the binding at this place a thunk? compiler.rs:780-782. -/
def isThunk : Forms K → Nat → Bool
  | .nil, _ => false
  | .cons h _ rest, i => match i with
    | 0 => decide (h = .thunk)
    | i + 1 => isThunk rest i

/-- The forcing around the body, compiler.rs:785-799. -/
def seqs (fs : Forms K) (strict : List Nat) (body : Syn K) : Syn K :=
  (strict.filter (isThunk fs)).foldr (fun i s => .seq (.atom (.l i)) s) body

/-- The frame a binder comes to, compiler.rs:731-738. -/
def Binder.frame (b : Binder K) : Frame K := ⟨b.isScope, b.refs, b.protos.length⟩

/-- `LetBinder::into_stg`, compiler.rs:720-807. -/
def intoStg (b : Binder K) (outer : Ctx K) (body : Ctx K → Except CErr (Syn K)) : Except CErr (Syn K) :=
  match realise (if b.recursive then b.frame :: outer else outer) b.protos with
  | .error x => .error x
  | .ok fs => match body (b.frame :: outer) with
    | .error x => .error x
    | .ok s => match fs with
      | .nil => .ok s
      | fs => .ok (if b.recursive then .letrec fs (seqs fs b.strict s) else .let_ fs (seqs fs b.strict s))

/-! ## Pieces -/

/-- `compile_boxed_literal`, compiler.rs:1446-1455, with the tags of stg/tags.rs. -/
def boxedLiteral : Prim K → Syn K
  | .num k => .cons 3 [.v k]
  | .sym k => .cons 4 [.v k]
  | .str k => .cons 5 [.v k]
  | .bool true => .cons 1 []
  | .bool false => .cons 2 []
  | .null => .cons 0 []
  | .typeData k => .cons 17 [.v k]

/-- `resolve_free_var`, compiler.rs:1659-1667. -/
def freeVar (cfg : Config K) (name : String) : Except CErr (Ref K) :=
  match cfg.prelude name with
  | some slot => .ok (.g (cfg.base + slot))
  | none => .error (.freeVar name)

/-- `intrinsics::index` or an error, compiler.rs:1774-1775, 1858-1859 and others. -/
def intrinsicRef (cfg : Config K) (name : String) : Except CErr (Ref K) :=
  match cfg.index name with
  | some i => .ok (.g i)
  | none => .error (.unknownIntrinsic name)

def annIf (b : Bool) (smid : Nat) (s : Syn K) : Syn K := if b then .ann smid s else s

/-- `ProtoLambda`, compiler.rs:1485-1525, given how the body is compiled. -/
def lamForm (cfg : Config K) (ann n : Nat) (body : C K (Proto K)) (ctx : Ctx K) : Except CErr (Form K) :=
  let lctx : Ctx K := ⟨true, (List.range n).map .l, n⟩ :: ctx
  match body .synthetic with
  | (.error x, _) => .error x
  | (.ok p, b) => match intoStg b lctx p.syn with
    | .error x => .error x
    | .ok s => if n ≤ 255 then .ok ⟨.lambda n ann, annIf cfg.annotate ann s⟩ else .error .maxLambdaArgs

/-- `ProtoLet::take_syntax`, compiler.rs:941-988, given how the bindings and the body are compiled. -/
def letSyn (binds : C K Unit) (body : C K (Proto K)) (ctx : Ctx K) : Except CErr (Syn K) :=
  match binds.bind (fun _ => body) .forScope with
  | (.error x, _) => .error x
  | (.ok p, b) => intoStg b ctx p.syn

/-- The name by which a call finds signatures, compiler.rs:1137-1164. -/
def calleeName : Exp K → Option String
  | .var _ _ name => name
  | .free name => some name
  | _ => none

/-- The number of the intrinsic called, if it is one. -/
def intrinsicIndex (cfg : Config K) : Exp K → Option Nat
  | .intrinsic name => cfg.index name
  | _ => none

/-- The signature of what is called, compiler.rs:1169-1181. -/
def sigOf (cfg : Config K) (f : Exp K) : Option Sig :=
  match (match f with | .intrinsic name => cfg.intrinsicSig name | _ => none) with
  | some s => some s
  | none => match (calleeName f).bind cfg.userSig with
    | some s => some s
    | none => (calleeName f).bind cfg.preludeSig

/-- The demand on an argument, compiler.rs:1209-1212. -/
def argDemand (sig : Option Sig) (i : Nat) : Demand :=
  match sig with
  | some s => (s[i]?).getD {}
  | none => {}

/-- What the call becomes, with its references known: the wrapper put in (compiler.rs:1233-1261, `ProtoInline` 1538-1561 and
`ProtoFusedInline` 1584-1612), or a call (1262-1296, `ProtoDirectApp` 1364-1387 and `ProtoApp` 1413-1435). -/
def atoms : List (Ref K) → Forms K
  | [] => .nil
  | r :: rs => .cons .value (.atom r) (atoms rs)

def callSyn (cfg : Config K) (smid : Nat) (f : Exp K) (self : Option String) (r : Ref K) (rs : List (Ref K)) :
    Syn K :=
  let eager := match self with
    | some name => decide (calleeName f = some name)
    | none => false
  let call : Syn K :=
    if (match sigOf cfg f with | some s => !s.isEmpty && s.length == rs.length | none => false) && smid != 0
    then .dapp smid r rs eager else .app r rs eager
  match intrinsicIndex cfg f with
  | none => call
  | some i => match cfg.wrapper i with
    | none => call
    | some w =>
      if !cfg.noInline && w.inlinable && w.arity == rs.length then
        match rs with
        | [a, b] => if cfg.fusible i then .fused i a b else .let_ (atoms rs) w.body
        | rs => .let_ (atoms rs) w.body
      else call

/-- The body of `ProtoAppGroup::take_syntax`: references taken in the order the code takes them. -/
def callBody (cfg : Config K) (smid : Nat) (f : Exp K) (self : Option String) (pf : PRef K) (ps : List (PRef K))
    (ctx : Ctx K) : Except CErr (Syn K) :=
  match pf.take ctx with
  | .error x => .error x
  | .ok r => match takeAll ctx ps with
    | .error x => .error x
    | .ok rs => .ok (callSyn cfg smid f self r rs)

/-- `ProtoAppGroup::take_syntax`, compiler.rs:1125-1333, given how function and arguments are bound. -/
def appSyn (cfg : Config K) (smid : Nat) (f : Exp K) (self : Option String) (fn : C K (PRef K)) (args : C K (List (PRef K)))
    (ctx : Ctx K) : Except CErr (Syn K) :=
  match (fn.bind fun pf => args.bind fun ps => .pure (pf, ps)) .synthetic with
  | (.error x, _) => .error x
  | (.ok (pf, ps), b) =>
    (intoStg b ctx (callBody cfg smid f self pf ps)).map (annIf (cfg.annotate && smid != 0) smid)

/-- Function or argument: names and intrinsics are referred to, anything else is bound.  compiler.rs:1137-1164 and
1193-1228. -/
def direct (cfg : Config K) (x : Exp K) (bound : C K (PRef K)) : C K (PRef K) :=
  match x with
  | .var s b _ => .pure (.var s b)
  | .free name => (C.of (freeVar cfg name)).bind fun r => .pure (.ref r)
  | .intrinsic name => (C.of (intrinsicRef cfg name)).bind fun r => .pure (.ref r)
  | _ => bound

/-- `lookup_fail`, stg/block.rs:1390-1399. -/
def lookupFail (cfg : Config K) (smid : Nat) (key : K) (obj : Ref K) : Syn K :=
  annIf (cfg.annotate && smid != 0) smid (.app (.g cfg.lookupFail) [.v key, obj] false)

/-- The end of `compile_lookup`, compiler.rs:1968-1999. -/
def lookupEnd (cfg : Config K) (smid : Nat) (key : K) (obj dft : Ref K) : C K (Syn K) :=
  (add cfg (annIf (cfg.annotate && smid != 0) smid (.app (.g cfg.lookupOr) [.v key, dft, obj] false))).bind fun fallback =>
    .pure (.lookup (if cfg.annotate then smid else 0) (.v key) obj fallback)

/-- `compile_lookup`, compiler.rs:1922-2000, given how object and default are bound. -/
def lookupSyn (cfg : Config K) (smid : Nat) (key : K) (obj : C K (Ref K)) (dft : Option (C K (Ref K))) : C K (Syn K) :=
  ensureRec.bind fun _ => obj.bind fun o =>
    match dft with
    | none => (add cfg (lookupFail cfg smid key o)).bind fun d => lookupEnd cfg smid key o d
    | some dft => fun b => match dft b with
      | (.ok d, b) => lookupEnd cfg smid key o d b
      | (.error (.freeVar _), b) => (add cfg (lookupFail cfg smid key o)).bind (fun d => lookupEnd cfg smid key o d) b
      | (.error x, b) => (.error x, b)

/-! ## The compiler -/

mutual
/-- `compile_body`, compiler.rs:1737-1803. -/
def bodyE (cfg : Config K) : Exp K → Option String → C K (Proto K)
  | .let_ bs body, self => .pure (.ofSyn cfg {} (letSyn (bindLets cfg bs self) (bodyE cfg body self)))
  | .var s b _, _ => .pure (protoVar cfg s b)
  | .free name, _ => (C.of (freeVar cfg name)).bind fun r => .pure (holder cfg (.atom r))
  | .app smid f args, self => .pure (.ofSyn cfg .atMostOnce (appSyn cfg smid f self
      (direct cfg f ((bindE cfg f smid {} self).bind fun r => .pure (.ref r)))
      (bindArgs cfg args smid (sigOf cfg f) 0 self)))
  | .lit p, _ => .pure (holder cfg (boxedLiteral p))
  | .lam smid n body, self => .pure (.ofForm (lamForm cfg smid n (bodyE cfg body self)))
  | .list smid xs, _ => ensureRec.bind fun _ => (bindItems cfg xs smid).bind fun last =>
      .pure (holder cfg (match last with | some d => d | none => .atom (.g cfg.emptyList)))
  | .block smid kvs, _ => ensureRec.bind fun _ => (bindKvs cfg kvs smid).bind fun r =>
      .pure (holder cfg (.cons 8 [r, .v cfg.noIndex]))
  | .intrinsic name, _ => (C.of (intrinsicRef cfg name)).bind fun r => .pure (holder cfg (.atom r))
  | .lookup smid obj key, _ => (lookupSyn cfg smid key (bindE cfg obj obj.smid {} none) none).bind fun s =>
      .pure (holder cfg s)
  | .lookupOr smid obj key dft, _ =>
      (lookupSyn cfg smid key (bindE cfg obj obj.smid {} none) (some (bindE cfg dft smid {} none))).bind fun s =>
      .pure (holder cfg s)
  | .metaOf smid body m, self => (bindE cfg m smid {} none).bind fun m => (bindE cfg body smid {} self).bind fun b =>
      .pure (holder cfg (.metaOf m b))
  | .operator _ body, self => bodyE cfg body self
  | .other, _ => .fail .unexpected

/-- `compile_binding`, compiler.rs:1814-1913. -/
def bindE (cfg : Config K) : Exp K → Nat → Demand → Option String → C K (Ref K)
  | .var s i _, _, _, _ => fun b =>
      if s = 0 then match b.running i with
        | some r => (.ok r, b)
        | none => addDeferred (protoVar cfg s i).form b
      else addDeferred (protoVar cfg s i).form b
  | .free name, _, _, _ => .of (freeVar cfg name)
  | .let_ bs body, _, d, self =>
      addDeferred (Proto.ofSyn cfg d (letSyn (bindLets cfg bs self) (bodyE cfg body self))).form
  | .lam _ n body, ann, _, self => addDeferred (lamForm cfg ann n (bodyE cfg body self))
  | .app smid f args, _, d, self => addDeferred (Proto.ofSyn cfg d (appSyn cfg smid f self
      (direct cfg f ((bindE cfg f smid {} self).bind fun r => .pure (.ref r)))
      (bindArgs cfg args smid (sigOf cfg f) 0 self))).form
  | .lit p, _, _, _ => add cfg (boxedLiteral p)
  | .list smid xs, _, _, _ => ensureRec.bind fun _ => (bindItems cfg xs smid).bind fun last =>
      match last with
      | some d => add cfg d
      | none => .pure (.g cfg.emptyList)
  | .block smid kvs, _, _, _ => ensureRec.bind fun _ => (bindKvs cfg kvs smid).bind fun r =>
      add cfg (.cons 8 [r, .v cfg.noIndex])
  | .intrinsic name, _, _, _ => .of (intrinsicRef cfg name)
  | .lookup smid obj key, _, _, _ => (lookupSyn cfg smid key (bindE cfg obj obj.smid {} none) none).bind (add cfg)
  | .lookupOr smid obj key dft, _, _, _ =>
      (lookupSyn cfg smid key (bindE cfg obj obj.smid {} none) (some (bindE cfg dft smid {} none))).bind (add cfg)
  | .metaOf smid body m, _, _, self => ensureRec.bind fun _ => (bindE cfg m smid {} none).bind fun m =>
      (bindE cfg body smid {} self).bind fun b => add cfg (.metaOf m b)
  | .operator smid body, _, _, self => bindE cfg body smid {} self
  | .other, _, _, _ => .fail .unexpected

/-- The loop over the arguments of a call, compiler.rs:1191-1229. -/
def bindArgs (cfg : Config K) : Exps K → Nat → Option Sig → Nat → Option String → C K (List (PRef K))
  | .nil, _, _, _, _ => .pure []
  | .cons x xs, smid, sig, i, self =>
      (direct cfg x ((bindE cfg x smid (argDemand sig i) self).bind fun r =>
        (markStrict (argDemand sig i) r).bind fun _ => .pure (.ref r))).bind fun p =>
      (bindArgs cfg xs smid sig (i + 1) self).bind fun ps => .pure (p :: ps)

/-- The loop over the bindings of a let, compiler.rs:950-977. -/
def bindLets (cfg : Config K) : Binds K → Option String → C K Unit
  | .nil, _ => .pure ()
  | .cons name d x rest, self =>
      (bindE cfg x x.smid d (if d.recursive then some name else self)).bind fun r =>
      (markStrict d r).bind fun _ => (addVar r).bind fun _ => bindLets cfg rest self

/-- The loops of `compile_list_body` and `compile_list_binding`, compiler.rs:2022-2032 and 2050-2060, from the last item to
the first: the last pair made, if any. -/
def bindItems (cfg : Config K) : Exps K → Nat → C K (Option (Syn K))
  | .nil, _ => .pure none
  | .cons x xs, smid => (bindItems cfg xs smid).bind fun last =>
      (match last with
        | some d => add cfg d
        | none => .pure (.g cfg.emptyList)).bind fun t =>
      (bindE cfg x smid {} none).bind fun h => .pure (some (.cons 7 [h, t]))

/-- The loop of `compile_block`, compiler.rs:2077-2082, from the last entry to the first. -/
def bindKvs (cfg : Config K) : Kvs K → Nat → C K (Ref K)
  | .nil, _ => .pure (.g cfg.emptyList)
  | .cons k x rest, smid => (bindKvs cfg rest smid).bind fun t => (bindE cfg x smid {} none).bind fun v =>
      (add cfg (.cons 9 [.v k, v])).bind fun kv => add cfg (.cons 7 [kv, t])
end

/-- `compile_with_self_recurse` with no enclosing name, compiler.rs:1690-1724, before the optimiser. -/
def compile (cfg : Config K) (x : Exp K) : Except CErr (Syn K) :=
  match cfg.render with
  | .headless => match bodyE cfg x none .root with
    | (.error e, _) => .error e
    | (.ok p, b) => intoStg b [] p.syn
  | .doc => match bindE cfg x x.smid {} none .root with
    | (.error e, _) => .error e
    | (.ok r, b) => intoStg b [] fun _ => .ok (.app (.g cfg.renderDoc) [r] false)
  | .fragment => match bindE cfg x x.smid {} none .root with
    | (.error e, _) => .error e
    | (.ok r, b) => intoStg b [] fun _ => .ok (.app (.g cfg.renderFragment) [r] false)

end Verif.Comp
