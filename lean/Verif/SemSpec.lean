import Verif.BcModel

/-!
# What a program means

A reference semantics for the syntax trees of `BcModel`: an interpreter by name over values and environments.  There is
no heap, no sharing, no update and no order of allocation in it.  It says what a program's value is; the machine of
`MachModel` is a way to get there.
-/

namespace Verif.Sem
open Verif.Bc

/-- Why evaluation stops without a value. -/
inductive Err where
  | badIndex (i : Nat)
  | badGlobal (i : Nat)
  | noBranchData (tag : Nat)
  | noBranchNative
  | funToCase
  | notCallable
  | missingField
  | prim (e : Nat)
  /-- An intrinsic was given something other than a native. -/
  | argShape
  /-- A black hole was entered. -/
  | hole
  /-- More than sixteen arguments supplied or awaited, or none supplied. -/
  | papRange
  /-- A node this development does not give a meaning to (`lookup`). -/
  | outside
  deriving DecidableEq, Repr

variable {K : Type}

mutual
/-- A value to be: a native, or code of so many parameters with what its names stand for. -/
inductive Val (K : Type) where
  | nat (k : K)
  | clo (arity : Nat) (code : Syn K) (env : Env K)
/-- What names stand for: one more name, or a group of bindings that see each other. -/
inductive Env (K : Type) where
  | nil
  | cons (v : Val K) (next : Env K)
  | recs (fs : Forms K) (next : Env K)
end

def forms : Forms K → List (Form K)
  | .nil => []
  | .cons h b rest => ⟨h, b⟩ :: forms rest

def arity : Head → Nat
  | .lambda b _ => b
  | _ => 0

def close (f : Form K) (e : Env K) : Val K := .clo (arity f.head) f.body e

def lookup : Env K → Nat → Option (Val K)
  | .nil, _ => none
  | .cons v e, i => if i = 0 then some v else lookup e (i - 1)
  | .recs fs e, i =>
    match (forms fs)[i]? with
    | some f => some (close f (.recs fs e))
    | none => lookup e (i - (forms fs).length)

def consAll (vs : List (Val K)) (e : Env K) : Env K := vs.foldr .cons e

/-- What is around the program: the global bindings, which of them merges blocks, and what the intrinsics do with
natives: an error, or something to evaluate. -/
structure World (K : Type) where
  globals : List (Form K)
  merge : Nat
  prim : Nat → List K → Except Nat (Syn K)

abbrev R (K : Type) := Except Err (Val K)

def global (P : World K) (i : Nat) : R K :=
  match P.globals[i]? with
  | some f => .ok (close f .nil)
  | none => .error (.badGlobal i)

def resolve (P : World K) (e : Env K) : Ref K → R K
  | .l i => match lookup e i with
    | some v => .ok v
    | none => .error (.badIndex i)
  | .g i => global P i
  | .v k => .ok (.nat k)

def resolveAll (P : World K) (e : Env K) : List (Ref K) → Except Err (List (Val K))
  | [] => .ok []
  | r :: rs => match resolve P e r with
    | .error x => .error x
    | .ok v => match resolveAll P e rs with
      | .error x => .error x
      | .ok vs => .ok (v :: vs)

/-- The branch for a tag; the last of several. -/
def branch : Brs K → Nat → Option (Syn K)
  | .nil, _ => none
  | .cons t b rest, tag =>
    match branch rest tag with
    | some x => some x
    | none => if t = tag then some b else none

/-- What a value looks like from outside: a native, a function, a constructor with its arguments, a value with metadata,
or something still to be worked out. -/
inductive Shape (K : Type) where
  | nat (k : K)
  | fn (arity : Nat) (code : Syn K) (env : Env K)
  | data (tag : Nat) (args : List (Ref K)) (env : Env K)
  | annotated (m b : Ref K) (env : Env K)
  | busy

def shape : Val K → Shape K
  | .nat k => .nat k
  | .clo (a + 1) c e => .fn (a + 1) c e
  | .clo 0 (.cons t as) e => .data t as e
  | .clo 0 (.metaOf m b) e => .annotated m b e
  | .clo 0 _ _ => .busy

def Whnf (v : Val K) : Bool :=
  match shape v with
  | .busy => false
  | _ => true

def fallback (v : Val K) (fb : Fb K) (e : Env K) (x : Err) : R K :=
  match fb with
  | .some b => .ok (.clo 0 b (.cons v e))
  | .none => .error x

/-- A value has come back to a `case`: what to go on with. -/
def onCase (P : World K) (v : Val K) (bs : Brs K) (fb : Fb K) (e : Env K) : R K :=
  match shape v with
  | .data t as de =>
    match branch bs t with
    | some body => match resolveAll P de as with
      | .ok vs => .ok (.clo 0 body (consAll vs e))
      | .error x => .error x
    | none => fallback v fb e (.noBranchData t)
  | .nat _ => fallback v fb e .noBranchNative
  | .fn _ _ _ => fallback v fb e .funToCase
  | _ => .error .outside

/-- A function given fewer arguments than it has parameters: the code that gives it all of them in order. -/
def papCode (supplied pending : Nat) : Syn K :=
  .app (.l pending) ((List.range supplied).map (fun i => .l (pending + i + 1)) ++ (List.range pending).map .l) false

/-- A value has come back to be applied: what to go on with, and the arguments that then remain. -/
def onApply (P : World K) (v : Val K) (args : List (Val K)) : Except Err (Val K × Option (List (Val K))) :=
  match shape v with
  | .fn a c e =>
    if args.length = a then .ok (.clo 0 c (consAll args e), none)
    else if args.length < a then
      .ok (.clo (a - args.length) (papCode args.length (a - args.length)) (consAll (v :: args) e), none)
    else .ok (.clo 0 c (consAll (args.take a) e), some (args.drop a))
  | .data t _ _ =>
    if t = 8 then match global P P.merge with
      | .ok m => .ok (m, some (args ++ [v]))
      | .error x => .error x
    else .error .notCallable
  | .nat _ => .error .notCallable
  | _ => .error .outside

def callee (P : World K) (e : Env K) : Ref K → R K
  | .v _ => .error .notCallable
  | r => resolve P e r

/-- Are the arguments of an eager call all in scope? The first that is not. -/
def eagerBad (e : Env K) : List (Ref K) → Option Nat
  | [] => none
  | .l i :: rs => match lookup e i with
    | some _ => eagerBad e rs
    | none => some i
  | _ :: rs => eagerBad e rs

def lazily (e : Env K) (rs : List (Ref K)) : List (Val K) := rs.map fun r => .clo 0 (.atom r) e

def app (P : World K) (e : Env K) (f : Ref K) (args : List (Ref K)) (eager : Bool) :
    Except Err (Val K × List (Val K)) :=
  match (if eager then eagerBad e args else none) with
  | some i => .error (.badIndex i)
  | none => match callee P e f with
    | .ok v => .ok (v, lazily e args)
    | .error x => .error x

/-- The tags of natives in boxes: number, string, symbol, date. -/
def boxed (t : Nat) : Bool := t == 3 || t == 4 || t == 5 || t == 11

/-- The thing in the box, if it is one. -/
def unbox (P : World K) (v : Val K) : Except Err (Option (Val K)) :=
  match shape v with
  | .data t as e =>
    if boxed t then match as with
      | [] => .error .missingField
      | r :: _ => match resolve P e r with
        | .ok u => .ok (some u)
        | .error x => .error x
    else .ok none
  | _ => .ok none

/-- An intrinsic on values all of which must be natives. -/
def natives : List (Val K) → Option (List K)
  | [] => some []
  | .nat k :: vs => (natives vs).map (k :: ·)
  | _ :: _ => none

def intrinsic (P : World K) (id : Nat) (vs : List (Val K)) : R K :=
  match natives vs with
  | none => .error .argShape
  | some ks => match P.prim id ks with
    | .ok c => .ok (.clo 0 c .nil)
    | .error x => .error (.prim x)

/-! ## The interpreter

`none` means that the fuel ran out. -/

def andThen {A B : Type} : Option (Except Err A) → (A → Option (Except Err B)) → Option (Except Err B)
  | some (.ok v), f => f v
  | some (.error x), _ => some (.error x)
  | none, _ => none

mutual
/-- To a native, a function, a constructor or a value with metadata. -/
def eval (P : World K) : Nat → Val K → Option (R K)
  | 0, _ => none
  | _ + 1, .nat k => some (.ok (.nat k))
  | _ + 1, .clo (a + 1) c e => some (.ok (.clo (a + 1) c e))
  | n + 1, .clo 0 c e =>
    match c with
    | .cons t as => some (.ok (.clo 0 (.cons t as) e))
    | .metaOf m b => some (.ok (.clo 0 (.metaOf m b) e))
    | .atom r => andThen (some (resolve P e r)) (eval P n)
    | .case scr bs fb => andThen (force P n (.clo 0 scr e)) fun w => andThen (some (onCase P w bs fb e)) (eval P n)
    | .app f args eager | .dapp _ f args eager =>
      andThen (some (app P e f args eager)) fun (v, vs) => apply P n v vs
    | .bif id args => andThen (some (resolveAll P e args)) fun vs => andThen (forceAll P n vs) fun ws =>
        andThen (some (intrinsic P id ws)) (eval P n)
    | .let_ fs body => eval P n (.clo 0 body (consAll ((forms fs).map (close · e)) e))
    | .letrec fs body => eval P n (.clo 0 body (.recs fs e))
    | .ann _ body => eval P n (.clo 0 body e)
    | .demeta scr handler orElse => andThen (eval P n (.clo 0 scr e)) fun w =>
        match shape w with
        | .annotated m b de => andThen (some (resolveAll P de [m, b])) fun vs =>
            eval P n (.clo 0 handler (consAll vs e))
        | _ => eval P n (.clo 0 orElse (.cons w e))
    | .seq scr body => andThen (force P n (.clo 0 scr e)) fun _ => eval P n (.clo 0 body e)
    | .fused id left right => andThen (operand P n (.clo 0 (.atom left) e)) fun l =>
        andThen (operand P n (.clo 0 (.atom right) e)) fun r => andThen (some (intrinsic P id [l, r])) (eval P n)
    | .lookup _ _ _ _ => some (.error .outside)
    | .hole => some (.error .hole)

/-- As `eval`, then past any metadata. -/
def force (P : World K) : Nat → Val K → Option (R K)
  | 0, _ => none
  | n + 1, v => andThen (eval P n v) fun w =>
      match shape w with
      | .annotated _ b e => andThen (some (resolve P e b)) (force P n)
      | _ => some (.ok w)

/-- Application of what `v` comes to. -/
def apply (P : World K) : Nat → Val K → List (Val K) → Option (R K)
  | 0, _, _ => none
  | n + 1, v, args => andThen (force P n v) fun w =>
      andThen (some (onApply P w args)) fun (u, more) =>
        match more with
        | none => eval P n u
        | some rest => apply P n u rest

/-- As `force`, then out of any box. -/
def operand (P : World K) : Nat → Val K → Option (R K)
  | 0, _ => none
  | n + 1, v => andThen (force P n v) fun w => andThen (some (unbox P w)) fun
      | some u => operand P n u
      | none => some (.ok w)

def forceAll (P : World K) : Nat → List (Val K) → Option (Except Err (List (Val K)))
  | 0, _ => none
  | _ + 1, [] => some (.ok [])
  | n + 1, v :: vs => andThen (force P n v) fun w => andThen (forceAll P n vs) fun ws => some (.ok (w :: ws))
end

/-- A whole program: past metadata, all of which must be in scope. -/
def program (P : World K) : Nat → Val K → Option (R K)
  | 0, _ => none
  | n + 1, v => andThen (eval P n v) fun w =>
      match shape w with
      | .annotated m b e => andThen (some (resolveAll P e [m, b])) fun vs =>
          match vs with
          | [_, u] => program P n u
          | _ => none
      | _ => some (.ok w)

/-- What can be seen of a result from outside. -/
inductive Seen (K : Type) where
  | native (k : K)
  | function (arity : Nat)
  | data (tag fields : Nat)
  | error (x : Err)
  deriving DecidableEq, Repr

def seen : R K → Option (Seen K)
  | .error x => some (.error x)
  | .ok v => match shape v with
    | .nat k => some (.native k)
    | .fn a _ _ => some (.function a)
    | .data t as _ => some (.data t as.length)
    | _ => none

/-- The program shows `s` to one who waits long enough. -/
def Means (P : World K) (root : Syn K) (s : Seen K) : Prop :=
  ∃ n r, program P n (.clo 0 root .nil) = some r ∧ seen r = some s

end Verif.Sem
