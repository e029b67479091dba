import Verif.BcModel

/-!
# The optimiser of compiled code

`src/eval/stg/optimiser.rs`, over the syntax trees of `BcModel`.  `none` is a panic (`try_into().unwrap()` on a tag that
is no constructor).  The `inner` of a fused operation, which is not in the trees, is left out.
-/

namespace Verif.Opt
open Verif.Bc
variable {K : Type}

/-- `DataConstructor::try_from` with `arity`, stg/tags.rs:78-99 and 115-150. -/
def tagArity : Nat → Option Nat
  | 0 => some 0
  | 1 => some 0
  | 2 => some 0
  | 3 => some 1
  | 4 => some 1
  | 5 => some 1
  | 6 => some 0
  | 7 => some 2
  | 8 => some 2
  | 9 => some 2
  | 10 => some 2
  | 11 => some 1
  | 12 => some 2
  | 13 => some 3
  | 14 => some 2
  | 15 => some 2
  | 16 => some 2
  | 17 => some 1
  | _ => none

/-- The three `IndexTransformation`s, optimiser.rs:10-148. -/
inductive Tr where
  | lets (mapping : List Nat)
  | bump (delta : Nat)
  | shift (shift : Nat)
  deriving DecidableEq, Repr

/-- `transform` on a local, optimiser.rs:158-168, with the three `apply`s, 87-96, 115-122 and 138-147; the last pushed
is the head of the list. -/
def trans : List Tr → Nat → Nat
  | [], n => n
  | .lets ms :: st, n => match ms[n]? with
    | some i => trans st i
    | none => trans st (n - ms.length)
  | .bump d :: st, n => trans st n + d
  | .shift s :: st, n => if n < s then n else trans st (n - s) + s

def transRef (st : List Tr) : Ref K → Ref K
  | .l i => .l (trans st i)
  | r => r

/-- `from_let_bindings`, optimiser.rs:23-44. -/
def fromLet : Forms K → Option (List Nat)
  | .nil => some []
  | .cons (.lambda _ _) _ _ => none
  | .cons _ b rest => match b with
    | .atom (.l n) => (fromLet rest).map (n :: ·)
    | _ => none

/-- `from_letrec_bindings`, optimiser.rs:55-82; `n` is the number of bindings. -/
def fromLetrec (n : Nat) : Forms K → Option (List Nat)
  | .nil => some []
  | .cons (.lambda _ _) _ _ => none
  | .cons _ b rest => match b with
    | .atom (.l k) => if k < n then none else (fromLetrec n rest).map ((k - n) :: ·)
    | _ => none

def count : Forms K → Nat
  | .nil => 0
  | .cons _ _ rest => count rest + 1

/-- Are the arguments of a constructor all locals, and which? (`from_let_bindings` of the bindings made at
optimiser.rs:272-275.) -/
def locals : List (Ref K) → Option (List Nat)
  | [] => some []
  | .l i :: rs => (locals rs).map (i :: ·)
  | _ :: _ => none

/-- `LambdaForm::value(dsl::atom(r))` of each, optimiser.rs:272-275. -/
def bindArgs : List (Ref K) → Forms K
  | [] => .nil
  | r :: rs => .cons .value (.atom r) (bindArgs rs)

/-- Does the case become a `force`? optimiser.rs:247-250. -/
def forces : Brs K → Fb K → Bool
  | .cons t _ .nil, .none => tagArity t == some 0
  | _, _ => false

/-- Is there a branch for the tag? -/
def hasTag (t : Nat) : Brs K → Bool
  | .nil => false
  | .cons t' _ rest => t' == t || hasTag t rest

/-- The `Case` arm of `apply`, optimiser.rs:240-306, given whether it becomes a `force`, which tags have branches, and its
parts pruned. -/
def optCase (st : List Tr) (forced : Bool) (tagged : Nat → Bool) (scr : Option (Syn K)) (force : Option (Syn K))
    (find : List Tr → Nat → Option (Syn K)) (bs : Option (Brs K)) (fb : Option (Fb K)) : Option (Syn K) :=
  match scr with
  | none => none
  | some scr =>
    if forced then force.map fun body => .case scr .nil (.some body)
    else match scr with
      | .cons t args =>
        if tagged t then
          if args.isEmpty then find st t
          else match locals args with
            | some ms => find (.lets ms :: st) t
            | none => (find (.shift args.length :: st) t).map fun body => .let_ (bindArgs (args.map (transRef st))) body
        else match fb with
          | none => none
          | some (.some body) => some (.let_ (.cons .value (.cons t (args.map (transRef st))) .nil) body)
          | some .none => bs.map fun bs => .case (.cons t args) bs .none
      | scr => match bs, fb with
        | some bs, some fb => some (.case scr bs fb)
        | _, _ => none

mutual
/-- `AllocationPruner::apply`, optimiser.rs:202-404. -/
def opt (st : List Tr) : Syn K → Option (Syn K)
  | .atom r => some (.atom (transRef st r))
  | .let_ fs body => match fromLet fs with
    | some ms => opt (.lets ms :: st) body
    | none => match optForms st fs, opt (.shift (count fs) :: st) body with
      | some fs, some body => some (.let_ fs body)
      | _, _ => none
  | .letrec fs body => match fromLetrec (count fs) fs with
    | some ms => opt (.lets ms :: st) body
    | none => match optForms (.shift (count fs) :: st) fs, opt (.shift (count fs) :: st) body with
      | some fs, some body => some (.letrec fs body)
      | _, _ => none
  | .case scr bs fb => optCase st (forces bs fb) (hasTag · bs) (opt st scr) (optForce (.bump 1 :: st) bs)
      (fun st t => optFind st t bs) (optBrs st bs) (optFb (.shift 1 :: st) fb)
  | .cons t args => some (.cons t (args.map (transRef st)))
  | .app f args eager => some (.app (transRef st f) (args.map (transRef st)) eager)
  | .dapp smid f args eager => some (.dapp smid (transRef st f) (args.map (transRef st)) eager)
  | .bif i args => some (.bif i (args.map (transRef st)))
  | .ann smid body => match opt st body with
    | some body => some (.ann smid body)
    | none => none
  | .metaOf m b => some (.metaOf (transRef st m) (transRef st b))
  | .seq scr body => match opt st scr, opt st body with
    | some scr, some body => some (.seq scr body)
    | _, _ => none
  | .demeta scr h o => match opt st scr, opt (.shift 2 :: st) h, opt (.shift 1 :: st) o with
    | some scr, some h, some o => some (.demeta scr h o)
    | _, _, _ => none
  | .fused id l r => some (.fused id (transRef st l) (transRef st r))
  | .lookup smid key obj dflt => some (.lookup smid key obj dflt)
  | .hole => some .hole
/-- The only branch of a case that becomes a `force`. -/
def optForce (st : List Tr) : Brs K → Option (Syn K)
  | .cons _ b _ => opt st b
  | .nil => none
/-- `branches.iter().map`, optimiser.rs:294-304. -/
def optBrs (st : List Tr) : Brs K → Option (Brs K)
  | .nil => some .nil
  | .cons t b rest => match tagArity t with
    | none => none
    | some n => match opt (.shift n :: st) b, optBrs st rest with
      | some b, some rest => some (.cons t b rest)
      | _, _ => none
/-- `branches.iter().find`, optimiser.rs:270, and the pruning of what is found. -/
def optFind (st : List Tr) (t : Nat) : Brs K → Option (Syn K)
  | .nil => none
  | .cons t' b rest => if t' = t then opt st b else optFind st t rest
def optFb (st : List Tr) : Fb K → Option (Fb K)
  | .none => some .none
  | .some b => match opt st b with
    | some b => some (.some b)
    | none => none
/-- `transform_bindings`, optimiser.rs:171-200. -/
def optForms (st : List Tr) : Forms K → Option (Forms K)
  | .nil => some .nil
  | .cons h b rest =>
    match (match h with | .lambda n _ => opt (.shift n :: st) b | _ => opt st b), optForms st rest with
    | some b, some rest => some (.cons h b rest)
    | _, _ => none
end

/-- `AllocationPruner::default().apply`, compiler.rs:1728. -/
def optimise (c : Syn K) : Option (Syn K) := opt [] c

end Verif.Opt
