/-!
# Unification of types

Model of src/core/typecheck/unify.rs: `unify`, `apply_subst`, `structural_subst`, `bind_var`, `occurs`
and `freshen_forall`. Recursion is bounded by a number of levels, and `none` (or `more`) says that it was
not enough: the code has no such bound and would not come back.

Simplifications: unions, recursive types and lists with a prefix are left out, as are the rules for
dictionaries against records; types without parts are gathered in `Prim`. A record's `BTreeMap` is a list
of fields, a substitution's `HashMap` is a list of pairs of which the first counts.
-/

namespace Verif.Unify

/-- Types without parts, types.rs:239-262. -/
inductive Prim
  | number | string | symbol | bool | null | dateTime | top | never | executionError | set | vec | array
  deriving Repr, DecidableEq

/-- `Kind`, types.rs. -/
inductive Kind
  | star
  | arrow (a b : Kind)
  deriving Repr, DecidableEq

/-- `Type`, types.rs:237-353. The `Bool` of a field says that it is optional. -/
inductive Ty
  | prim (p : Prim)
  | any
  | con (name : String)
  | app (f x : Ty)
  | tuple (es : List Ty)
  | record (fields : List (String × Bool × Ty)) (isOpen : Bool) (rows : List String)
  | function (a b : Ty)
  | litSymbol (s : String)
  | litString (s : String)
  | var (x : String) (k : Kind)
  | forall_ (xs : List (String × Kind)) (body : Ty)
  | lam (x : String) (body : Ty)
  deriving Repr

mutual
/-- `#[derive(PartialEq)]`. -/
def Ty.beq : Ty → Ty → Bool
  | .prim p, .prim q => p = q
  | .any, .any => true
  | .con n, .con m => n = m
  | .app f x, .app g y => Ty.beq f g && Ty.beq x y
  | .tuple es, .tuple fs => beqs es fs
  | .record f o r, .record g p s => beqFields f g && o = p && r = s
  | .function a b, .function c d => Ty.beq a c && Ty.beq b d
  | .litSymbol s, .litSymbol t => s = t
  | .litString s, .litString t => s = t
  | .var x k, .var y l => x = y && k = l
  | .forall_ xs b, .forall_ ys c => xs = ys && Ty.beq b c
  | .lam x b, .lam y c => x = y && Ty.beq b c
  | _, _ => false
/-- On lists. -/
def beqs : List Ty → List Ty → Bool
  | [], [] => true
  | a :: as, b :: bs => Ty.beq a b && beqs as bs
  | _, _ => false
/-- On fields. -/
def beqFields : List (String × Bool × Ty) → List (String × Bool × Ty) → Bool
  | [], [] => true
  | (n, o, a) :: as, (m, p, b) :: bs => n = m && o = p && Ty.beq a b && beqFields as bs
  | _, _ => false
end

mutual
theorem Ty.beq_iff : ∀ (a b : Ty), Ty.beq a b = true ↔ a = b
  | .prim p, b => by cases b <;> simp [Ty.beq]
  | .any, b => by cases b <;> simp [Ty.beq]
  | .con n, b => by cases b <;> simp [Ty.beq]
  | .app f x, b => by cases b <;> simp [Ty.beq, Ty.beq_iff f, Ty.beq_iff x]
  | .tuple es, b => by cases b <;> simp [Ty.beq, beqs_iff es]
  | .record f o r, b => by cases b <;> simp [Ty.beq, beqFields_iff f, and_assoc]
  | .function x y, b => by cases b <;> simp [Ty.beq, Ty.beq_iff x, Ty.beq_iff y]
  | .litSymbol s, b => by cases b <;> simp [Ty.beq]
  | .litString s, b => by cases b <;> simp [Ty.beq]
  | .var s k, b => by cases b <;> simp [Ty.beq]
  | .forall_ x y, b => by cases b <;> simp [Ty.beq, Ty.beq_iff y]
  | .lam x y, b => by cases b <;> simp [Ty.beq, Ty.beq_iff y]
theorem beqs_iff : ∀ (as bs : List Ty), beqs as bs = true ↔ as = bs
  | [], bs => by cases bs <;> simp [beqs]
  | a :: as, bs => by cases bs <;> simp [beqs, Ty.beq_iff a, beqs_iff as]
theorem beqFields_iff : ∀ (as bs : List (String × Bool × Ty)), beqFields as bs = true ↔ as = bs
  | [], bs => by cases bs <;> simp [beqFields]
  | (n, o, a) :: as, bs => by
    cases bs with
    | nil => simp [beqFields]
    | cons b bs =>
      obtain ⟨m, p, b⟩ := b
      simp [beqFields, Ty.beq_iff a, beqFields_iff as, and_assoc]
end

instance : DecidableEq Ty := fun a b => decidable_of_iff _ (Ty.beq_iff a b)

/-- `constructor_kind`, types.rs:117-123, or `Star`. -/
def conKind (n : String) : Kind :=
  if n = "List" ∨ n = "IO" ∨ n = "Dict" ∨ n = "NonEmpty" then .arrow .star .star
  else if n = "Lens" ∨ n = "Traversal" then .arrow .star (.arrow .star .star)
  else .star

/-- `kind_of`, types.rs:126-169. -/
def kindOf : Ty → Kind
  | .con n => conKind n
  | .app f _ =>
    match kindOf f with
    | .arrow _ r => r
    | .star => .star
  | .var _ k => k
  | .lam _ b => .arrow .star (kindOf b)
  | _ => .star

/-- `Substitution`, unify.rs:126. -/
abbrev Sub := List (String × Ty)

/-- `HashMap::get`. -/
def get (x : String) : Sub → Option Ty
  | [] => none
  | p :: s => if p.1 = x then some p.2 else get x s

/-- On each of a list, if none runs out. -/
def mapO {α β : Type} (f : α → Option β) : List α → Option (List β)
  | [] => some []
  | a :: as =>
    match f a, mapO f as with
    | some b, some bs => some (b :: bs)
    | _, _ => none

/-- `structural_subst`, unify.rs:49-123, with `beta_reduce`. -/
def structSubst : Nat → String → Ty → Ty → Option Ty
  | 0, _, _, _ => none
  | n + 1, x, r, t =>
    match t with
    | .var y k => if y = x then some r else some (.var y k)
    | .app f a =>
      match structSubst n x r f, structSubst n x r a with
      | some (.lam y b), some a' => structSubst n y a' b
      | some f', some a' => some (.app f' a')
      | _, _ => none
    | .function a b =>
      match structSubst n x r a, structSubst n x r b with
      | some a', some b' => some (.function a' b')
      | _, _ => none
    | .record fs o rows =>
      (mapO (fun f => (structSubst n x r f.2.2).map fun t => (f.1, f.2.1, t)) fs).map
        fun fs' => .record fs' o rows
    | .tuple es => (mapO (structSubst n x r) es).map .tuple
    | .forall_ bs b =>
      if bs.any fun p => p.1 = x then some (.forall_ bs b)
      else (structSubst n x r b).map (.forall_ bs)
    | .lam y b => if y = x then some (.lam y b) else (structSubst n x r b).map (.lam y)
    | t => some t

/-- `beta_reduce`, unify.rs:34-41. -/
def betaReduce (n : Nat) : Ty → Option Ty
  | .app (.lam x b) a => structSubst n x a b
  | t => some t

/-- What a record is in the course of `apply_subst`, unify.rs:571-578. -/
structure Rec where
  fields : List (String × Bool × Ty)
  isOpen : Bool
  rows : List String
  extra : List String

/-- `entry(k).or_insert(fp)` of all extra fields, unify.rs:589-591. -/
def orInsert (fs : List (String × Bool × Ty)) : List (String × Bool × Ty) → List (String × Bool × Ty)
  | [] => fs
  | f :: es => orInsert (if fs.any fun g => g.1 = f.1 then fs else fs ++ [f]) es

/-- One row variable, unify.rs:580-612; `ap` is `apply_subst`. -/
def applyRow (ap : Ty → Option Ty) (s : Sub) (r : String) (c : Rec) : Option Rec :=
  match get r s with
  | some u =>
    (ap u).map fun
      | .record fs o rows =>
        { c with fields := orInsert c.fields fs, isOpen := c.isOpen || o, extra := c.extra ++ rows }
      | .var y _ => { c with rows := c.rows ++ [y] }
      | _ => { c with isOpen := true }
  | none => some { c with rows := c.rows ++ [r] }

def applyRows (ap : Ty → Option Ty) (s : Sub) : List String → Rec → Option Rec
  | [], c => some c
  | r :: rs, c =>
    match applyRow ap s r c with
    | some c' => applyRows ap s rs c'
    | none => none

/-- `apply_subst`, unify.rs:543-650. -/
def applySubst : Nat → Sub → Ty → Option Ty
  | 0, _, _ => none
  | n + 1, s, t =>
    if s = [] then some t else
    match t with
    | .var x k =>
      match get x s with
      | some u => applySubst n s u
      | none => some (.var x k)
    | .app f a =>
      match applySubst n s f, applySubst n s a with
      | some f', some a' => betaReduce n (.app f' a')
      | _, _ => none
    | .tuple es => (mapO (applySubst n s) es).map .tuple
    | .function a b =>
      match applySubst n s a, applySubst n s b with
      | some a', some b' => some (.function a' b')
      | _, _ => none
    | .record fs o rows =>
      match mapO (fun f => (applySubst n s f.2.2).map fun t => (f.1, f.2.1, t)) fs with
      | some fs' =>
        (applyRows (applySubst n s) s rows { fields := fs', isOpen := o, rows := [], extra := [] }).map
          fun c => .record c.fields c.isOpen (c.rows ++ c.extra)
      | none => none
    | .forall_ bs b =>
      (applySubst n (s.filter fun p => !bs.any fun q => q.1 = p.1) b).map (.forall_ bs)
    | .lam x b => (applySubst n (s.filter fun p => p.1 ≠ x) b).map (.lam x)
    | t => some t

mutual
/-- `occurs`, unify.rs:886-921. -/
def occurs (x : String) : Ty → Bool
  | .var y _ => y = x
  | .app f a => occurs x f || occurs x a
  | .function a b => occurs x a || occurs x b
  | .tuple es => occursL x es
  | .record fs _ rows => occursF x fs || rows.contains x
  | .forall_ bs b => if bs.any fun p => p.1 = x then false else occurs x b
  | .lam y b => y ≠ x && occurs x b
  | _ => false
/-- In a list. -/
def occursL (x : String) : List Ty → Bool
  | [] => false
  | t :: ts => occurs x t || occursL x ts
/-- In fields. -/
def occursF (x : String) : List (String × Bool × Ty) → Bool
  | [] => false
  | (_, _, t) :: ts => occurs x t || occursF x ts
end

/-- `UnifyError`, unify.rs:130-137. -/
inductive Err
  | mismatch (a b : Ty)
  | occursCheck (x : String) (t : Ty)
  | kindMismatch (a b : Kind)

/-- What a call comes to: `more` if the levels do not suffice. -/
inductive Out
  | more
  | ok (s : Sub)
  | fail (e : Err)

def Out.bind (o : Out) (f : Sub → Out) : Out :=
  match o with
  | .ok s => f s
  | o => o

/-- `match` on the result of `apply_subst`. -/
def withApplied (o : Option Ty) (f : Ty → Out) : Out :=
  match o with
  | some t => f t
  | none => .more

/-- Literals become their base types, unify.rs:527-531. -/
def widen : Ty → Ty
  | .litString _ => .prim .string
  | .litSymbol _ => .prim .symbol
  | t => t

/-- `bind_var`, unify.rs:512-539. -/
def bindVar (x : String) (k : Kind) (t : Ty) (s : Sub) : Out :=
  if occurs x t then .fail (.occursCheck x t)
  else if kindOf (widen t) = k then .ok ((x, widen t) :: s)
  else .fail (.kindMismatch k (kindOf (widen t)))

/-- `freshen_forall`, unify.rs:713-721, with `counter` from `i`. -/
def freshNames (i : Nat) : List (String × Kind) → Sub → Sub
  | [], s => s
  | p :: bs, s => freshNames (i + 1) bs ((p.1, .var ("_t" ++ toString i) p.2) :: s)

def freshenForall (n : Nat) (bs : List (String × Kind)) (b : Ty) : Option Ty :=
  applySubst n (freshNames 0 bs []) b

/-- Pairs one after the other, as in `for (a, b) in pairs`. -/
def unifyPairs (un : Ty → Ty → Sub → Out) : List Ty → List Ty → Sub → Out
  | a :: as, b :: bs, s => (un a b s).bind (unifyPairs un as bs)
  | _, _, s => .ok s

def getField (fs : List (String × Bool × Ty)) (n : String) : Option (Bool × Ty) :=
  (fs.find? fun f => f.1 = n).map Prod.snd

/-- The common fields, unify.rs:349-355. -/
def unifyFields (ap : Sub → Ty → Option Ty) (un : Ty → Ty → Sub → Out)
    (f2 : List (String × Bool × Ty)) : List (String × Bool × Ty) → Sub → Out
  | [], s => .ok s
  | f :: fs, s =>
    match getField f2 f.1 with
    | none => unifyFields ap un f2 fs s
    | some (_, v2) =>
      (withApplied (ap s f.2.2) fun a => withApplied (ap s v2) fun b => un a b s).bind
        (unifyFields ap un f2 fs)

/-- The fields of the one that the other has not. -/
def only (f g : List (String × Bool × Ty)) : List (String × Bool × Ty) :=
  f.filter fun p => (getField g p.1).isNone

/-- What a row variable is bound to, unify.rs:394-417 and 440-455: from the fields, openness and rows of
the other record. -/
def extraTy (extra : List (String × Bool × Ty)) (o : Bool) (rows : List String) : Ty :=
  match extra, rows with
  | [], [r] => .var r .star
  | _, _ => .record extra ((!extra.isEmpty && o) || !rows.isEmpty) rows

/-- One row variable, unify.rs:386-421: bound if it is still a variable. -/
def absorb (ap : Sub → Ty → Option Ty) (r : String) (extra : List (String × Bool × Ty)) (o : Bool)
    (rows : List String) (s : Sub) : Out :=
  withApplied (ap s (.var r .star)) fun
    | .var _ _ =>
      match mapO (fun f => (ap s f.2.2).map fun t => (f.1, f.2.1, t)) extra with
      | none => .more
      | some ex =>
        let t := extraTy ex o rows
        if occurs r t then .ok s else .ok ((r, t) :: s)
    | _ => .ok s

def absorbAll (ap : Sub → Ty → Option Ty) (extra : List (String × Bool × Ty)) (o : Bool)
    (rows : List String) : List String → Sub → Out
  | [], s => .ok s
  | r :: rs, s => (absorb ap r extra o rows s).bind (absorbAll ap extra o rows rs)

/-- The rows of the second record, unify.rs:422-458, left out if one of the first stands for them. -/
def absorbRest (ap : Sub → Ty → Option Ty) (extra : List (String × Bool × Ty)) (o : Bool)
    (rows : List String) : List String → Sub → Out
  | [], s => .ok s
  | r :: rs, s =>
    if rows.any fun q => get q s = some (.var r .star) then absorbRest ap extra o rows rs s
    else (absorb ap r extra o rows s).bind (absorbRest ap extra o rows rs)

/-- Records, unify.rs:331-461. -/
def unifyRecords (ap : Sub → Ty → Option Ty) (un : Ty → Ty → Sub → Out)
    (f1 : List (String × Bool × Ty)) (o1 : Bool) (r1 : List String)
    (f2 : List (String × Bool × Ty)) (o2 : Bool) (r2 : List String) (s : Sub) : Out :=
  (unifyFields ap un f2 f1 s).bind fun s =>
    if only f1 f2 ≠ [] ∧ r2 = [] then .fail (.mismatch (.record f1 o1 r1) (.record f2 o2 r2))
    else if only f2 f1 ≠ [] ∧ o1 = false ∧ r1 = [] then
      .fail (.mismatch (.record f1 o1 r1) (.record f2 o2 r2))
    else
      (absorbAll ap (only f2 f1) o2 r2 r1 s).bind (absorbRest ap (only f1 f2) o1 r1 r2)

/-- A pattern `m x` of a variable of higher kind, not bound, and a variable: unify.rs:181-189, 203-208. -/
def pattern (s : Sub) : Ty → Option (String × String)
  | .app (.var m (.arrow _ _)) (.var x .star) => if (get m s).isNone then some (m, x) else none
  | _ => none

/-- `matches!(rhs, App | Var)`. -/
def appOrVar : Ty → Bool
  | .app _ _ => true
  | .var _ _ => true
  | _ => false

/-- Binding a pattern, unify.rs:190-201, 209-220. -/
def bindPattern (m x : String) (t : Ty) (s : Sub) : Out :=
  if occurs m t then .fail (.occursCheck m t) else .ok ((m, .lam x t) :: s)

/-- `NonEmpty` and `List`, unify.rs:254-259. -/
def listPair : Ty → Ty → Option (Ty × Ty)
  | .app (.con "NonEmpty") a, .app (.con "List") b => some (a, b)
  | .app (.con "List") a, .app (.con "NonEmpty") b => some (a, b)
  | _, _ => none

/-- The arms of `unify` from those of variables on, unify.rs:223-508; `ap` and `un` are `apply_subst`
and `unify`, `fr` is `freshen_forall`. -/
def unifyRest (ap : Sub → Ty → Option Ty) (un : Ty → Ty → Sub → Out)
    (fr : List (String × Kind) → Ty → Option Ty) (t1 t2 : Ty) (s : Sub) : Out :=
  match t1, t2 with
  | .var x k, t => bindVar x k t s
  | t, .var x k => bindVar x k t s
  | .litSymbol _, .prim .symbol => .ok s
  | .prim .symbol, .litSymbol _ => .ok s
  | .litString _, .prim .string => .ok s
  | .prim .string, .litString _ => .ok s
  | .app f1 x1, .app f2 x2 =>
    match listPair (.app f1 x1) (.app f2 x2) with
    | some (a, b) => un a b s
    | none =>
      (un f1 f2 s).bind fun s =>
        withApplied (ap s x1) fun a => withApplied (ap s x2) fun b => un a b s
  | .forall_ bs b, t => withApplied (fr bs b) fun f => un f t s
  | t, .forall_ bs b => withApplied (fr bs b) fun f => un t f s
  | .function a1 b1, .function a2 b2 =>
    (un a1 a2 s).bind fun s =>
      withApplied (ap s b1) fun a => withApplied (ap s b2) fun b => un a b s
  | .tuple e1, .tuple e2 =>
    if e1.length = e2.length then unifyPairs un e1 e2 s else .fail (.mismatch t1 t2)
  | .record f1 o1 r1, .record f2 o2 r2 => unifyRecords ap un f1 o1 r1 f2 o2 r2 s
  | t1, t2 => .fail (.mismatch t1 t2)

/-- `unify`, unify.rs:156-509. -/
def unify : Nat → Ty → Ty → Sub → Out
  | 0, _, _, _ => .more
  | n + 1, t1, t2, s =>
    withApplied (applySubst n s t1) fun t1 => withApplied (applySubst n s t2) fun t2 =>
      if t1 = .any ∨ t2 = .any then .ok s
      else if t1 = t2 then .ok s
      else
        match pattern s t1, pattern s t2 with
        | some (m, x), p2 =>
          if appOrVar t2 then
            match appOrVar t1, p2 with
            | false, some (m, x) => bindPattern m x t1 s
            | _, _ => unifyRest (applySubst n) (unify n) (freshenForall n) t1 t2 s
          else bindPattern m x t2 s
        | none, some (m, x) =>
          if appOrVar t1 then unifyRest (applySubst n) (unify n) (freshenForall n) t1 t2 s
          else bindPattern m x t1 s
        | none, none => unifyRest (applySubst n) (unify n) (freshenForall n) t1 t2 s

end Verif.Unify
