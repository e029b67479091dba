/-!
# Types and subtyping

Models src/core/typecheck/types.rs (`Type`, `unfold_mu`), the part of unify.rs
that reduces applications (`beta_reduce`, `structural_subst`) and subtype.rs
(`is_subtype`).

Simplifications: kinds of variables play no part in subtyping and are left out.
The types without parts that are related only to themselves (numbers, booleans
and so on) are gathered in `Prim`.  A record's `BTreeMap` of fields is a list of
fields, looked up by name; the `Bool` of a field says that it is optional.
Recursion is bounded by a number of levels, since unfolding recursive types has
no structural bound; the theorems say when the bound is immaterial.
-/

namespace Verif.Subtype

/-- The types without parts: `Number … DateTime`, `ExecutionError`, `Set`, `Vec`,
`Array`. -/
inductive Prim
  | number | string | symbol | bool | null | dateTime | executionError | set | vec | array
  deriving Repr, DecidableEq

/-- `Type`, types.rs:237-353. -/
inductive Ty
  | prim (p : Prim)
  | any
  | top
  | never
  | con (name : String)
  | app (f x : Ty)
  | tuple (es : List Ty)
  | prefixList (pre : List Ty) (tail : Ty)
  | record (fields : List (String × Bool × Ty)) (isOpen : Bool) (rows : List String)
  | function (a b : Ty)
  | union (vs : List Ty)
  | litSymbol (s : String)
  | litString (s : String)
  | var (x : String)
  | mu (x : String) (body : Ty)
  | forall_ (xs : List String) (body : Ty)
  | lam (x : String) (body : Ty)
  deriving Repr

mutual
/-- `#[derive(PartialEq)]`. -/
def Ty.beq : Ty → Ty → Bool
  | .prim p, .prim q => p = q
  | .any, .any => true
  | .top, .top => true
  | .never, .never => true
  | .con n, .con m => n = m
  | .app f x, .app g y => Ty.beq f g && Ty.beq x y
  | .tuple es, .tuple fs => beqs es fs
  | .prefixList p t, .prefixList q u => beqs p q && Ty.beq t u
  | .record f o r, .record g p s => beqFields f g && o = p && r = s
  | .function a b, .function c d => Ty.beq a c && Ty.beq b d
  | .union vs, .union ws => beqs vs ws
  | .litSymbol s, .litSymbol t => s = t
  | .litString s, .litString t => s = t
  | .var x, .var y => x = y
  | .mu x b, .mu y c => x = y && Ty.beq b c
  | .forall_ xs b, .forall_ ys c => xs = ys && Ty.beq b c
  | .lam x b, .lam y c => x = y && Ty.beq b c
  | _, _ => false
/-- On lists. -/
def beqs : List Ty → List Ty → Bool
  | [], [] => true
  | a :: as, b :: bs => Ty.beq a b && beqs as bs
  | _, _ => false
/-- On fields. -/
def beqFields : List (String × Bool × Ty) → List (String × Bool × Ty) → Bool
  | [], [] => true
  | (n, o, a) :: as, (m, p, b) :: bs => n = m && o = p && Ty.beq a b && beqFields as bs
  | _, _ => false
end

mutual
theorem Ty.beq_iff : ∀ (a b : Ty), Ty.beq a b = true ↔ a = b
  | .prim p, b => by cases b <;> simp [Ty.beq]
  | .any, b => by cases b <;> simp [Ty.beq]
  | .top, b => by cases b <;> simp [Ty.beq]
  | .never, b => by cases b <;> simp [Ty.beq]
  | .con n, b => by cases b <;> simp [Ty.beq]
  | .app f x, b => by cases b <;> simp [Ty.beq, Ty.beq_iff f, Ty.beq_iff x]
  | .tuple es, b => by cases b <;> simp [Ty.beq, beqs_iff es]
  | .prefixList p t, b => by cases b <;> simp [Ty.beq, beqs_iff p, Ty.beq_iff t]
  | .record f o r, b => by cases b <;> simp [Ty.beq, beqFields_iff f, and_assoc]
  | .function x y, b => by cases b <;> simp [Ty.beq, Ty.beq_iff x, Ty.beq_iff y]
  | .union vs, b => by cases b <;> simp [Ty.beq, beqs_iff vs]
  | .litSymbol s, b => by cases b <;> simp [Ty.beq]
  | .litString s, b => by cases b <;> simp [Ty.beq]
  | .var s, b => by cases b <;> simp [Ty.beq]
  | .mu x y, b => by cases b <;> simp [Ty.beq, Ty.beq_iff y]
  | .forall_ x y, b => by cases b <;> simp [Ty.beq, Ty.beq_iff y]
  | .lam x y, b => by cases b <;> simp [Ty.beq, Ty.beq_iff y]
theorem beqs_iff : ∀ (as bs : List Ty), beqs as bs = true ↔ as = bs
  | [], bs => by cases bs <;> simp [beqs]
  | a :: as, bs => by cases bs <;> simp [beqs, Ty.beq_iff a, beqs_iff as]
theorem beqFields_iff : ∀ (as bs : List (String × Bool × Ty)), beqFields as bs = true ↔ as = bs
  | [], bs => by cases bs <;> simp [beqFields]
  | (n, o, a) :: as, bs => by
    cases bs with
    | nil => simp [beqFields]
    | cons b bs =>
      obtain ⟨m, p, b⟩ := b
      simp [beqFields, Ty.beq_iff a, beqFields_iff as, and_assoc]
end

instance : DecidableEq Ty := fun a b => decidable_of_iff _ (Ty.beq_iff a b)

/-- `Type::list`, types.rs:359-361. -/
def Ty.list (t : Ty) : Ty := .app (.con "List") t
/-- `Type::prefix_list`, types.rs:408-417. -/
def Ty.mkPrefixList (pre : List Ty) (tail : Ty) : Ty :=
  if pre = [] then .list tail else .prefixList pre tail

mutual
/-- `unfold_mu`, types.rs:887-944. -/
def unfoldMu (x : String) (r : Ty) : Ty → Ty
  | .var y => if y = x then r else .var y
  | .mu y b => if y = x then .mu y b else .mu y (unfoldMu x r b)
  | .app f a => .app (unfoldMu x r f) (unfoldMu x r a)
  | .tuple es => .tuple (unfoldMus x r es)
  | .prefixList p t => .mkPrefixList (unfoldMus x r p) (unfoldMu x r t)
  | .function a b => .function (unfoldMu x r a) (unfoldMu x r b)
  | .record fs o rows => .record (unfoldMuFields x r fs) o rows
  | .union vs => .union (unfoldMus x r vs)
  | .forall_ xs b => .forall_ xs (unfoldMu x r b)
  | .lam y b => if y = x then .lam y b else .lam y (unfoldMu x r b)
  | t => t
/-- On lists. -/
def unfoldMus (x : String) (r : Ty) : List Ty → List Ty
  | [] => []
  | t :: ts => unfoldMu x r t :: unfoldMus x r ts
/-- On fields. -/
def unfoldMuFields (x : String) (r : Ty) : List (String × Bool × Ty) → List (String × Bool × Ty)
  | [] => []
  | (n, o, t) :: ts => (n, o, unfoldMu x r t) :: unfoldMuFields x r ts
end

mutual
/-- `structural_subst`, unify.rs:49-123, with `beta_reduce` of what an application
becomes; `fuel` bounds nested reductions. -/
def structSubst (fuel : Nat) (x : String) (r : Ty) : Ty → Ty
  | .var y => if y = x then r else .var y
  | .app f a =>
    let f' := structSubst fuel x r f
    let a' := structSubst fuel x r a
    match fuel, f' with
    | k + 1, .lam y b => structSubst k y a' b
    | _, _ => .app f' a'
  | .function a b => .function (structSubst fuel x r a) (structSubst fuel x r b)
  | .record fs o rows => .record (structSubstFields fuel x r fs) o rows
  | .union vs => .union (structSubsts fuel x r vs)
  | .tuple es => .tuple (structSubsts fuel x r es)
  | .prefixList p t => .mkPrefixList (structSubsts fuel x r p) (structSubst fuel x r t)
  | .forall_ xs b => if x ∈ xs then .forall_ xs b else .forall_ xs (structSubst fuel x r b)
  | .mu y b => if y = x then .mu y b else .mu y (structSubst fuel x r b)
  | .lam y b => if y = x then .lam y b else .lam y (structSubst fuel x r b)
  | t => t
termination_by t => (fuel, sizeOf t)
/-- On lists. -/
def structSubsts (fuel : Nat) (x : String) (r : Ty) : List Ty → List Ty
  | [] => []
  | t :: ts => structSubst fuel x r t :: structSubsts fuel x r ts
termination_by ts => (fuel, sizeOf ts)
/-- On fields. -/
def structSubstFields (fuel : Nat) (x : String) (r : Ty) :
    List (String × Bool × Ty) → List (String × Bool × Ty)
  | [] => []
  | (n, o, t) :: ts => (n, o, structSubst fuel x r t) :: structSubstFields fuel x r ts
termination_by ts => (fuel, sizeOf ts)
end

/-- `beta_reduce`, unify.rs:34-41, as `is_subtype_co` calls it (subtype.rs:50-61). -/
def betaReduce (fuel : Nat) : Ty → Ty
  | .app (.lam x b) a => structSubst fuel x a b
  | t => t

/-- `as_applied_single`, types.rs:433-440. -/
def Ty.single : Ty → Option (String × Ty)
  | .app (.con n) a => some (n, a)
  | _ => none
/-- `as_applied_two`, types.rs:443-452. -/
def Ty.two : Ty → Option (String × Ty × Ty)
  | .app (.app (.con n) a) b => some (n, a, b)
  | _ => none
/-- `as_list` and the like: the argument of the constructor `n`. -/
def Ty.argOf (n : String) (t : Ty) : Option Ty :=
  match t.single with
  | some (m, a) => if m = n then some a else none
  | none => none

/-- `BTreeMap::get`. -/
def getField (fs : List (String × Bool × Ty)) (n : String) : Option (Bool × Ty) :=
  (fs.find? fun f => f.1 = n).map Prod.snd

/-- Pointwise on the common length (`zip`). -/
def zipAll (sub : Ty → Ty → Bool) : List Ty → List Ty → Bool
  | a :: as, b :: bs => sub a b && zipAll sub as bs
  | _, _ => true

/-- `tuple_matches_prefix_list`, subtype.rs:317-333. -/
def tuplePrefix (sub : Ty → Ty → Bool) (es pre : List Ty) (tail : Ty) : Bool :=
  decide (pre.length ≤ es.length) && zipAll sub es pre &&
    (es.drop pre.length).all fun e => sub e tail

/-- `is_app_subtype`, subtype.rs:352-388, of two applications. -/
def appSub (sub : Ty → Ty → Bool) (s t : Ty) : Bool :=
  let two : Option Bool :=
    match s.two, t.two with
    | some (sn, sa, sb), some (tn, ta, tb) =>
      if (sn = "Lens" ∧ tn = "Lens") ∨ (sn = "Traversal" ∧ tn = "Traversal") ∨
          (sn = "Lens" ∧ tn = "Traversal") then
        some (sub sa ta && sub sb tb)
      else none
    | _, _ => none
  match two with
  | some b => b
  | none =>
    match s.single, t.single with
    | some (sn, si), some (tn, ti) =>
      if sn = tn then
        if sn = "List" ∨ sn = "IO" ∨ sn = "Dict" ∨ sn = "NonEmpty" then sub si ti else decide (si = ti)
      else if sn = "NonEmpty" ∧ tn = "List" then sub si ti
      else decide (s = t)
    | _, _ => decide (s = t)

/-- Records, subtype.rs:200-245. -/
def recordSub (sub : Ty → Ty → Bool) (sf : List (String × Bool × Ty)) (so : Bool) (sr : List String)
    (tf : List (String × Bool × Ty)) (to : Bool) (tr : List String) : Bool :=
  let sOpen := so || !sr.isEmpty
  let tOpen := to || !tr.isEmpty
  (tf.all fun f =>
    match f with
    | (n, false, tt) =>
      match getField sf n with
      | some (false, st) => sub st tt
      | some (true, _) => false
      | none => false
    | (n, true, tt) =>
      match getField sf n with
      | some (_, st) => sub st tt
      | none => true) &&
  !(!tOpen && sOpen)

/-- The arms on lists of all kinds, subtype.rs:123-198, in order; `none` if none applies. -/
def listSub (sub : Ty → Ty → Bool) (s t : Ty) : Option Bool :=
  match s, t with
  | .app _ _, .app _ _ => some (appSub sub s t)
  | .tuple es, .app _ _ =>
    match t.argOf "List" with
    | some u => some (es.all fun e => sub e u)
    | none =>
      match t.argOf "NonEmpty" with
      | some u => some (!es.isEmpty && es.all fun e => sub e u)
      | none => none
  | .tuple as, .tuple bs => some (decide (as.length = bs.length) && zipAll sub as bs)
  | .prefixList [] tail, _ => some (sub (.list tail) t)
  | _, .prefixList [] tail => some (sub s (.list tail))
  | .tuple es, .prefixList pre tail => some (tuplePrefix sub es pre tail)
  | .prefixList p s2, .prefixList p2 t2 =>
    some (decide (p2.length ≤ p.length) && zipAll sub p p2 &&
      ((p.drop p2.length).all fun e => sub e t2) && sub s2 t2)
  | .prefixList pre tail, .app _ _ =>
    match t.argOf "List" with
    | some u => some ((pre.all fun e => sub e u) && sub tail u)
    | none => none
  | .app _ _, .prefixList pre tail =>
    match s.argOf "NonEmpty" with
    | some u =>
      some (decide (pre.length = 1) &&
        (match pre with | p :: _ => sub u p | [] => false) && sub u tail)
    | none => none
  | _, _ => none

/-- The arms on records and dictionaries, subtype.rs:200-273, in order. -/
def blockSub (sub : Ty → Ty → Bool) (s t : Ty) : Option Bool :=
  match s, t with
  | .record sf so sr, .record tf to tr => some (recordSub sub sf so sr tf to tr)
  | .record sf so sr, .app _ _ =>
    if so = false ∧ sr = [] then
      match t.argOf "Dict" with
      | some b => some (sf.all fun f => sub f.2.2 b)
      | none => none
    else none
  | .app _ _, .record tf to _ =>
    if tf = [] ∧ to = true ∧ (s.argOf "Dict").isSome then some true else none
  | _, _ => none

/-- The arms from functions to the end, subtype.rs:275-306. -/
def restSub (sub : Ty → Ty → Bool) (s t : Ty) : Bool :=
  match s, t with
  | .function a b, .function c d => sub c a && sub b d
  | .union vs, t => vs.all fun v => sub v t
  | s, .union vs => vs.any fun v => sub s v
  | .forall_ _ b, t => sub b t
  | s, .forall_ _ b => sub s b
  | .con _, _ => false
  | _, .con _ => false
  | .lam x b, .lam y c => if x = y then sub b c else true
  | .lam _ _, _ => true
  | _, .lam _ _ => true
  | _, _ => false

/-- The arms on `Top`, `Never`, `Any`, variables, literals and types without
parts, subtype.rs:93-121 (two equal ones have been dealt with). -/
def specialSub (s t : Ty) : Option Bool :=
  match s, t with
  | .never, _ => some true
  | _, .top => some true
  | .top, _ => some false
  | _, .never => some false
  | .any, _ => some true
  | _, .any => some true
  | .var _, _ => some true
  | _, .var _ => some true
  | .litSymbol _, .prim .symbol => some true
  | .litString _, .prim .string => some true
  | _, _ => none

/-- `is_subtype_co`, subtype.rs:47-308. -/
def subCo : Nat → List (Ty × Ty) → Ty → Ty → Bool
  | 0, _, _, _ => false
  | k + 1, assumed, s, t =>
    let s := betaReduce k s
    let t := betaReduce k t
    if s = t then true
    else if (s, t) ∈ assumed then true
    else
      match s, t with
      | .mu x b, t => subCo k ((.mu x b, t) :: assumed) (unfoldMu x (.mu x b) b) t
      | s, .mu x b => subCo k ((s, .mu x b) :: assumed) s (unfoldMu x (.mu x b) b)
      | s, t =>
        match specialSub s t with
        | some r => r
        | none =>
          match listSub (subCo k assumed) s t with
          | some r => r
          | none =>
            match blockSub (subCo k assumed) s t with
            | some r => r
            | none => restSub (subCo k assumed) s t

/-- `is_subtype`, subtype.rs:42-44. -/
def isSubtype (fuel : Nat) (s t : Ty) : Bool := subCo fuel [] s t

end Verif.Subtype
