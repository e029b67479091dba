/-!
# Operator soup: gap filling and the shunting yard

Transcription of `src/core/cook/fill.rs` and `src/core/cook/shunt.rs`.

A soup is the flat list of atoms between a pair of brackets in a eucalypt expression,
after operator names have been replaced by operators carrying their fixity and precedence
(`cook/fixity.rs`).
-/

namespace Verif.Shunt

/-- `Fixity`, src/core/expr.rs:57-66. -/
inductive Fixity where
  | nullary | prefix | postfix | infixLeft | infixRight
deriving DecidableEq, Repr

/-- `Fixity::arity`, src/core/expr.rs:68-76. -/
def Fixity.arity : Fixity → Nat
  | .nullary => 0
  | .prefix | .postfix => 1
  | .infixLeft | .infixRight => 2

/-- The body of an operator atom: one of the three pseudo operators
(`ErrPseudoDot`, `ErrPseudoCall`, `ErrPseudoCat`) or the function it stands for, here an
opaque identity.  src/core/expr.rs:1832-1869. -/
inductive Body where
  | dot | call | cat | user (n : Nat)
deriving DecidableEq, Repr

/-- `Expr::Operator(smid, fixity, precedence, body)`.  The precedence is an `i32`; only
comparisons are made on it, so `Int` is exact.  A `Smid` is a number, `0` being
`Smid::default()` (sourcemap.rs: `Option<NonZeroU32>`). -/
structure Op where
  smid : Nat
  fixity : Fixity
  prec : Int
  body : Body
deriving DecidableEq, Repr

/-- Any atom of a soup that is not an operator.  `form_apply` distinguishes names, lambdas
and argument tuples; gap filling makes section anaphora; all the rest is opaque.
Simplification: contents of lambdas, tuples and other values are opaque identities. -/
inductive ValKind where
  | name (n : Nat) | lam (n : Nat) | argTuple (n : Nat)
  | sectionLeft | sectionRight | other (n : Nat)
deriving DecidableEq, Repr

structure Val where
  smid : Nat
  kind : ValKind
deriving DecidableEq, Repr

/-- An atom of a soup. -/
inductive Tok where
  | val (v : Val)
  | op (o : Op)
deriving DecidableEq, Repr

/-- `HasSmid` for atoms. -/
def Tok.smid : Tok → Nat
  | .val v => v.smid
  | .op o => o.smid

/-- `ops::cat`, src/core/expr.rs:1860-1868. -/
def catOp : Op := ⟨0, .infixLeft, 20, .cat⟩
/-- `ops::call`, src/core/expr.rs:1848-1856. -/
def callOp : Op := ⟨0, .infixLeft, 90, .call⟩
/-- `ops::dot`, src/core/expr.rs:1836-1844. -/
def dotOp : Op := ⟨0, .infixLeft, 90, .dot⟩

/-- The errors raised here: `CoreError::TooFewOperands` and
`CoreError::NoSmidForImplicitAnaphor`. -/
inductive Err where
  | tooFewOperands (o : Op)
  | noSmidForImplicitAnaphor
deriving DecidableEq, Repr

/-! ## fill.rs -/

/-- `BindSide`, src/core/cook/fill.rs:49-52. -/
inductive Side where
  | opLike | valueLike
deriving DecidableEq, Repr

/-- First component of `bind_sides`, src/core/cook/fill.rs:56-69. -/
def leftSide : Option Tok → Side
  | none => .opLike
  | some (.val _) => .valueLike
  | some (.op o) =>
    match o.fixity with
    | .nullary => .valueLike
    | .prefix => .valueLike
    | .postfix => .opLike
    | .infixLeft | .infixRight => .opLike

/-- Second component of `bind_sides`, src/core/cook/fill.rs:56-69. -/
def rightSide : Option Tok → Side
  | none => .opLike
  | some (.val _) => .valueLike
  | some (.op o) =>
    match o.fixity with
    | .nullary => .valueLike
    | .prefix => .opLike
    | .postfix => .valueLike
    | .infixLeft | .infixRight => .opLike

/-- `filler`, src/core/cook/fill.rs:73-95. -/
def filler (l r : Option Tok) : Except Err (Option Tok) :=
  match rightSide l, leftSide r with
  | .valueLike, .valueLike => .ok (some (.op catOp))
  | .opLike, .opLike =>
    let rsmid := (r.map Tok.smid).getD 0
    let lsmid := (l.map Tok.smid).getD 0
    if rsmid ≠ 0 then .ok (some (.val ⟨rsmid, .sectionLeft⟩))
    else if lsmid ≠ 0 then .ok (some (.val ⟨lsmid, .sectionRight⟩))
    else .error .noSmidForImplicitAnaphor
  | _, _ => .ok none

/-- The part of `fill_gaps` after the prefix: windows and suffix,
src/core/cook/fill.rs:25-44.  The collection of naked anaphora, which does not affect the
list, is not modelled. -/
def fillFrom : List Tok → Except Err (List Tok)
  | [] => .ok []
  | x :: xs =>
    match filler (some x) xs.head? with
    | .error e => .error e
    | .ok f =>
      match fillFrom xs with
      | .error e => .error e
      | .ok ys => .ok (x :: (f.toList ++ ys))

/-- `fill_gaps`, src/core/cook/fill.rs:12-46. -/
def fillGaps (xs : List Tok) : Except Err (List Tok) :=
  match xs with
  | [] => .ok []
  | x :: _ =>
    match filler none (some x) with
    | .error e => .error e
    | .ok f =>
      match fillFrom xs with
      | .error e => .error e
      | .ok ys => .ok (f.toList ++ ys)

/-! ## shunt.rs -/

/-- The expressions built by the shunter: which operator was applied to which operands.
The shunter never inspects an expression once it is on the output stack except inside
`form_apply`, so recording the application and interpreting it afterwards
(`formApply`, below) is the same as building it on the spot. -/
inductive Tree where
  | leaf (t : Tok)
  | app1 (o : Op) (x : Tree)
  | app2 (o : Op) (l r : Tree)
deriving DecidableEq, Repr

/-- `Shunter`, src/core/cook/shunt.rs:19-25.  Stacks are lists whose head is the top; the
input is in reading order (the code keeps it reversed in a `Vec`). -/
structure St where
  input : List Tok
  output : List Tree
  ops : List Op
  error : Option Err
deriving DecidableEq, Repr

/-- `apply_op`, `apply_zero`, `apply_one`, `apply_two`,
src/core/cook/shunt.rs:168-201. -/
def applyOp (o : Op) (st : St) : St :=
  match o.fixity.arity with
  | 0 => { st with output := .leaf (.op o) :: st.output }
  | 1 =>
    match st.output with
    | x :: out => { st with output := .app1 o x :: out }
    | [] => { st with error := some (.tooFewOperands o) }
  | _ =>
    match st.output with
    | r :: l :: out => { st with output := .app2 o l r :: out }
    | _ => { st with error := some (.tooFewOperands o) }

/-- `seat_op`, src/core/cook/shunt.rs:104-157.  The operator stack is passed separately so
that the recursion (which drops the top each time) is structural; `st.ops` is ignored on
entry and set on exit. -/
def seatOp (this : Op) : List Op → St → St
  | ops, st =>
    if this.fixity = .nullary then applyOp this { st with ops := ops }
    else match ops with
    | [] => { st with ops := [this] }
    | top :: rest =>
      if top.fixity = .infixLeft then
        if this.prec ≤ top.prec then seatOp this rest (applyOp top st)
        else { st with ops := this :: top :: rest }
      else if top.fixity = .infixRight then
        if this.prec < top.prec then seatOp this rest (applyOp top st)
        else { st with ops := this :: top :: rest }
      else if top.fixity = .postfix then seatOp this rest (applyOp top st)
      else if this.fixity = .postfix then
        if this.prec < top.prec then seatOp this rest (applyOp top st)
        else applyOp this { st with ops := top :: rest }
      else if this.prec < top.prec then seatOp this rest (applyOp top st)
      else { st with ops := this :: top :: rest }

/-- `clear_ops`, src/core/cook/shunt.rs:160-165. -/
def clearOps : List Op → St → St
  | [], st => { st with ops := [] }
  | top :: rest, st => clearOps rest (applyOp top st)

/-- `insert_fill` and `insert_initial_fill`, src/core/cook/shunt.rs:249-265. -/
def insertFill (l : Option Tok) (st : St) : St :=
  match filler l st.input.head? with
  | .ok (some f) => { st with input := f :: st.input }
  | .ok none => st
  | .error e => { st with error := some e }

/-- `shunt1`, src/core/cook/shunt.rs:268-280. -/
def shunt1 (st : St) : St :=
  match st.input with
  | x :: rest =>
    let st := insertFill (some x) { st with input := rest }
    match x with
    | .op o => seatOp o st.ops st
    | .val _ => { st with output := .leaf x :: st.output }
  | [] => clearOps st.ops st

/-- `is_complete`, src/core/cook/shunt.rs:39-41. -/
def St.complete (st : St) : Bool := st.input.isEmpty && st.ops.isEmpty

/-- The `while` loop of `shunt`, src/core/cook/shunt.rs:48-50, with a step bound.
`none` means the bound was reached. -/
def loop : Nat → St → Option St
  | 0, st => if st.complete then some st else none
  | n + 1, st => if st.complete then some st else loop n (shunt1 st)

/-- How `shunt` ends. -/
inductive Outcome where
  | ok (t : Tree)
  | err (e : Err)
  | panicked          -- "shunting ended with empty output"
  | diverged          -- the step bound was reached
deriving DecidableEq, Repr

/-- The initial state, src/core/cook/shunt.rs:28-37 and 44-46. -/
def initSt (xs : List Tok) : St :=
  let st : St := ⟨xs, [], [], none⟩
  if st.complete then st else insertFill none st

/-- `shunt`, src/core/cook/shunt.rs:12-14, 43-61. -/
def shunt (xs : List Tok) : Outcome :=
  match loop (2 * xs.length + 3) (initSt xs) with
  | none => .diverged
  | some st =>
    match st.error with
    | some e => .err e
    | none =>
      match st.output with
      | t :: _ => .ok t
      | [] => .panicked

/-! ## form_apply -/

/-- Core expressions as far as `form_apply` builds them. -/
inductive Ex where
  | atom (t : Tok)
  | lookup (target : Ex) (name : Nat)
  | call (f : Ex) (args : Nat)          -- `App(f, args)` with the tuple's arguments
  | app1 (f : Ex) (x : Ex)
  | app2 (f : Ex) (x y : Ex)
deriving DecidableEq, Repr

/-- `form_apply` on two operands, src/core/cook/shunt.rs:212-246.  `none` is the panic
"pseudocall op without arg tuple". -/
def formApply2 (o : Op) (l r : Ex) : Option Ex :=
  match o.body with
  | .call =>
    match r with
    | .atom (.val ⟨_, .argTuple n⟩) => some (.call l n)
    | _ => none
  | .dot =>
    match r with
    | .atom (.val ⟨_, .name n⟩) => some (.lookup l n)
    | .atom (.val ⟨_, .lam _⟩) => some (.app1 r l)
    | _ => some r
  | .cat => some (.app1 r l)
  | .user _ => some (.app2 (.atom (.op o)) l r)

/-- The core expression of a tree.  Unary pseudo operators do not exist (`form_apply`
would index out of bounds), hence `none`. -/
def Tree.denote : Tree → Option Ex
  | .leaf t => some (.atom t)
  | .app1 o x =>
    match o.body with
    | .user _ => (x.denote).map (.app1 (.atom (.op o)))
    | _ => none
  | .app2 o l r =>
    match l.denote, r.denote with
    | some l, some r => formApply2 o l r
    | _, _ => none

/-! ## The parts of cook/mod.rs around the shunter -/

/-- `is_cat_operator`, src/core/cook/mod.rs:115-121. -/
def isCat : Tok → Bool
  | .op o => o.body = .cat
  | .val _ => false

/-- `split_at_cat_operators`, src/core/cook/mod.rs:95-112, with the accumulator `current`
in reading order. -/
def splitAtCat : (current : List Tok) → List Tok → List (List Tok)
  | [], [] => []
  | c :: cs, [] => [c :: cs]
  | cur, t :: ts =>
    if isCat t then
      match cur with
      | [] => splitAtCat [] ts
      | c :: cs => (c :: cs) :: splitAtCat [] ts
    else splitAtCat (cur ++ [t]) ts

/-- `cook_soup` for a soup that is not bracket content, restricted to operator resolution:
fill the gaps, then shunt.  src/core/cook/mod.rs:201-236.  (Cooking of the atoms themselves
and the wrapping of anaphora into lambdas are not part of this model.) -/
def cookSoup (xs : List Tok) : Outcome :=
  match fillGaps xs with
  | .error e => .err e
  | .ok ys => shunt ys

/-- `cook_soup` for bracket content: fill, split at catenations, shunt each group. -/
def cookBracket (xs : List Tok) : Except Err (List Outcome) :=
  match fillGaps xs with
  | .error e => .error e
  | .ok ys => .ok ((splitAtCat [] ys).map shunt)

end Verif.Shunt
