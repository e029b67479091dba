import Verif.ShuntModel

/-!
# Specification of operator resolution

What a reader of an expression expects, independent of the shunting yard.
-/

namespace Verif.Shunt

/-- The atoms of a tree in reading order: infix operators between their operands, prefix
operators before, postfix operators after. -/
def Tree.yield : Tree → List Tok
  | .leaf t => [t]
  | .app1 o x => if o.fixity = .postfix then x.yield ++ [.op o] else .op o :: x.yield
  | .app2 o l r => l.yield ++ .op o :: r.yield

/-- A list of atoms is a complete expression: an operand is wanted first; a value (or
nullary operator) supplies it, a prefix operator keeps wanting it; once there is an operand
an infix operator wants another one and a postfix operator leaves a complete operand. -/
def completeFrom : (haveOperand : Bool) → List Tok → Bool
  | have?, [] => have?
  | false, .val _ :: ts => completeFrom true ts
  | true, .val _ :: _ => false
  | false, .op o :: ts =>
    match o.fixity with
    | .nullary => completeFrom true ts
    | .prefix => completeFrom false ts
    | _ => false
  | true, .op o :: ts =>
    match o.fixity with
    | .infixLeft | .infixRight => completeFrom false ts
    | .postfix => completeFrom true ts
    | _ => false

/-- A complete operator expression. -/
def Complete (ts : List Tok) : Prop := completeFrom false ts = true

instance (ts : List Tok) : Decidable (Complete ts) := inferInstanceAs (Decidable (_ = _))

/-- When operator `a` stands to the left of `b` and both could take the operand between
them, does `a` take it?  The higher precedence does; at equal precedence, the left one
does if it is left associative.  A postfix operator has already taken its operand. -/
def takes (a b : Op) : Prop :=
  match a.fixity with
  | .infixLeft => b.prec ≤ a.prec
  | .infixRight | .prefix => b.prec < a.prec
  | _ => True

instance (a b : Op) : Decidable (takes a b) := by
  unfold takes; split <;> infer_instance

/-- The operators whose rightmost operand ends where the tree ends: they compete for that
operand with an operator that follows. -/
def Tree.rightOpen : Tree → List Op
  | .leaf _ => []
  | .app1 o x => if o.fixity = .postfix then [] else o :: x.rightOpen
  | .app2 o _ r => o :: r.rightOpen

/-- The operators whose leftmost operand begins where the tree begins: they compete for
that operand with an operator that precedes. -/
def Tree.leftOpen : Tree → List Op
  | .leaf _ => []
  | .app1 o x => if o.fixity = .postfix then o :: x.leftOpen else []
  | .app2 o l _ => o :: l.leftOpen

/-- A tree groups its operators according to precedence and associativity, every operator
has the number of operands its fixity calls for, and leaves are operands. -/
def Tree.Grouped : Tree → Prop
  | .leaf (.val _) => True
  | .leaf (.op o) => o.fixity = .nullary
  | .app1 o x =>
    x.Grouped ∧
    ((o.fixity = .postfix ∧ ∀ a ∈ x.rightOpen, takes a o) ∨
     (o.fixity = .prefix ∧ ∀ b ∈ x.leftOpen, ¬ takes o b))
  | .app2 o l r =>
    l.Grouped ∧ r.Grouped ∧ (o.fixity = .infixLeft ∨ o.fixity = .infixRight) ∧
    (∀ a ∈ l.rightOpen, takes a o) ∧ (∀ b ∈ r.leftOpen, ¬ takes o b)

/-- The side condition under which the shunting yard is right: no prefix operator directly
follows an infix or prefix operator that is at least as tight (strictly tighter, if that
operator is right associative or prefix). -/
def PrefixOk : List Tok → Prop
  | .op a :: .op b :: ts =>
    (b.fixity = .prefix → (a.fixity = .infixLeft ∨ a.fixity = .infixRight ∨ a.fixity = .prefix) →
      ¬ takes a b) ∧ PrefixOk (.op b :: ts)
  | _ :: ts => PrefixOk ts
  | [] => True

instance PrefixOk.dec : (ts : List Tok) → Decidable (PrefixOk ts)
  | [] => isTrue trivial
  | [.val _] => isTrue trivial
  | [.op _] => isTrue trivial
  | .val _ :: t :: ts => by
      have := PrefixOk.dec (t :: ts); unfold PrefixOk; exact this
  | .op _ :: .val v :: ts => by
      have := PrefixOk.dec (.val v :: ts); unfold PrefixOk; exact this
  | .op _ :: .op b :: ts => by
      have := PrefixOk.dec (.op b :: ts); unfold PrefixOk; infer_instance

/-- `ys` is `xs` with extra atoms put in, each of them a catenation operator or a section
anaphor (an implicit operand). -/
inductive Filled : List Tok → List Tok → Prop
  | nil : Filled [] []
  | keep {t xs ys} : Filled xs ys → Filled (t :: xs) (t :: ys)
  | cat {xs ys} : Filled xs ys → Filled xs (.op catOp :: ys)
  | left {s xs ys} : Filled xs ys → Filled xs (.val ⟨s, .sectionLeft⟩ :: ys)
  | right {s xs ys} : Filled xs ys → Filled xs (.val ⟨s, .sectionRight⟩ :: ys)

end Verif.Shunt
