import Verif.CoreModel

/-!
# What core expressions refer to

A small specification, independent of the transformations: when an expression is well scoped, and what
its references stand for.
-/

namespace Verif.Core

/-! ## Well-scoped expressions -/

/-- A bound reference points at an existing slot of an enclosing binder; `Γ` has the numbers of slots of
the enclosing binders, innermost first. -/
def Var.InScope (Γ : List Nat) : Var → Prop
  | .free _ => True
  | .bound s i _ => ∃ n, Γ[s]? = some n ∧ i < n

mutual
/-- Every bound reference points at an existing slot of an enclosing binder. -/
def Core.WS (Γ : List Nat) : Core → Prop
  | .var v => v.InScope Γ
  | .letE ns vs b _ => ns.length = vs.length ∧ WSL (vs.length :: Γ) vs ∧ b.WS (vs.length :: Γ)
  | .lam ps b => b.WS (ps.length :: Γ)
  | .node _ xs => WSL Γ xs
def WSL (Γ : List Nat) : List Core → Prop
  | [] => True
  | x :: xs => x.WS Γ ∧ WSL Γ xs
end

/-! ## Unfolding

The meaning of `let` used here: replace every reference to a binding by the binding's value, and so on
for ever.  The result is an infinite tree without `let` or bound references to `let`; `unfold n` is what
is seen of it when references are followed `n` times at most.  Two expressions that unfold alike for all
`n` refer to the same things everywhere.
-/

/-- What is seen of an expression. -/
inductive Tree where
  | free (name : String)
  /-- parameter `slot` of the lambda that is `level` lambdas from the outside -/
  | param (level slot : Nat)
  /-- a reference that points nowhere -/
  | dangling
  /-- not followed any further -/
  | cut
  | lam (arity : Nat) (body : Tree)
  | node (k : Kind) (parts : List Tree)

/-- An enclosing binder: a lambda, with the number of lambdas around it, or a `let` with its values. -/
inductive Frame where
  | lam (level : Nat)
  | letF (vals : List Core)

/-- The enclosing binders, innermost first. -/
abbrev Env := List Frame

def lamCount : Env → Nat
  | [] => 0
  | .lam _ :: E => lamCount E + 1
  | .letF _ :: E => lamCount E

/-- What a reference stands for. -/
inductive Ref where
  | free (name : String)
  | param (level slot : Nat)
  | dangling
  /-- the value of a binding, with the binders enclosing it -/
  | val (E : Env) (e : Core)

/-- What a variable stands for among the enclosing binders. -/
def look (E : Env) : Var → Ref
  | .free x => .free x
  | .bound s i _ =>
    match E.drop s with
    | [] => .dangling
    | .lam l :: _ => .param l i
    | .letF vals :: E' =>
      match vals[i]? with
      | none => .dangling
      | some e => .val (.letF vals :: E') e

/-- What is seen of a reference, `k` saying what is seen of an expression. -/
def seen (k : Env → Core → Tree) : Ref → Tree
  | .free x => .free x
  | .param l i => .param l i
  | .dangling => .dangling
  | .val E e => k E e

mutual
def unfoldWith (k : Env → Core → Tree) (E : Env) : Core → Tree
  | .var v => seen k (look E v)
  | .letE _ vs b _ => unfoldWith k (.letF vs :: E) b
  | .lam ps b => .lam ps.length (unfoldWith k (.lam (lamCount E) :: E) b)
  | .node kd xs => .node kd (unfoldWithL k E xs)
def unfoldWithL (k : Env → Core → Tree) (E : Env) : List Core → List Tree
  | [] => []
  | x :: xs => unfoldWith k E x :: unfoldWithL k E xs
end

/-- What is seen of an expression when references are followed `n` times at most. -/
def unfold : Nat → Env → Core → Tree
  | 0 => unfoldWith fun _ _ => .cut
  | n + 1 => unfoldWith (unfold n)

/-- Two expressions refer to the same things, whatever encloses them. -/
def Same (e e' : Core) : Prop := ∀ n E, unfold n E e = unfold n E e'

end Verif.Core

namespace Verif.Core

/-! ## What an importing unit sees -/

/-- The groups of bindings around the body of a unit, innermost first. -/
def scopes : Core → List (List String × List Core)
  | .letE ns vs b _ => scopes b ++ [(ns, vs)]
  | .node .withMeta [e, _] => scopes e
  | _ => []

/-- The same unit with another body, nothing else being touched. -/
def withBody (newBody : Core) : Core → Core
  | .letE ns vs b t => .letE ns vs (withBody newBody b) t
  | .node .withMeta [e, m] => .node .withMeta [withBody newBody e, m]
  | _ => newBody

/-- The metadata of a binding says `export: :internal` (in its first entry for `export`). -/
def MarkedInternal (v : Core) : Prop :=
  ∃ (e : Core) (keys : List String) (vals : List Core) (i : Nat), v = .node .withMeta [e, .node (.block keys) vals] ∧ keys[i]? = some "export" ∧
    vals[i]? = some (.node (.sym "internal") []) ∧ ∀ j, j < i → keys[j]? ≠ some "export"

/-- A unit exports a binding unless its metadata says `export: :internal`. -/
def exportsAt (sc : List String × List Core) (i : Nat) (x : String) : Prop :=
  sc.1[i]? = some x ∧ ∃ v, sc.2[i]? = some v ∧ ¬ MarkedInternal v

/-- Binding `i` of group `s` (0 for the innermost) is what the name `x` means to an importing unit: the
first exported binding of that name in the innermost group that exports one. -/
def Means (scs : List (List String × List Core)) (x : String) (s i : Nat) : Prop :=
  ∃ sc, scs[s]? = some sc ∧ exportsAt sc i x ∧ (∀ j, j < i → ¬ exportsAt sc j x) ∧
    ∀ s' sc', s' < s → scs[s']? = some sc' → ∀ j, ¬ exportsAt sc' j x

end Verif.Core
