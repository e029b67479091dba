import Verif.CoreSpec

/-!
# What a program means, with lookups in blocks

An expression stands for the tree that is seen when references are followed (`Core.unfold`).  Here lookups in that tree
are carried out as well: the lookup of a member of a block stands for the member, or for the fallback if there is no
such member.
-/

namespace Verif.Prune

open Verif.Core

/-- The value of the first entry for a key. -/
def member {α : Type} (key : String) : List String → List α → Option α
  | k :: ks, x :: xs => if k = key then some x else member key ks xs
  | _, _ => none

/-- A lookup in an object, `fs` being the fallback if there is one.  One that fails is seen as having no parts. -/
def carryOut (key : String) : List Tree → Tree
  | .node (.block ks) xs :: fs => (member key ks xs).getD (fs.head?.getD (.node (.lookup key) []))
  | o :: fs => .node (.lookup key) (o :: fs.head?.toList)
  | [] => .node (.lookup key) []

mutual
/-- All lookups in blocks carried out. -/
def resolve : Tree → Tree
  | .lam n b => .lam n (resolve b)
  | .node (.lookup key) xs => carryOut key (resolveL xs)
  | .node k xs => .node k (resolveL xs)
  | .free x => .free x
  | .param l i => .param l i
  | .dangling => .dangling
  | .cut => .cut
def resolveL : List Tree → List Tree
  | [] => []
  | x :: xs => resolve x :: resolveL xs
end

/-- What is seen of an expression when references are followed `n` times at most and lookups are carried out. -/
def see (n : Nat) (E : Env) (e : Core) : Tree := resolve (unfold n E e)

/-- A bound variable. -/
def refOf : Core → Option (Nat × Nat)
  | .var (.bound s i _) => some (s, i)
  | _ => none

mutual
/-- No lookup has the object itself, a variable, as its fallback. -/
def NoSelf : Core → Prop
  | .var _ => True
  | .letE _ vs b _ => NoSelfL vs ∧ NoSelf b
  | .lam _ b => NoSelf b
  | .node (.lookup _) xs => NoSelfO xs ∧ NoSelfL xs
  | .node _ xs => NoSelfL xs
def NoSelfL : List Core → Prop
  | [] => True
  | x :: xs => NoSelf x ∧ NoSelfL xs
def NoSelfO : List Core → Prop
  | o :: f :: _ => ∀ r, refOf o = some r → refOf f ≠ some r
  | _ => True
end

mutual
/-- No binding is eliminated yet. -/
def NoElim : Core → Prop
  | .var _ => True
  | .letE _ vs b _ => NoElimL vs ∧ NoElim b
  | .lam _ b => NoElim b
  | .node k xs => k ≠ .errEliminated ∧ NoElimL xs
def NoElimL : List Core → Prop
  | [] => True
  | x :: xs => NoElim x ∧ NoElimL xs
end

end Verif.Prune
