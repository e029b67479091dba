import Verif.CoreSpec

/-!
# Removing eliminated bindings

Transcription of `src/core/simplify/compress.rs`.  `none` stands for the internal compiler error of a
reference to an eliminated binding, and for the panic of a reference to no enclosing binder.
-/

namespace Verif.Dce

open Verif.Core

/-- `matches!(e, Expr::ErrEliminated)` -/
def isElim : Core → Bool
  | .node .errEliminated _ => true
  | _ => false

abbrev Perm := List (Option Nat)

/-- `permutation_from_let_scope`, compress.rs:119-133, `i` being the running index. -/
def permFrom (i : Nat) : List Core → Perm
  | [] => []
  | v :: vs => if isElim v then none :: permFrom i vs else some i :: permFrom (i + 1) vs

def permOf (vs : List Core) : Perm := permFrom 0 vs

/-- `permutation_from_lam_scope`, compress.rs:135-142. -/
def permLam (n : Nat) : Perm := (List.range n).map some

/-- `encounter`, compress.rs:32-40, and the case of variables, compress.rs:95-112. -/
def compressVar (perms : List Perm) : Var → Option Var
  | .free x => some (.free x)
  | .bound s i n => do
    let perm ← perms[s]?
    let j ← perm[i]?.join
    pure (.bound s j n)

mutual
/-- `ScopeCompressor::compress`, compress.rs:42-116. -/
def compress (perms : List Perm) : Core → Option Core
  | .var v => (compressVar perms v).map .var
  | .letE ns vs b t => do
    let perms' := permOf vs :: perms
    let bs ← compressVals perms' ns vs
    let b' ← compress perms' b
    if bs.1 ≠ [] then pure (.letE bs.1 bs.2 b' t) else pure (pred b')
  | .lam ps b => do
    let b' ← compress (permLam ps.length :: perms) b
    pure (.lam ps b')
  | .node k xs => do
    let xs' ← compressL perms xs
    pure (.node k xs')
/-- The bindings that are left, compress.rs:47-56: their names and values. -/
def compressVals (perms : List Perm) : List String → List Core → Option (List String × List Core)
  | n :: ns, v :: vs =>
    if isElim v then compressVals perms ns vs
    else do
      let v' ← compress perms v
      let r ← compressVals perms ns vs
      pure (n :: r.1, v' :: r.2)
  | _, _ => some ([], [])
def compressL (perms : List Perm) : List Core → Option (List Core)
  | [] => some []
  | x :: xs => do
    let x' ← compress perms x
    let xs' ← compressL perms xs
    pure (x' :: xs')
end

/-! ## Specification -/

/-- An enclosing binder: the number of slots, and which are not eliminated. -/
structure Slots where
  count : Nat
  live : Nat → Prop

/-- A reference is to a slot that is not eliminated. -/
def LiveRef (Γ : List Slots) : Var → Prop
  | .free _ => True
  | .bound s i _ => ∃ b, Γ[s]? = some b ∧ i < b.count ∧ b.live i

/-- The slots of a `let`. -/
def letSlots (vs : List Core) : Slots where
  count := vs.length
  live := fun i => ∀ parts, vs[i]? ≠ some (.node .errEliminated parts)

def lamSlots (n : Nat) : Slots where
  count := n
  live := fun _ => True

mutual
/-- All references, other than those in eliminated bindings, are to bindings that are not eliminated. -/
def Live (Γ : List Slots) : Core → Prop
  | .var v => LiveRef Γ v
  | .letE ns vs b _ => ns.length = vs.length ∧ LiveB (letSlots vs :: Γ) vs ∧ Live (letSlots vs :: Γ) b
  | .lam ps b => Live (lamSlots ps.length :: Γ) b
  | .node _ xs => LiveL Γ xs
def LiveB (Γ : List Slots) : List Core → Prop
  | [] => True
  | .node .errEliminated _ :: xs => LiveB Γ xs
  | x :: xs => Live Γ x ∧ LiveB Γ xs
def LiveL (Γ : List Slots) : List Core → Prop
  | [] => True
  | x :: xs => Live Γ x ∧ LiveL Γ xs
end

end Verif.Dce
