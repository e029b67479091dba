import Verif.CoreModel
import Verif.TarjanModel

/-!
# Splitting recursive binding groups

Transcription of `split_letrecs`, `walk` and `split_scope`, `src/core/dependency.rs:21-172`.  The order
in which the names in a `HashSet` are met is arbitrary: `ord path names` is the order used at the place
`path` of the expression.  `none` is a panic.
-/

namespace Verif.Split

open Verif.Core

instance : Inhabited Core := ⟨.node .list []⟩

/-- `name_to_idx`, dependency.rs:113-117: with a repeated name, the last one is kept. -/
def lastIndex : List String → String → Option Nat
  | [], _ => none
  | n :: ns, x => match lastIndex ns x with
    | some i => some (i + 1)
    | none => if n = x then some 0 else none

/-- The dependency lists, dependency.rs:119-131. -/
def depsOf (ord : List Nat → List String → List String) (path : List Nat) (ns : List String) (ovs : List Core)
    (i : Nat) : List Nat :=
  (ord (i :: path) ((ovs[i]?.getD default).freeVars)).filterMap (lastIndex ns)

/-- One turn of the loop of dependency.rs:161-168. -/
def closeGroup (ns : List String) (ovs : List Core) (scc : List Nat) (result : Core) : Core :=
  let names := scc.map fun i => ns[i]?.getD ""
  let vals := scc.map fun i => ovs[i]?.getD default
  let c := closeLet names vals result
  .letE names c.1 c.2 .other

/-- `split_scope`, dependency.rs:102-172. -/
def splitScope (ord : List Nat → List String → List String) (path : List Nat) (ns : List String) (vs : List Core)
    (b : Core) : Option Core :=
  let o := openLet ns vs b
  match Tarjan.tarjan vs.length (depsOf ord path ns o.1) with
  | none => none
  | some sccs =>
    if sccs.length ≤ 1 then some (.letE ns vs b .other)
    else some (sccs.foldr (closeGroup ns o.1) o.2)

mutual
/-- `walk`, dependency.rs:28-98. -/
def walk (ord : List Nat → List String → List String) (path : List Nat) : Core → Option Core
  | .var v => some (.var v)
  | .letE ns vs b t =>
    match walkL ord path vs, walk ord (0 :: path) b with
    | some vs', some b' =>
      if t ≠ .other ∨ vs'.length ≤ 1 then some (.letE ns vs' b' t) else splitScope ord path ns vs' b'
    | _, _ => none
  | .lam ps b => (walk ord (0 :: path) b).map (.lam ps)
  | .node k xs => (walkL ord path xs).map (.node k)
def walkL (ord : List Nat → List String → List String) (path : List Nat) : List Core → Option (List Core)
  | [] => some []
  | x :: xs =>
    match walk ord ((xs.length + 1) :: path) x, walkL ord path xs with
    | some x', some xs' => some (x' :: xs')
    | _, _ => none
end

/-- `split_letrecs`, dependency.rs:22-24. -/
def splitLetrecs (ord : List Nat → List String → List String) (e : Core) : Option Core := walk ord [] e

/-! ## Specification -/

mutual
/-- The names of all the `let` bindings of an expression. -/
def binders : Core → List String
  | .var _ => []
  | .letE ns vs b _ => ns ++ bindersL vs ++ binders b
  | .lam _ b => binders b
  | .node _ xs => bindersL xs
def bindersL : List Core → List String
  | [] => []
  | x :: xs => binders x ++ bindersL xs
end

/-- A reference suits the enclosing binders (innermost first; `none` for a lambda, the names for a
`let`): a reference to a `let` is to one of its bindings, and a free name is not one bound by a `let`
around it. -/
def Fits (Γ : List (Option (List String))) : Var → Prop
  | .free x => ∀ ns, some ns ∈ Γ → x ∉ ns
  | .bound s i _ => ∀ ns, Γ[s]? = some (some ns) → i < ns.length

mutual
/-- All references suit their binders, and the names of each group are distinct. -/
def Fit (Γ : List (Option (List String))) : Core → Prop
  | .var v => Fits Γ v
  | .letE ns vs b _ => ns.Nodup ∧ ns.length = vs.length ∧ FitL (some ns :: Γ) vs ∧ Fit (some ns :: Γ) b
  | .lam _ b => Fit (none :: Γ) b
  | .node _ xs => FitL Γ xs
def FitL (Γ : List (Option (List String))) : List Core → Prop
  | [] => True
  | x :: xs => Fit Γ x ∧ FitL Γ xs
end

end Verif.Split
