import Verif.CoreSpec

/-!
# Flattening chains of nested binding groups

Transcription of `src/core/reflatten.rs`.  Demand annotations, which the pass carries along with the
bindings, are left out.
-/

namespace Verif.Flat

open Verif.Core

/-- The number of `let`s directly inside each other. -/
def chainLen : Core → Nat
  | .letE _ _ b _ => chainLen b + 1
  | _ => 0

theorem chainLen_mapVars (f : Nat → Var → Var) (d : Nat) (e : Core) : chainLen (e.mapVars f d) = chainLen e := by
  induction e using chainLen.induct generalizing d with
  | case1 ns vs b t ih => simp [Core.mapVars, chainLen, ih]
  | case2 e h =>
    cases e with
    | letE ns vs b t => exact absurd rfl (h ns vs b t)
    | _ => simp [Core.mapVars, chainLen]

/-- `collect_chain`, reflatten.rs:155-177: the opened bindings, and the innermost body. -/
def collectChain (ns : List String) (vs : List Core) (b : Core) : List (String × Core) × Core :=
  let o := openLet ns vs b
  let here := ns.zip o.1
  match _h : o.2 with
  | .letE ns2 vs2 b2 .other =>
    let r := collectChain ns2 vs2 b2
    (here ++ r.1, r.2)
  | ob => (here, ob)
termination_by chainLen b
decreasing_by
  have h' : opn ns 0 b = .letE ns2 vs2 b2 .other := _h
  have := chainLen_mapVars (openVar ns) 0 b
  unfold opn at h'
  rw [h'] at this
  simp only [chainLen] at this
  omega

/-- `close_let_scope_with_demand`, reflatten.rs:181-205. -/
def closeAll (bs : List (String × Core)) (body : Core) : Core :=
  let names := bs.map (·.1)
  .letE names (bs.map fun p => close names 0 p.2) (close names 0 body) .other

/-- `is_mergeable_let`, reflatten.rs:146-148. -/
def mergeable : Core → Bool
  | .letE _ _ _ .other => true
  | _ => false

/-- `flatten_chain`, reflatten.rs:110-142. -/
def flattenChain (e : Core) : Core :=
  match e with
  | .letE ns vs b .other =>
    if mergeable b then
      let r := collectChain ns vs b
      if r.1.length = ns.length then e else closeAll r.1 r.2
    else e
  | e => e

mutual
/-- `walk`, reflatten.rs:28-97. -/
def walk : Core → Core
  | .var v => .var v
  | .letE ns vs b t =>
    let rebuilt := Core.letE ns (walkL vs) (walk b) t
    if t ≠ .other then rebuilt else flattenChain rebuilt
  | .lam ps b => .lam ps (walk b)
  | .node k xs => .node k (walkL xs)
def walkL : List Core → List Core
  | [] => []
  | x :: xs => walk x :: walkL xs
end

/-- `reflatten`, reflatten.rs:21-23. -/
def reflatten (e : Core) : Core := walk e

/-! ## Specification -/

/-- The names bound by a chain of mergeable groups. -/
def chainNames : Core → List String
  | .letE ns _ b .other => ns ++ chainNames b
  | _ => []

/-- A reference suits the enclosing binders (innermost first; `none` for a lambda, the number of bindings
for a `let`), and free names are in `S`. -/
def Fits (S : String → Prop) (Γ : List (Option Nat)) : Var → Prop
  | .free x => S x
  | .bound s i _ => ∀ n, Γ[s]? = some (some n) → i < n

mutual
/-- All references suit their binders, free names (in `S`) are different from bound ones, and the names
bound by a chain of groups are all different. -/
def Fit (S : String → Prop) (Γ : List (Option Nat)) : Core → Prop
  | .var v => Fits S Γ v
  | .letE ns vs b t =>
    ns.length = vs.length ∧ (∀ x ∈ ns, ¬ S x) ∧ (t = .other → (ns ++ chainNames b).Nodup) ∧
      FitL S (some vs.length :: Γ) vs ∧ Fit S (some vs.length :: Γ) b
  | .lam _ b => Fit S (none :: Γ) b
  | .node _ xs => FitL S Γ xs
def FitL (S : String → Prop) (Γ : List (Option Nat)) : List Core → Prop
  | [] => True
  | x :: xs => Fit S Γ x ∧ FitL S Γ xs
end

end Verif.Flat
