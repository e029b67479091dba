import Verif.InlModel
import Verif.CompSpec

/-!
# What the inliner should keep

An expression of the inliner is read as one of `Verif.Comp`, which has a meaning of its own (`CompSpec`): flags, kinds of let
and the names of parameters are forgotten.  `tame` says of an expression, by itself, what is asked of it for the inliner to
keep its meaning; `apps` counts applications.
-/

namespace Verif.Inl
open Verif.Comp
variable {K : Type}

def fields : List K → Comp.Exps K → Comp.Kvs K
  | k :: ks, .cons x xs => .cons k x (fields ks xs)
  | _, _ => .nil

def nodeOf : Kind K → Comp.Exps K → Comp.Exp K
  | .list, xs => .list 0 xs
  | .block ks, xs => .block 0 (fields ks xs)
  | .lookup k, .cons x .nil => .lookup 0 x k
  | .lookupOr k, .cons x (.cons y .nil) => .lookupOr 0 x k y
  | .operator, .cons x .nil => .operator 0 x
  | _, _ => .other

mutual
/-- The expression meant. -/
def erase : Exp K → Comp.Exp K
  | .var (.free n) => .free n
  | .var (.bound s i h) => .var s i h
  | .let_ _ bs b => .let_ (eraseB bs) (erase b)
  | .lam _ ps b => .lam 0 ps.length (erase b)
  | .app f xs => .app 0 (erase f) (eraseL xs)
  | .lit p => .lit p
  | .intrinsic n => .intrinsic n
  | .metaOf x m => .metaOf 0 (erase x) (erase m)
  | .node k xs => nodeOf k (eraseL xs)
def eraseL : Exps K → Comp.Exps K
  | .nil => .nil
  | .cons x xs => .cons (erase x) (eraseL xs)
def eraseB : Binds K → Comp.Binds K
  | .nil => .nil
  | .cons n x rest => .cons n {} (erase x) (eraseB rest)
end

/-! ## Tame expressions -/

mutual
/-- Parameters, of which there are `n`, literals, intrinsics, and applications of these. -/
def flat (n : Nat) : Exp K → Bool
  | .var (.bound s i _) => s == 0 && decide (i < n)
  | .lit _ => true
  | .intrinsic _ => true
  | .app f xs => flat n f && flatL n xs
  | _ => false
def flatL (n : Nat) : Exps K → Bool
  | .nil => true
  | .cons x xs => flat n x && flatL n xs
end

/-- The scopes around an expression: functions, and the names of lets. -/
abbrev Names := List (Option (List String))

def isLam (G : Names) (s : Nat) : Bool := match G[s]? with
  | some none => true
  | _ => false

/-- A variable stands in scope; if it is that of a let it carries the right name, and no let in between has that name. -/
def goodVar : Names → Nat → Nat → Option String → Bool
  | [], _, _, _ => false
  | none :: _, 0, _, _ => true
  | some ns :: _, 0, i, h => h.isSome && ns[i]? == h
  | none :: G, s + 1, i, h => goodVar G s i h
  | some ns :: G, s + 1, i, h => goodVar G s i h && (isLam G s || !h.any ns.contains)

/-- No let around has this name. -/
def unbound (G : Names) (n : String) : Bool := G.all fun o => !o.any (·.contains n)

/-- Not metadata about something that might be inlined. -/
def bare : Exp K → Bool
  | .metaOf x _ => match peelMeta x with
    | .lam true _ _ => false
    | .intrinsic _ => false
    | .var _ => false
    | _ => true
  | _ => true

mutual
/-- Only functions with flat bodies are marked inlinable, their parameters being one or more and different; what is bound to a
name has no metadata of its own if it might be inlined; the names of a let are different; names mean what is nearest. -/
def tame (G : Names) : Exp K → Bool
  | .var (.free n) => unbound G n
  | .var (.bound s i h) => goodVar G s i h
  | .let_ _ bs b => decide bs.names.Nodup && tameB (some bs.names :: G) bs && tame (some bs.names :: G) b
  | .lam true ps b => flat ps.length b && decide ps.Nodup && !ps.isEmpty
  | .lam false _ b => tame (none :: G) b
  | .app f xs => tame G f && tameL G xs
  | .lit _ => true
  | .intrinsic _ => true
  | .metaOf x m => tame G x && tame G m
  | .node _ xs => tameL G xs
def tameL (G : Names) : Exps K → Bool
  | .nil => true
  | .cons x xs => tame G x && tameL G xs
def tameB (G : Names) : Binds K → Bool
  | .nil => true
  | .cons _ x rest => bare x && tame G x && tameB G rest
end

/-! ## Applications -/

mutual
/-- The applications in an expression, each a value to be worked out. -/
def apps : Exp K → Nat
  | .let_ _ bs b => appsB bs + apps b
  | .lam _ _ b => apps b
  | .app f xs => 1 + apps f + appsL xs
  | .metaOf x m => apps x + apps m
  | .node _ xs => appsL xs
  | _ => 0
def appsL : Exps K → Nat
  | .nil => 0
  | .cons x xs => apps x + appsL xs
def appsB : Binds K → Nat
  | .nil => 0
  | .cons _ x rest => apps x + appsB rest
end

end Verif.Inl
