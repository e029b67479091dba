import Verif.GcModel
/-!
# What the collector must achieve

Reachability in the object graph, and what it means for two graphs to be the same up to the
placement of objects.  Stated without reference to the collector.
-/

namespace Verif.Gc

/-- Addresses in a value. -/
def refsVal : Val → List Addr
  | .closure _ e => [e]
  | .str p | .set p | .ndArray p | .vec p => [p]
  | .scalar _ => []

/-- Addresses in an object. -/
def refs : Obj → List Addr
  | .frame b nx _ => b.toList ++ nx.toList
  | .vals vs => vs.flatMap refsVal
  | .bytes _ => []
  | .str _ d => d.toList
  | .leaf _ => []

/-- Addresses in a continuation. -/
def refsCont : Cont → List Addr
  | .branch t e => t.toList ++ [e]
  | .branchPredecoded e | .update e _ | .deMeta e | .seqBind e | .lookupLitForce _ e | .fusedLeft e => [e]
  | .applyTo args => args.toList
  | .captureEnd => []
  | .fusedRight l e => e :: refsVal l

/-- Addresses in the roots. -/
def refsRoots (r : Roots) : List Addr :=
  [r.globals, r.rootEnv] ++ refsVal r.current ++ r.stack.flatMap refsCont ++ r.constants.flatMap refsVal
  ++ r.stash.flatMap refsVal ++ r.suspended.flatMap (·.flatMap refsCont)
  ++ r.bifFrames.flatMap (fun f => f.1 :: f.2.flatMap refsVal) ++ r.strippedMeta.toList.flatMap refsVal

/-- Reachable from the roots by following addresses. -/
inductive Reach (s : Store) (r : Roots) : Addr → Prop where
  | root (a : Addr) : a ∈ refsRoots r → Reach s r a
  | step (a b : Addr) : Reach s r a → b ∈ refs (s a) → Reach s r b

/-! Every pointer in the machine points to an object of the type it is declared with, and to
an allocated address (`< n`). -/

def IsFrame : Obj → Prop | .frame .. => True | _ => False
def IsVals : Obj → Prop | .vals _ => True | _ => False
def IsBytes : Obj → Prop | .bytes _ => True | _ => False
def IsStr : Obj → Prop | .str .. => True | _ => False
def IsLeaf : Obj → Prop | .leaf _ => True | _ => False

def TypedVal (s : Store) (n : Nat) : Val → Prop
  | .closure _ e => e < n ∧ IsFrame (s e)
  | .str p => p < n ∧ IsStr (s p)
  | .set p | .ndArray p | .vec p => p < n ∧ IsLeaf (s p)
  | .scalar _ => True

def TypedObj (s : Store) (n : Nat) : Obj → Prop
  | .frame b nx _ => (∀ x, b = some x → x < n ∧ IsVals (s x)) ∧ (∀ x, nx = some x → x < n ∧ IsFrame (s x))
  | .vals vs => ∀ v ∈ vs, TypedVal s n v
  | .str _ d => ∀ x, d = some x → x < n ∧ IsBytes (s x)
  | .bytes _ | .leaf _ => True

def TypedCont (s : Store) (n : Nat) : Cont → Prop
  | .branch t e => (∀ x, t = some x → x < n ∧ IsBytes (s x)) ∧ e < n ∧ IsFrame (s e)
  | .branchPredecoded e | .update e _ | .deMeta e | .seqBind e | .lookupLitForce _ e | .fusedLeft e =>
    e < n ∧ IsFrame (s e)
  | .applyTo args => ∀ x, args = some x → x < n ∧ IsVals (s x)
  | .captureEnd => True
  | .fusedRight l e => TypedVal s n l ∧ e < n ∧ IsFrame (s e)

/-- Constants and intrinsic arguments are natives or code references, never closures. -/
def TypedConst (s : Store) (n : Nat) : Val → Prop
  | .closure .. => False
  | v => TypedVal s n v

structure Typed (s : Store) (n : Nat) (r : Roots) : Prop where
  objs : ∀ a, a < n → TypedObj s n (s a)
  globals : r.globals < n ∧ IsFrame (s r.globals)
  rootEnv : r.rootEnv < n ∧ IsFrame (s r.rootEnv)
  current : TypedVal s n r.current
  stack : ∀ c ∈ r.stack, TypedCont s n c
  constants : ∀ v ∈ r.constants, TypedConst s n v
  stash : ∀ v ∈ r.stash, TypedVal s n v
  suspended : ∀ st ∈ r.suspended, ∀ c ∈ st, TypedCont s n c
  bifs : ∀ f ∈ r.bifFrames, (f.1 < n ∧ IsFrame (s f.1)) ∧ ∀ v ∈ f.2, TypedConst s n v
  stripped : ∀ v, r.strippedMeta = some v → TypedVal s n v

/-! Renaming addresses throughout. -/

def mapVal (f : Addr → Addr) : Val → Val
  | .closure c e => .closure c (f e)
  | .str p => .str (f p)
  | .set p => .set (f p)
  | .ndArray p => .ndArray (f p)
  | .vec p => .vec (f p)
  | .scalar n => .scalar n

def mapObj (f : Addr → Addr) : Obj → Obj
  | .frame b nx n => .frame (b.map f) (nx.map f) n
  | .vals vs => .vals (vs.map (mapVal f))
  | .bytes d => .bytes d
  | .str l d => .str l (d.map f)
  | .leaf c => .leaf c

def mapCont (f : Addr → Addr) : Cont → Cont
  | .branch t e => .branch (t.map f) (f e)
  | .branchPredecoded e => .branchPredecoded (f e)
  | .update e i => .update (f e) i
  | .applyTo args => .applyTo (args.map f)
  | .deMeta e => .deMeta (f e)
  | .seqBind e => .seqBind (f e)
  | .lookupLitForce c e => .lookupLitForce c (f e)
  | .captureEnd => .captureEnd
  | .fusedLeft e => .fusedLeft (f e)
  | .fusedRight l e => .fusedRight (mapVal f l) (f e)

def mapRoots (f : Addr → Addr) (r : Roots) : Roots :=
  { globals := f r.globals
    rootEnv := f r.rootEnv
    current := mapVal f r.current
    stack := r.stack.map (mapCont f)
    constants := r.constants.map (mapVal f)
    stash := r.stash.map (mapVal f)
    suspended := r.suspended.map (·.map (mapCont f))
    bifFrames := r.bifFrames.map (fun b => (f b.1, b.2.map (mapVal f)))
    strippedMeta := r.strippedMeta.map (mapVal f) }

/-- The graph reachable from `r` in `s` and the one reachable from `r'` in `s'` are the same
up to the placement `f` of objects: distinct objects stay distinct, and every object has the
same contents with renamed addresses. -/
structure SameGraph (f : Addr → Addr) (s : Store) (r : Roots) (s' : Store) (r' : Roots) : Prop where
  roots : r' = mapRoots f r
  objs : ∀ a, Reach s r a → s' (f a) = mapObj f (s a)
  inj : ∀ a b, Reach s r a → Reach s r b → f a = f b → a = b

end Verif.Gc
