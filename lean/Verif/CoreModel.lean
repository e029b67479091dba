/-!
# Core expressions and binding

Transcription of `src/core/expr.rs` (binding operations), `src/core/binding.rs` and
`src/core/transform/{succ,dynamise}.rs`.

Simplifications: source positions, demand annotations and the inline flag of lambdas are left out.
The constructors of `Expr` whose parts are all in the scope of the expression itself are one
constructor `node`, with a `Kind` saying which it is; `walk`, `walk_safe`, `try_walk` and
`try_walk_safe` (expr.rs:744-1172) visit exactly those parts, all of them and in order, for every such
constructor.  Pointer-equality short cuts in `try_walk` are not modelled: they return an equal
expression.
-/

namespace Verif.Core

/-- `Var` and `BoundVar`, binding.rs:44-61. -/
inductive Var where
  | free (name : String)
  | bound (scope binder : Nat) (name : Option String)
deriving DecidableEq, Repr

/-- `LetType`, expr.rs:165-175. -/
inductive LetType where
  | default | other | destructureBlock | destructureList
deriving DecidableEq, Repr

/-- The constructors of `Expr` other than `Var`, `Let` and `Lam`, expr.rs:328-384. -/
inductive Kind where
  | intrinsic (name : String)
  | sym (name : String)
  | literal (repr : String)
  /-- parts: the object and, if there is one, the fallback -/
  | lookup (key : String)
  | name (name : String)
  | blockAnaphor (id : Nat)
  | exprAnaphor (id : Nat)
  | list
  /-- parts: the values, in order -/
  | block (keys : List String)
  /-- parts: the expression and its metadata -/
  | withMeta
  | argTuple
  /-- parts: the function and the arguments -/
  | app
  | soup (bracket : Bool)
  | operator (fixity : Nat) (precedence : Int)
  | errUnresolved (name : String)
  | errRedeclaration (name : String)
  | errEliminated | errPseudoDot | errPseudoCall | errPseudoCat
deriving DecidableEq, Repr

/-- `Expr`, expr.rs:328-384.  A `let` has the names and the values of its bindings in two lists of
the same length. -/
inductive Core where
  | var (v : Var)
  | letE (names : List String) (vals : List Core) (body : Core) (t : LetType)
  | lam (params : List String) (body : Core)
  | node (k : Kind) (parts : List Core)
deriving Repr

/-- The position of the first occurrence of a name. -/
def position (names : List String) (x : String) : Option Nat := names.findIdx? (· == x)

mutual
/-- The recursion shared by `bind_free_vars`, `close_expr_vars`, `open_expr_vars` and the nudger:
`f depth v` at each variable, `depth` growing by one inside a `let` (bindings and body) and inside a
lambda, expr.rs:1520-1698, succ.rs:54-82. -/
def Core.mapVars (f : Nat → Var → Var) (d : Nat) : Core → Core
  | .var v => .var (f d v)
  | .letE ns vs b t => .letE ns (mapVarsL f (d + 1) vs) (b.mapVars f (d + 1)) t
  | .lam ps b => .lam ps (b.mapVars f (d + 1))
  | .node k xs => .node k (mapVarsL f d xs)
def mapVarsL (f : Nat → Var → Var) (d : Nat) : List Core → List Core
  | [] => []
  | x :: xs => x.mapVars f d :: mapVarsL f d xs
end

/-- `bind_free_vars`, expr.rs:1520-1571. -/
def bindVar (names : List String) (d : Nat) : Var → Var
  | .free x => match position names x with
    | some i => .bound d i (some x)
    | none => .free x
  | v => v

def bindFree (names : List String) (d : Nat) (e : Core) : Core := e.mapVars (bindVar names) d

/-- `close_expr_vars`, expr.rs:1576-1635. -/
def closeVar (names : List String) (d : Nat) : Var → Var
  | .free x => match position names x with
    | some i => .bound d i (some x)
    | none => .free x
  | .bound s i n => if d ≤ s then .bound (s + 1) i n else .bound s i n

def close (names : List String) (d : Nat) (e : Core) : Core := e.mapVars (closeVar names) d

/-- `open_expr_vars`, expr.rs:1639-1698, for names all of which are given, as its callers do. -/
def openVar (names : List String) (d : Nat) : Var → Var
  | .free x => .free x
  | .bound s i n =>
    if s = d then .free ((names[i]?.or n).getD "_")
    else if d < s then .bound (s - 1) i n
    else .bound s i n

def opn (names : List String) (d : Nat) (e : Core) : Core := e.mapVars (openVar names) d

/-- `close_let_scope`, expr.rs:1449-1462, with the names and the values in two lists. -/
def closeLet (names : List String) (vals : List Core) (body : Core) : List Core × Core :=
  (vals.map (close names 0), close names 0 body)

/-- `close_lam_scope`, expr.rs:1465-1472. -/
def closeLam (params : List String) (body : Core) : Core := close params 0 body

/-- `open_let_scope_full`, `open_let_scope`, `open_lam_scope`, expr.rs:1476-1510. -/
def openLet (names : List String) (vals : List Core) (body : Core) : List Core × Core :=
  (vals.map (opn names 0), opn names 0 body)

def openLam (params : List String) (body : Core) : Core := opn params 0 body

/-- `succ` and `pred`, succ.rs:9-33.  `pred` of a reference to scope 0 underflows; see `predOk`. -/
def succVar (d : Nat) : Var → Var
  | .bound s i n => if d ≤ s then .bound (s + 1) i n else .bound s i n
  | v => v

def predVar (d : Nat) : Var → Var
  | .bound s i n => if d ≤ s then .bound (s - 1) i n else .bound s i n
  | v => v

def succ (e : Core) : Core := e.mapVars succVar 0
def pred (e : Core) : Core := e.mapVars predVar 0

mutual
/-- `substs`, `substs_free`, expr.rs:1192-1226: replacing free variables by expressions, without
regard to the depth. -/
def Core.substFree (f : String → Option Core) : Core → Core
  | .var (.free x) => (f x).getD (.var (.free x))
  | .var v => .var v
  | .letE ns vs b t => .letE ns (substFreeL f vs) (b.substFree f) t
  | .lam ps b => .lam ps (b.substFree f)
  | .node k xs => .node k (substFreeL f xs)
def substFreeL (f : String → Option Core) : List Core → List Core
  | [] => []
  | x :: xs => x.substFree f :: substFreeL f xs
end

mutual
/-- `visit_free_vars`, expr.rs:1783-1829: the free names, in order of occurrence. -/
def Core.freeVars : Core → List String
  | .var (.free x) => [x]
  | .var _ => []
  | .letE _ vs b _ => freeVarsL vs ++ b.freeVars
  | .lam _ b => b.freeVars
  | .node _ xs => freeVarsL xs
def freeVarsL : List Core → List String
  | [] => []
  | x :: xs => x.freeVars ++ freeVarsL xs
end

/-- `has_internal_export`, expr.rs:1707-1719. -/
def internalExport : Core → Bool
  | .node .withMeta [_, .node (.block keys) vals] =>
    match (keys.zip vals).find? fun p => p.1 == "export" with
    | some (_, .node (.sym s) []) => s == "internal"
    | _ => false
  | _ => false

/-- The names bound by `rebody_int`, expr.rs:613-625: those of internal bindings are replaced by one
that no variable has. -/
def captureNames (names : List String) (vals : List Core) : List String :=
  (names.zip vals).map fun p => if internalExport p.2 then "\x00" else p.1

/-- `rebody_int`, expr.rs:598-651.  The free variables of the new body are first replaced by
themselves (`prepare_capture_vars` maps names to themselves), which changes nothing. -/
def rebodyInt (newBody : Core) : Core → Core
  | .letE ns vs b t => .letE ns vs (bindFree (captureNames ns vs) 0 (rebodyInt newBody b)) t
  | .node .withMeta [e, m] => .node .withMeta [rebodyInt newBody e, m]
  | _ => newBody

/-- `collect_internal_binding_names`, expr.rs:1730-1751. -/
def internalNames : Core → List String
  | .letE ns vs b _ => ((ns.zip vs).filter fun p => internalExport p.2).map (·.1) ++ internalNames b
  | .node .withMeta [e, _] => internalNames e
  | _ => []

/-- `mask_internal_free_vars`, expr.rs:1756-1767. -/
def maskInternal (names : List String) (e : Core) : Core :=
  e.substFree fun x => if names.contains x then some (.var (.free ("__eu_internal:" ++ x))) else none

/-- `rebody`, expr.rs:568-585. -/
def rebody (self newBody : Core) : Core :=
  let result := rebodyInt newBody self
  if internalNames self = [] then result else maskInternal (internalNames self) result

/-- `merge_in`, expr.rs:1253-1267. -/
def mergeIn (self other : Core) : Core :=
  match other with
  | .node .withMeta [e, m] => .node .withMeta [rebody self e, m]
  | _ => rebody self other

/-- `Dynamiser::process` and `wrap`, dynamise.rs:52-120, `p` being the parameter's name and `normal`
the test for names made of ordinary characters (`is_normal`, dynamise.rs:35-39); the flag says whether
a lookup was inserted. -/
def lookupOr (p x : String) (fallback : Var) : Core :=
  .node (.lookup x) [.var (.free p), .var fallback]

def wrapVar (normal : String → Bool) (p : String) (d : Nat) : Var → Core × Bool
  | .free x => if normal x then (lookupOr p x (.free x), true) else (.var (.free x), false)
  | .bound s i (some n) =>
    if d ≤ s ∧ normal n then (lookupOr p n (.bound s i (some n)), true) else (.var (.bound s i (some n)), false)
  | v => (.var v, false)

mutual
def Core.dynProcess (normal : String → Bool) (p : String) (d : Nat) : Core → Core × Bool
  | .var v => wrapVar normal p d v
  | .letE ns vs b t =>
    let vs' := dynProcessL normal p (d + 1) vs
    let b' := b.dynProcess normal p (d + 1)
    (.letE ns vs'.1 b'.1 t, vs'.2 || b'.2)
  | .lam ps b => let b' := b.dynProcess normal p (d + 1); (.lam ps b'.1, b'.2)
  | .node k xs => let xs' := dynProcessL normal p d xs; (.node k xs'.1, xs'.2)
def dynProcessL (normal : String → Bool) (p : String) (d : Nat) : List Core → List Core × Bool
  | [] => ([], false)
  | x :: xs =>
    let x' := x.dynProcess normal p d
    let xs' := dynProcessL normal p d xs
    (x'.1 :: xs'.1, x'.2 || xs'.2)
end

/-- `Dynamiser::dynamise`, dynamise.rs:88-100: the result of `process` is shifted by `succ` and again by
the closing of the lambda. -/
def dynamise (normal : String → Bool) (p : String) (e : Core) : Core :=
  let r := e.dynProcess normal p 0
  if r.2 then .lam [p] (closeLam [p] (succ r.1)) else r.1

end Verif.Core
