/-!
# Name environments and distribution of operator fixity

Models `/repo/src/common/environment.rs` (the stack-of-frames environments used
by the desugarer, the unit merger and the operator pass) and
`/repo/src/core/cook/fixity.rs` (`Distributor`, which copies an operator's
fixity from its definition to each use).
-/

namespace Verif.Scope

/-- A frame: `HashMap<K, V>` (environment.rs:10) as a lookup function. -/
abbrev Frame (V : Type) := String → Option V

/-- `HashMap::new`. -/
def Frame.empty {V} : Frame V := fun _ => none

/-- `HashMap::insert`: a later insertion with the same key replaces the value. -/
def Frame.insert {V} (f : Frame V) (k : String) (v : V) : Frame V :=
  fun k' => if k' = k then some v else f k'

/-- `SimpleEnvironment` (environment.rs:6-11).  The vector is kept in its own
order: the last element is the most recently pushed frame. -/
abbrev SimpleEnv (V : Type) := List (Frame V)

namespace SimpleEnv

/-- environment.rs:14-16. -/
def new {V} : SimpleEnv V := []

/-- environment.rs:18-20. -/
def push {V} (e : SimpleEnv V) (f : Frame V) : SimpleEnv V := e ++ [f]

/-- environment.rs:22-24; `Vec::pop` on an empty vector does nothing. -/
def pop {V} (e : SimpleEnv V) : SimpleEnv V := e.dropLast

/-- environment.rs:27-29; `none` is the `unwrap` panic when there is no frame. -/
def insert {V} (e : SimpleEnv V) (k : String) (v : V) : Option (SimpleEnv V) :=
  match e.getLast? with
  | none => none
  | some f => some (e.dropLast ++ [f.insert k v])

/-- The loop of environment.rs:33-38, over an already reversed vector. -/
def scan {V} (k : String) : List (Frame V) → Option V
  | [] => none
  | f :: fs =>
    match f k with
    | some v => some v
    | none => scan k fs

/-- environment.rs:32-39. -/
def get {V} (e : SimpleEnv V) (k : String) : Option V := scan k e.reverse

end SimpleEnv

/-- `DefaultingEnvironment` (environment.rs:52-59). -/
structure DefEnv (V : Type) where
  env : SimpleEnv V
  globals : Frame V
  defaulter : String → V

namespace DefEnv

/-- environment.rs:63-69. -/
def new {V} (d : String → V) : DefEnv V := ⟨SimpleEnv.new, Frame.empty, d⟩

/-- environment.rs:72-74. -/
def push {V} (e : DefEnv V) (f : Frame V) : DefEnv V := { e with env := e.env.push f }

/-- environment.rs:77-87. -/
def pushKeys {V} (e : DefEnv V) (ks : List String) : DefEnv V :=
  e.push (ks.foldl (fun m k => m.insert k (e.defaulter k)) Frame.empty)

/-- environment.rs:90-92. -/
def pop {V} (e : DefEnv V) : DefEnv V := { e with env := e.env.pop }

/-- environment.rs:95-97. -/
def get {V} (e : DefEnv V) (k : String) : Option V :=
  match e.env.get k with
  | some v => some v
  | none => e.globals k

/-- environment.rs:100-105. -/
def encounter {V} (e : DefEnv V) (k : String) : DefEnv V :=
  match e.get k with
  | some _ => e
  | none => { e with globals := e.globals.insert k (e.defaulter k) }

end DefEnv

/-- `Fixity` (core/expr.rs). -/
inductive Fixity
  | unaryPrefix | unaryPostfix | infixLeft | infixRight | nullary
  deriving DecidableEq, Repr

/-- `OpMeta` (fixity.rs:117): source location, fixity, precedence.  A location
of zero is the invalid one (`Smid::is_valid`). -/
structure OpMeta where
  smid : Nat
  fixity : Fixity
  prec : Int
  deriving DecidableEq, Repr

mutual
/-- The part of `Expr` (core/expr.rs) this pass inspects.  The pass opens every
`Let` it meets, so let-bound variables occur by name while it looks at them;
the model keeps terms in that opened form.  `leaf` stands for literals,
intrinsics and variables bound by an enclosing lambda, which stay `Var::Bound`.
`node` stands for every other constructor, with its immediate children in the
order `walk_safe` visits them. -/
inductive Expr
  | var (smid : Nat) (name : String)
  | operator (op : OpMeta) (e : Expr)
  | metaOf (e m : Expr)
  | letE (bs : Binds) (body : Expr)
  | leaf (tag : Nat)
  | node (tag : Nat) (cs : Exprs)
/-- The bindings of a `Let`. -/
inductive Binds
  | nil
  | cons (name : String) (value : Expr) (rest : Binds)
/-- A list of children. -/
inductive Exprs
  | nil
  | cons (e : Expr) (rest : Exprs)
end

/-- `expose_definition` (fixity.rs:131-144). -/
def expose : Expr → Expr × Option OpMeta
  | .metaOf e m =>
    match expose e with
    | (e', some op) => (e', some op)
    | (_, none) => (.metaOf e m, none)
  | .operator op e => (e, some op)
  | e => (e, none)

/-- The frame built by `process_bindings` (fixity.rs:150-163), starting from
the frame built so far. -/
def opFrame : Binds → Frame OpMeta → Frame OpMeta
  | .nil, f => f
  | .cons n v bs, f =>
    match expose v with
    | (_, some op) => opFrame bs (f.insert n op)
    | (_, none) => opFrame bs f

/-- The bindings returned by `process_bindings` (fixity.rs:150-163). -/
def rebind : Binds → Binds
  | .nil => .nil
  | .cons n v bs => .cons n (expose v).1 (rebind bs)

/-- The location rule at fixity.rs:201-205. -/
def callSmid (call : Nat) (op : OpMeta) : OpMeta :=
  { op with smid := if call ≠ 0 then call else op.smid }

mutual
/-- Number of nodes, used only to show that `dist` terminates. -/
def Expr.size : Expr → Nat
  | .var _ _ => 1
  | .operator _ e => e.size + 1
  | .metaOf e m => e.size + m.size + 1
  | .letE bs body => bs.size + body.size + 1
  | .leaf _ => 1
  | .node _ cs => cs.size + 1
def Binds.size : Binds → Nat
  | .nil => 0
  | .cons _ v bs => v.size + bs.size + 1
def Exprs.size : Exprs → Nat
  | .nil => 0
  | .cons e es => e.size + es.size + 1
end

theorem expose_size (e : Expr) : (expose e).1.size ≤ e.size := by
  induction e using expose.induct with
  | case1 e m e' op h ih => simp only [expose, h, Expr.size] at *; omega
  | case2 e m e' h ih => simp only [expose, h]; exact Nat.le_refl _
  | case3 op e => simp only [expose, Expr.size]; omega
  | case4 e h1 h2 => rw [expose] <;> first | exact Nat.le_refl _ | assumption

theorem rebind_size : ∀ bs : Binds, (rebind bs).size ≤ bs.size
  | .nil => Nat.le_refl _
  | .cons n v bs => by
    have h1 := expose_size v
    have h2 := rebind_size bs
    simp only [rebind, Binds.size]; omega

mutual
/-- `Distributor::dist` (fixity.rs:166-217), threading the environment
explicitly.  Opening and re-closing the `Let` is the identity on opened terms;
the pass has no failing case of its own, so the `Result` is dropped. -/
def dist (env : SimpleEnv OpMeta) : Expr → Expr × SimpleEnv OpMeta
  | .letE bs body =>
    let env1 := env.push (opFrame bs Frame.empty)
    let r := distBinds env1 (rebind bs)
    let b := dist r.2 body
    (.letE r.1 b.1, b.2.pop)
  | .var s n =>
    match env.get n with
    | some op => (.operator (callSmid s op) (.var s n), env)
    | none => (.var s n, env)
  | .operator op e =>
    let r := dist env e
    (.operator op r.1, r.2)
  | .metaOf e m =>
    let r := dist env e
    let r' := dist r.2 m
    (.metaOf r.1 r'.1, r'.2)
  | .leaf t => (.leaf t, env)
  | .node t cs =>
    let r := distAll env cs
    (.node t r.1, r.2)
termination_by e => e.size
decreasing_by
  all_goals (first | (simp only [Expr.size]; omega) | skip)
  · have := rebind_size bs; simp only [Expr.size]; omega
/-- The loop over binding values, fixity.rs:179-181. -/
def distBinds (env : SimpleEnv OpMeta) : Binds → Binds × SimpleEnv OpMeta
  | .nil => (.nil, env)
  | .cons n v bs =>
    let r := dist env v
    let r' := distBinds r.2 bs
    (.cons n r.1 r'.1, r'.2)
termination_by bs => bs.size
decreasing_by all_goals (simp only [Binds.size]; omega)
/-- `walk_safe` over the children of any other node, fixity.rs:216. -/
def distAll (env : SimpleEnv OpMeta) : Exprs → Exprs × SimpleEnv OpMeta
  | .nil => (.nil, env)
  | .cons e es =>
    let r := dist env e
    let r' := distAll r.2 es
    (.cons r.1 r'.1, r'.2)
termination_by es => es.size
decreasing_by all_goals (simp only [Exprs.size]; omega)
end

/-- `distribute` (fixity.rs:9-11). -/
def distribute (e : Expr) : Expr := (dist SimpleEnv.new e).1

/-- `distribute_with_prelude` (fixity.rs:21-32): the prelude's operators in a
frame at the bottom of the stack. -/
def distributeWithPrelude (prelude : Frame OpMeta) (e : Expr) : Expr :=
  (dist (SimpleEnv.new.push prelude) e).1

end Verif.Scope
