import Mathlib.Data.List.Basic

/-!
# Monadic blocks

Model of how a block such as `{ :for x: xs y: ys }.(x + y)` becomes nested calls of `bind` and `return`:
core/desugar/rowan_ast.rs:882-1385 and the soup that holds such blocks, 2200-2400. The desugarer's environment
gives each name itself (desugarer.rs:142), so pushing and popping names changes nothing here and is left out.
Expressions of the user are any functions of what their names stand for; source positions and what
`dynamise` and `rebody` do with a block after a dot are left out.
-/

namespace Verif.MonBlk

abbrev Env (V : Type) := String → V

/-- A name bound to a value. -/
def Env.set {V : Type} (ρ : Env V) (x : String) (v : V) : Env V := fun y => if y = x then v else ρ y

/-- Core expressions made here: `Expr::App`, `core::lam`, `core::lookup`, core/expr.rs:1913, `core::meta` (`hint`), and the
`Let` with a block as its body of rowan_ast.rs:1285-1345 (`named`: each of the names with what stands for it outside). -/
inductive Term (V : Type) where
  | user (f : Env V → V)
  | var (x : String)
  | app (f a : Term V)
  | app2 (f a b : Term V)
  | lam (x : String) (body : Term V)
  | look (t : Term V) (k : String)
  | hint (t : Term V) (type : String)
  | named (xs : List String)
  | dot

/-- Any values with functions, calls, lookup and blocks. -/
structure Interp (V : Type) where
  fn : (V → V) → V
  app : V → List V → V
  look : V → String → V
  block : List (String × V) → V
  dot : V

variable {V : Type}

/-- `IndexMap::insert`, as used by `BlockMap::from_iter`, core/expr.rs. -/
def insert (k : String) (v : V) : List (String × V) → List (String × V)
  | [] => [(k, v)]
  | e :: es => if e.1 = k then (k, v) :: es else e :: insert k v es

def entries (ρ : Env V) (xs : List String) : List (String × V) :=
  xs.foldl (fun m x => insert x (ρ x) m) []

/-- What an expression stands for. -/
def Term.eval (I : Interp V) : Term V → Env V → V
  | .user f, ρ => f ρ
  | .var x, ρ => ρ x
  | .app f a, ρ => I.app (f.eval I ρ) [a.eval I ρ]
  | .app2 f a b, ρ => I.app (f.eval I ρ) [a.eval I ρ, b.eval I ρ]
  | .lam x b, ρ => I.fn fun v => b.eval I (ρ.set x v)
  | .look t k, ρ => I.look (t.eval I ρ) k
  | .hint t _, ρ => t.eval I ρ
  | .named xs, ρ => I.block (entries ρ xs)
  | .dot, _ => I.dot

/-- `MonadSpec`, desugarer.rs. -/
inductive Spec where
  | namespaced (ns : String)
  | explicit (bind ret : String)
  deriving DecidableEq

/-- A declaration of a block: its name if its head is well formed, its parameters, its body if it has one
(`extract_declaration_name`, rowan_ast.rs:2523). -/
structure Decl (V : Type) where
  name : Option String
  params : List String
  body : Option (Term V)

inductive Err where
  | emptyBlock
  | badHead
  | badBody
  | emptyReturn
  | noSpec
  | panic
  deriving DecidableEq

/-- Names of the steps, rowan_ast.rs:1108-1111. -/
def names : List (Decl V) → Except Err (List String)
  | [] => .ok []
  | d :: ds =>
    match d.name with
    | none => .error .badHead
    | some x =>
      match names ds with
      | .ok xs => .ok (x :: xs)
      | .error e => .error e

/-- `wrap_with_type_hint`, rowan_ast.rs:1048. -/
def wrap (type : Option String) (t : Term V) : Term V :=
  match type with
  | some s => .hint t s
  | none => t

/-- Bodies of the steps, rowan_ast.rs:1130-1159: parameters are not looked at. -/
def bodies (type : Option String) : List (Decl V) → Except Err (List (Term V))
  | [] => .ok []
  | d :: ds =>
    match d.body with
    | none => .error .badBody
    | some t =>
      match bodies type ds with
      | .ok ts => .ok (wrap type t :: ts)
      | .error e => .error e

/-- The call of `return`, rowan_ast.rs:1174-1188. -/
def retOf (sp : Spec) (t : Term V) : Term V :=
  match sp with
  | .namespaced ns => .app (.look (.var ns) "return") t
  | .explicit _ r => .app (.var r) t

/-- The call of `bind`, rowan_ast.rs:1194-1210. -/
def bindOf (sp : Spec) (x : String) (v t : Term V) : Term V :=
  match sp with
  | .namespaced ns => .app2 (.look (.var ns) "bind") v (.lam x t)
  | .explicit b _ => .app2 (.var b) v (.lam x t)

/-- The chain made from the right, rowan_ast.rs:1192-1211. -/
def chain (sp : Spec) (steps : List (String × Term V)) (ret : Term V) : Term V :=
  steps.reverse.foldl (fun res p => bindOf sp p.1 p.2 res) (retOf sp ret)

/-- Steps with their names, or the first error. -/
def steps (type : Option String) (ds : List (Decl V)) : Except Err (List (String × Term V)) :=
  if ds.isEmpty then .error .emptyBlock
  else
    match names ds with
    | .error e => .error e
    | .ok xs =>
      match bodies type ds with
      | .error e => .error e
      | .ok ts => .ok (xs.zip ts)

/-- `desugar_monadic_block_implicit`, rowan_ast.rs:1226-1385. -/
def implicit (sp : Spec) (type : Option String) (ds : List (Decl V)) : Except Err (Term V) :=
  match steps type ds with
  | .error e => .error e
  | .ok ss => .ok (chain sp ss (.named ((ss.map Prod.fst).filter (· ≠ "_"))))

/-- A block written in the soup: what its metadata make of it, its declarations, and what it is as a plain block. -/
structure Blk (V : Type) where
  spec : Option Spec
  decls : List (Decl V)
  plain : Term V

/-- Elements of a soup. `op`: other operators and argument tuples. `bracket`: a bracket block with the spec of its
pair of brackets, if it is registered. -/
inductive Elem (V : Type) where
  | dot
  | name (x : String)
  | op (t : Term V)
  | other (t : Term V)
  | block (b : Blk V)
  | bracket (sp : Option Spec) (decls : List (Decl V))

/-- What is registered: names of monads, and types for them (desugarer.rs:163-214). -/
structure Reg where
  ns : String → Bool
  type : String → Option String

/-- `ns_registered`, rowan_ast.rs:2295-2299. -/
def Reg.has (r : Reg) : Spec → Bool
  | .namespaced ns => r.ns ns
  | .explicit _ _ => true

/-- `lookup_monad_type`, rowan_ast.rs:1063. The type that a pair of brackets may have by its own name is left out. -/
def Reg.typeOf (r : Reg) : Spec → Option String
  | .namespaced ns => r.type ns
  | .explicit _ _ => none

/-- `Element::desugar`, rowan_ast.rs:1392-1420 and 1560-1568, then `varify`. -/
def Elem.term (r : Reg) : Elem V → Except Err (Term V)
  | .dot => .ok .dot
  | .name x => .ok (.var x)
  | .op t => .ok t
  | .other t => .ok t
  | .block b =>
    match b.spec with
    | some sp => if r.has sp then implicit sp (r.typeOf sp) b.decls else .ok b.plain
    | none => .ok b.plain
  | .bracket (some sp) ds => implicit sp (r.typeOf sp) ds
  | .bracket none _ => .error .noSpec

/-- The pairs of a dot and a name, rowan_ast.rs:1016-1040. -/
def dots : Term V → List (Elem V) → Term V
  | t, .dot :: .name k :: rest => dots (.look t k) rest
  | t, _ => t

/-- `desugar_return_chain`, rowan_ast.rs:1001-1043. -/
def returnChain (r : Reg) : List (Elem V) → Except Err (Term V)
  | [] => .error .emptyReturn
  | e :: rest =>
    match e.term r with
    | .ok t => .ok (dots t rest)
    | .error er => .error er

/-- `desugar_monadic_block`, rowan_ast.rs:1093-1214. -/
def explicitly (r : Reg) (sp : Spec) (type : Option String) (ds : List (Decl V)) (ret : List (Elem V)) :
    Except Err (Term V) :=
  match steps type ds with
  | .error e => .error e
  | .ok ss =>
    match returnChain r ret with
    | .error e => .error e
    | .ok t => .ok (chain sp ss t)

/-- What the soup holds afterwards. `under`: a monadic block after a dot, which sees the names of what stands before. -/
inductive Piece (V : Type) where
  | term (t : Term V)
  | under (t : Term V)

/-- One more piece before the rest. -/
def put (f : Term V → Piece V) (t : Except Err (Term V)) (rest : Except Err (List (Piece V))) :
    Except Err (List (Piece V)) :=
  match t with
  | .error e => .error e
  | .ok t =>
    match rest with
    | .ok ps => .ok (f t :: ps)
    | .error e => .error e

/-- `desugar_rowan_soup_inner`, rowan_ast.rs:2216-2480, for the blocks in it. `pending`: a dot came before. A slice
that ends after the end of the elements panics (`&elements[ret_start..ret_end]`, rowan_ast.rs:2259 and 2373). -/
def scan (r : Reg) (pending : Bool) : List (Elem V) → Except Err (List (Piece V))
  | [] => .ok []
  | .bracket none _ :: _ => .error .noSpec
  | [.bracket (some _) _, .dot] => .error .panic
  | .bracket (some sp) ds :: .dot :: e :: rest =>
    put .term (explicitly r sp (r.typeOf sp) ds [e]) (scan r pending rest)
  | .bracket (some sp) ds :: rest => put .term (implicit sp (r.typeOf sp) ds) (scan r pending rest)
  | [.block ⟨some sp, ds, _⟩, .dot] =>
    if pending && r.has sp then put .under (implicit sp (r.typeOf sp) ds) (put .term (.ok .dot) (.ok []))
    else .error .panic
  | .block ⟨some sp, ds, _⟩ :: .dot :: e :: rest =>
    if pending && r.has sp then put .under (implicit sp (r.typeOf sp) ds) (scan r false (.dot :: e :: rest))
    else put .term (explicitly r sp (r.typeOf sp) ds [e]) (scan r pending rest)
  | .block ⟨some sp, ds, t⟩ :: rest =>
    if r.has sp then
      put (if pending then .under else .term) (implicit sp (r.typeOf sp) ds) (scan r false rest)
    else put (if pending then .under else .term) (.ok t) (scan r false rest)
  | .block ⟨none, _, t⟩ :: rest => put (if pending then .under else .term) (.ok t) (scan r false rest)
  | .dot :: rest => put .term (.ok .dot) (scan r true rest)
  | .name x :: rest => put .term (.ok (.var x)) (scan r false rest)
  | .op t :: rest => put .term (.ok t) (scan r pending rest)
  | .other t :: rest => put (if pending then .under else .term) (.ok t) (scan r false rest)

/-- Metadata of a block: one literal as it is written, a block with or without the mark `:monad`, or anything else.
The values in it: the one literal or name there is, or nothing. -/
inductive Metadata where
  | lit (text : List Char)
  | block (marked : Bool) (kvs : List (String × Option (List Char)))
  | other

/-- `strip_prefix(':')`, then the text if there is none. -/
def strip : List Char → List Char
  | ':' :: cs => cs
  | cs => cs

/-- The last value under a key, rowan_ast.rs:954-960: a key with no readable value takes away the one before. -/
def last (k : String) : List (String × Option (List Char)) → Option (List Char)
  | [] => none
  | e :: es => if es.any (·.1 = k) then last k es else if e.1 = k then e.2.map strip else none

/-- `extract_block_monad_spec_from_raw`, rowan_ast.rs:882-984. -/
def specOf : Metadata → Option Spec
  | .lit (':' :: cs) => if cs = "main".toList ∨ cs = "suppress".toList then none else some (.namespaced (String.ofList cs))
  | .lit _ => none
  | .block false kvs => (last "monad" kvs).map fun cs => .namespaced (String.ofList cs)
  | .block true kvs =>
    match last "namespace" kvs with
    | some cs => some (.namespaced (String.ofList cs))
    | none =>
      match last "bind" kvs, last "return" kvs with
      | some b, some r => some (.explicit (String.ofList b) (String.ofList r))
      | _, _ => none
  | .other => none

end Verif.MonBlk
