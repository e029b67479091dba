import Verif.CompModel

/-!
# Demand analysis

`src/core/demand.rs` and `src/core/analyse_demand.rs`: what the compiler is told of how often and how surely each name is used.
The driver runs it on the whole program just before the program is compiled (`driver/eval.rs:492`).

The side table that finds the signature of a lambda by the address of its body is not kept.  It is asked for at a let, of a
lambda just analysed, where it has the answer; and at the call of a lambda written out, under the address of the body as it
was before, which is in the table only if the analysis left that body as it was.  No two lambdas are taken to share a body.
-/

namespace Verif.Dem
open Verif.Comp

/-! ## Demands -/

/-- `Demand::absent`, core/demand.rs:152-157. -/
def absent : Demand := { card := .absent }
/-- `Demand::strict_once`, core/demand.rs:160-166. -/
def strictOnce : Demand := { card := .once, strictness := .strict }
/-- `Demand::lazy_once`, core/demand.rs:169-175. -/
def lazyOnce : Demand := { card := .once, strictness := .lazy }
/-- `Demand::strict_multi`, core/demand.rs:178-184. -/
def strictMulti : Demand := { card := .multi, strictness := .strict }
/-- `Demand::lazy_multi`, core/demand.rs:187-193. -/
def lazyMulti : Demand := { card := .multi, strictness := .lazy }

/-- The cardinality in `Demand::scale`, core/demand.rs:209-213. -/
def scaleCard : Card → Card → Card
  | .absent, _ => .absent
  | _, .absent => .absent
  | .once, .once => .once
  | _, _ => .multi

/-- The strictness in `Demand::scale`, core/demand.rs:215-222. -/
def scaleStrict : Strictness → Strictness → Strictness
  | .strict, .strict => .strict
  | .lazy, _ => .lazy
  | _, .lazy => .lazy
  | _, _ => .unknown

/-- `Demand::scale`, core/demand.rs:208-229. -/
def scale (d outer : Demand) : Demand :=
  ⟨scaleCard d.card outer.card, scaleStrict d.strictness outer.strictness, false, d.recursive || outer.recursive⟩

/-- The cardinality in `Demand::plus`, core/demand.rs:237-241. -/
def plusCard : Card → Card → Card
  | .absent, x => x
  | x, .absent => x
  | .unknown, _ => .unknown
  | _, .unknown => .unknown
  | _, _ => .multi

/-- The strictness in `Demand::plus`, core/demand.rs:242-246. -/
def plusStrict : Strictness → Strictness → Strictness
  | .strict, _ => .strict
  | _, .strict => .strict
  | .lazy, _ => .lazy
  | _, .lazy => .lazy
  | _, _ => .unknown

/-- `Demand::plus`, core/demand.rs:236-253. -/
def plus (d e : Demand) : Demand :=
  ⟨plusCard d.card e.card, plusStrict d.strictness e.strictness, d.whnf && e.whnf, d.recursive || e.recursive⟩

/-! ## What is asked of names -/

/-- `DemandEnv`, analyse_demand.rs:23: what is asked of the variable so many scopes out and so many names along, if there is an
entry for it. -/
abbrev Asks := Nat → Nat → Option Demand

/-- `DemandEnv::new`. -/
def none_ : Asks := fun _ _ => none

/-- The environment of a variable, analyse_demand.rs:358-363. -/
def one (s b : Nat) : Asks := fun s' b' => if s' = s ∧ b' = b then some strictOnce else none

/-- `unshift_env`, analyse_demand.rs:297-302. -/
def unshift (e : Asks) : Asks := fun s b => e (s + 1) b

/-- `merge_envs`, analyse_demand.rs:306-313. -/
def merge (a b : Asks) : Asks := fun s i =>
  match b s i with
  | none => a s i
  | some d => some (plus ((a s i).getD absent) d)

/-- The scaled environment of an argument, analyse_demand.rs:717-720. -/
def scaled (e : Asks) (d : Demand) : Asks := fun s i => (e s i).map (scale · d)

/-! ## The loops of `analyse_let` -/

/-- Step 3, analyse_demand.rs:466-474. -/
def deps (n : Nat) (rhs : List Asks) : List (List Nat) :=
  rhs.map fun e => (List.range n).filter fun j => (e 0 j).isSome

/-- The loop over the neighbours of one node, analyse_demand.rs:484-493 and 496-505: whether `start` is met, the nodes seen and
those waiting. -/
def scan (start : Nat) : List Nat → List Bool → List Nat → Bool × List Bool × List Nat
  | [], v, q => (false, v, q)
  | j :: js, v, q =>
    if j = start then (true, v, q)
    else if v.getD j false then scan start js v q
    else scan start js (v.set j true) (q ++ [j])

/-- The search from the nodes waiting, analyse_demand.rs:495-506; `none` if it takes more turns than given. -/
def bfs (ds : List (List Nat)) (start : Nat) : Nat → List Bool → List Nat → Option Bool
  | 0, _, _ => none
  | _ + 1, _, [] => some false
  | turns + 1, v, k :: q =>
    match scan start (ds.getD k []) v q with
    | (true, _, _) => some true
    | (false, v, q) => bfs ds start turns v q

/-- Step 4a for one binding, analyse_demand.rs:480-508. -/
def isRecursive (turns : Nat) (ds : List (List Nat)) (start : Nat) : Option Bool :=
  match scan start (ds.getD start []) (List.replicate ds.length false) [] with
  | (true, _, _) => some true
  | (false, v, q) => bfs ds start turns v q

/-- The search from each binding in turn. -/
def recursives (turns : Nat) (ds : List (List Nat)) : List Nat → Option (List Bool)
  | [] => some []
  | i :: is => match isRecursive turns ds i with
    | none => none
    | some r => (recursives turns ds is).map (r :: ·)

/-- A loop that goes on until nothing changes; `none` if it takes more turns than given. -/
def settle {α : Type} [DecidableEq α] (f : α → α) : Nat → α → Option α
  | 0, _ => none
  | turns + 1, x => if f x = x then some (f x) else settle f turns (f x)

/-- What one binding taints, analyse_demand.rs:518-522. -/
def taint (ds : List (List Nat)) (t : List Bool) (i : Nat) : List Bool :=
  if t.getD i false then (ds.getD i []).foldl (fun t j => t.set j true) t else t

/-- One turn of step 4b, analyse_demand.rs:517-523. -/
def taintAll (ds : List (List Nat)) (t : List Bool) : List Bool := (List.range ds.length).foldl (taint ds) t

/-- What the body asks of a binding, analyse_demand.rs:535-538 and 547-550. -/
def asked (body : Asks) (i : Nat) : Demand := (body 0 i).getD absent

/-- What a binding is asked by the body and by the bindings, analyse_demand.rs:547-565. -/
def demandOf (body : Asks) (rhs : List Asks) (ds : List Demand) (i : Nat) : Demand :=
  (List.range rhs.length).foldl (fun d j => match (rhs.getD j none_) 0 i with
    | some r => plus d (scale r (ds.getD j absent))
    | none => d) (asked body i)

/-- One turn of step 5, analyse_demand.rs:544-568. -/
def sweep (body : Asks) (rhs : List Asks) (ds : List Demand) : List Demand :=
  (List.range rhs.length).foldl (fun ds i => ds.set i (demandOf body rhs ds i)) ds

/-- Step 6, analyse_demand.rs:578-585. -/
def recur (d : Demand) (tainted recursive : Bool) : Demand :=
  let d := if tainted && d.card != .absent then { d with card := .multi } else d
  if recursive then { d with recursive := true } else d

def isBlock {K : Type} : Exp K → Bool
  | .block _ _ => true
  | _ => false

/-- Step 7, analyse_demand.rs:598-604. -/
def shown (block : Bool) (d : Demand) : Demand :=
  if block && d.card == .once then { d with card := .multi } else d

/-- Steps 3 to 7: the demands on the bindings of a let. -/
def letDemands (turns : Nat) (block : Bool) (body : Asks) (rhs : List Asks) : Option (List Demand) :=
  let n := rhs.length
  let ds := deps n rhs
  match recursives turns ds (List.range n) with
  | none => none
  | some rs => match settle (taintAll ds) turns rs with
    | none => none
    | some ts => match settle (sweep body rhs) turns ((List.range n).map (asked body)) with
      | none => none
      | some dm => some ((List.range n).map fun i =>
          shown block (recur (dm.getD i absent) (ts.getD i false) (rs.getD i false)))

/-- What a let asks of the names around it, analyse_demand.rs:607-619. -/
def outward (body : Asks) : List Asks → List Demand → Asks
  | e :: es, d :: ds =>
    outward (if d.card != .absent && d.card != .unknown then merge body (unshift e) else body) es ds
  | _, _ => body

/-! ## The analysis -/

variable {K : Type}

/-- `NamedSignatureTable`, analyse_demand.rs:46: the last entry made comes first. -/
abbrev Named := List (String × Sig)

def Named.find (σ : Named) (name : String) : Option Sig := (List.find? (fun p => decide (p.1 = name)) σ).map (·.2)

/-- What comes of an expression: the expression with demands put in, what it asks of the names around it, and its signature if
it is a lambda, with or without metadata. -/
structure Out (K : Type) where
  x : Exp K
  env : Asks
  sig : Option Sig

/-- The demands on the parameters, analyse_demand.rs:674-683. -/
def signature (body : Asks) (n : Nat) : Sig := (List.range n).map (asked body)

/-- Does the analysis hand back the expression it was given?  analyse_demand.rs:358-367 and 424-425. -/
def same : Exp K → Bool
  | .var _ _ _ | .free _ | .intrinsic _ | .lit _ | .operator _ _ | .other => true
  | _ => false

/-- `lookup_signature`, analyse_demand.rs:737-753, given what came of analysing the function. -/
def calledSig (seeds : String → Option Sig) (f : Exp K) (sig : Option Sig) : Option Sig :=
  match f with
  | .intrinsic name => seeds name
  | .lam _ _ body => if same body then sig else none
  | _ => none

/-- The demand on an argument, analyse_demand.rs:703-707. -/
def argAsked (sig : Option Sig) (i : Nat) : Demand := ((sig.getD [])[i]?).getD lazyMulti

/-- The demands are put into the bindings, analyse_demand.rs:646-650. -/
def putAll : Binds K → List Demand → Binds K
  | .cons name _ x rest, d :: ds => .cons name d x (putAll rest ds)
  | bs, _ => bs

/-- The signatures of the bindings that are lambdas go into the table, analyse_demand.rs:638-644. -/
def record : Binds K → List (Option Sig) → Named → Named
  | .cons name _ _ rest, some s :: ss, σ => record rest ss ((name, s) :: σ)
  | .cons _ _ _ rest, none :: ss, σ => record rest ss σ
  | _, _, σ => σ

mutual
/-- `analyse_expr`, analyse_demand.rs:356-427, `analyse_let`, 444-657, `analyse_lam`, 660-696, and `analyse_app`, 699-731.
`turns` bounds every loop; `none` if that is too few. -/
def ana (seeds : String → Option Sig) (turns : Nat) : Exp K → Named → Option (Out K × Named)
  | .var s b name, σ => some (⟨.var s b name, one s b, none⟩, σ)
  | .let_ bs body, σ =>
    match ana seeds turns body σ with
    | none => none
    | some (o, σ) => match anaBinds seeds turns bs σ with
      | none => none
      | some (bs, es, ss, σ) => match letDemands turns (isBlock o.x) o.env es with
        | none => none
        | some ds => some (⟨.let_ (putAll bs ds) o.x, outward (unshift o.env) es ds, none⟩, record bs ss σ)
  | .lam smid n body, σ =>
    match ana seeds turns body σ with
    | none => none
    | some (o, σ) => some (⟨.lam smid n o.x, unshift o.env, some (signature o.env n)⟩, σ)
  | .app smid f args, σ =>
    match ana seeds turns f σ with
    | none => none
    | some (o, σ) => match anaArgs seeds turns (calledSig seeds f o.sig) args 0 o.env σ with
      | none => none
      | some (args, e, σ) => some (⟨.app smid o.x args, e, none⟩, σ)
  | .lookup smid obj key, σ =>
    match ana seeds turns obj σ with
    | none => none
    | some (o, σ) => some (⟨.lookup smid o.x key, o.env, none⟩, σ)
  | .lookupOr smid obj key dft, σ =>
    match ana seeds turns obj σ with
    | none => none
    | some (o, σ) => match ana seeds turns dft σ with
      | none => none
      | some (d, σ) => some (⟨.lookupOr smid o.x key d.x, merge o.env d.env, none⟩, σ)
  | .list smid xs, σ =>
    match anaItems seeds turns xs none_ σ with
    | none => none
    | some (xs, e, σ) => some (⟨.list smid xs, e, none⟩, σ)
  | .block smid kvs, σ =>
    match anaKvs seeds turns kvs none_ σ with
    | none => none
    | some (kvs, e, σ) => some (⟨.block smid kvs, e, none⟩, σ)
  | .metaOf smid body m, σ =>
    match ana seeds turns body σ with
    | none => none
    | some (o, σ) => match ana seeds turns m σ with
      | none => none
      | some (p, σ) => some (⟨.metaOf smid o.x p.x, merge o.env p.env, o.sig⟩, σ)
  | x, σ => some (⟨x, none_, none⟩, σ)
/-- The loop over the arguments, analyse_demand.rs:699-728. -/
def anaArgs (seeds : String → Option Sig) (turns : Nat) (sig : Option Sig) :
    Exps K → Nat → Asks → Named → Option (Exps K × Asks × Named)
  | .nil, _, e, σ => some (.nil, e, σ)
  | .cons x xs, i, e, σ =>
    match ana seeds turns x σ with
    | none => none
    | some (o, σ) =>
      let d := argAsked sig i
      match anaArgs seeds turns sig xs (i + 1) (if d.card != .absent then merge e (scaled o.env d) else e) σ with
      | none => none
      | some (xs, e, σ) => some (.cons o.x xs, e, σ)
/-- The loop over the items of a list, analyse_demand.rs:390-396. -/
def anaItems (seeds : String → Option Sig) (turns : Nat) : Exps K → Asks → Named → Option (Exps K × Asks × Named)
  | .nil, e, σ => some (.nil, e, σ)
  | .cons x xs, e, σ =>
    match ana seeds turns x σ with
    | none => none
    | some (o, σ) => match anaItems seeds turns xs (merge e o.env) σ with
      | none => none
      | some (xs, e, σ) => some (.cons o.x xs, e, σ)
/-- The loop over the entries of a block, analyse_demand.rs:400-406. -/
def anaKvs (seeds : String → Option Sig) (turns : Nat) : Kvs K → Asks → Named → Option (Kvs K × Asks × Named)
  | .nil, e, σ => some (.nil, e, σ)
  | .cons k x rest, e, σ =>
    match ana seeds turns x σ with
    | none => none
    | some (o, σ) => match anaKvs seeds turns rest (merge e o.env) σ with
      | none => none
      | some (rest, e, σ) => some (.cons k o.x rest, e, σ)
/-- The loop over the bindings of a let, analyse_demand.rs:456-462: the bindings, what each asks, and their signatures. -/
def anaBinds (seeds : String → Option Sig) (turns : Nat) :
    Binds K → Named → Option (Binds K × List Asks × List (Option Sig) × Named)
  | .nil, σ => some (.nil, [], [], σ)
  | .cons name d x rest, σ =>
    match ana seeds turns x σ with
    | none => none
    | some (o, σ) => match anaBinds seeds turns rest σ with
      | none => none
      | some (rest, es, ss, σ) => some (.cons name d o.x rest, o.env :: es, o.sig :: ss, σ)
end

/-- `analyse_demands`, analyse_demand.rs:759-762: the program with its demands, and the signatures by name. -/
def analyse (seeds : String → Option Sig) (turns : Nat) (x : Exp K) : Option (Exp K × Named) :=
  (ana seeds turns x []).map fun r => (r.1.x, r.2)

/-- What the driver does, driver/eval.rs:488-520: analyse, then compile with the signatures found. -/
def compileAnalysed (cfg : Config K) (seeds : String → Option Sig) (turns : Nat) (x : Exp K) : Option (Except CErr (Bc.Syn K)) :=
  match analyse seeds turns x with
  | none => none
  | some (y, σ) => some (compile { cfg with userSig := σ.find } y)

end Verif.Dem
