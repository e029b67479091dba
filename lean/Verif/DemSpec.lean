import Verif.DemModel
import Verif.CompProps

/-!
# What the demand analysis should and should not do

It may write on the bindings and do nothing else; it should come to an end; and what is compiled with what it writes should
mean what the program means.
-/

namespace Verif.Dem
open Verif.Comp
variable {K : Type}

mutual
/-- The expression with nothing written on its bindings. -/
def bare : Exp K → Exp K
  | .let_ bs body => .let_ (bareBinds bs) (bare body)
  | .lam smid n body => .lam smid n (bare body)
  | .app smid f args => .app smid (bare f) (bareAll args)
  | .list smid xs => .list smid (bareAll xs)
  | .block smid kvs => .block smid (bareKvs kvs)
  | .lookup smid obj key => .lookup smid (bare obj) key
  | .lookupOr smid obj key dft => .lookupOr smid (bare obj) key (bare dft)
  | .metaOf smid body m => .metaOf smid (bare body) (bare m)
  | .operator smid body => .operator smid (bare body)
  | .var s b name => .var s b name
  | .free name => .free name
  | .lit p => .lit p
  | .intrinsic name => .intrinsic name
  | .other => .other
def bareAll : Exps K → Exps K
  | .nil => .nil
  | .cons x xs => .cons (bare x) (bareAll xs)
def bareBinds : Binds K → Binds K
  | .nil => .nil
  | .cons name _ x rest => .cons name {} (bare x) (bareBinds rest)
def bareKvs : Kvs K → Kvs K
  | .nil => .nil
  | .cons k x rest => .cons k (bare x) (bareKvs rest)
end

mutual
/-- The most bindings there are in any one let. -/
def width : Exp K → Nat
  | .let_ bs body => max (widthBinds bs) (max (count bs) (width body))
  | .lam _ _ body => width body
  | .app _ f args => max (width f) (widthAll args)
  | .list _ xs => widthAll xs
  | .block _ kvs => widthKvs kvs
  | .lookup _ obj _ => width obj
  | .lookupOr _ obj _ dft => max (width obj) (width dft)
  | .metaOf _ body m => max (width body) (width m)
  | .operator _ body => width body
  | _ => 0
def widthAll : Exps K → Nat
  | .nil => 0
  | .cons x xs => max (width x) (widthAll xs)
def widthBinds : Binds K → Nat
  | .nil => 0
  | .cons _ _ x rest => max (width x) (widthBinds rest)
def widthKvs : Kvs K → Nat
  | .nil => 0
  | .cons _ x rest => max (width x) (widthKvs rest)
def count : Binds K → Nat
  | .nil => 0
  | .cons _ _ _ rest => count rest + 1
end

/-- What is written of a use: once or more often, for sure or perhaps. -/
structure Use (d : Demand) : Prop where
  card : d.card = .once ∨ d.card = .multi
  strictness : d.strictness = .lazy ∨ d.strictness = .strict
  whnf : d.whnf = false
  recursive : d.recursive = false

/-- Signatures speak of uses, or say that there is none. -/
def Sound (seeds : String → Option Sig) : Prop :=
  ∀ name s, seeds name = some s → ∀ d ∈ s, d.card = .absent ∨ Use d

/-- In a graph given by the neighbours of each node: from one node along one edge or more to another. -/
inductive Leads (ds : List (List Nat)) : Nat → Nat → Prop where
  | edge {i j} : j ∈ ds.getD i [] → Leads ds i j
  | step {i j k} : Leads ds i j → k ∈ ds.getD j [] → Leads ds i k

end Verif.Dem
