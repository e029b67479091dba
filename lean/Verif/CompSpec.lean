import Verif.CompModel
import Verif.OptSpec

/-!
# What a core expression means

A reference semantics for core expressions, by name: names stand for expressions with what *their* names stand for,
nothing is shared, nothing is evaluated before it is asked for, and demands, source locations and the names of variables
play no part.  The intrinsics and the prelude are STG code (`Sem.World`), so that a value is either of the two kinds.
-/

namespace Verif.Comp
open Verif.Bc
variable {K : Type}

mutual
/-- A value to be: a native; global code of so many parameters with its environment; a core expression with what its names
stand for; a constructor; a value with metadata. -/
inductive Val (K : Type) where
  | nat (k : K)
  | clo (arity : Nat) (code : Syn K) (env : Env K)
  | exp (x : Exp K) (ρ : Scopes K)
  | con (tag : Nat) (fields : List (Val K))
  | note (m b : Val K)
/-- What the names of global code stand for, as `Sem.Env`. -/
inductive Env (K : Type) where
  | nil
  | cons (v : Val K) (next : Env K)
  | recs (fs : Forms K) (next : Env K)
/-- What the names of a core expression stand for: the parameters of a function, or bindings that see each other. -/
inductive Scopes (K : Type) where
  | nil
  | args (vs : List (Val K)) (next : Scopes K)
  | recs (bs : Binds K) (next : Scopes K)
end

def exps : Exps K → List (Exp K)
  | .nil => []
  | .cons x xs => x :: exps xs

def bindings : Binds K → List (Exp K)
  | .nil => []
  | .cons _ _ x rest => x :: bindings rest

def close (f : Form K) (e : Env K) : Val K := .clo (Sem.arity f.head) f.body e

def lookup : Env K → Nat → Option (Val K)
  | .nil, _ => none
  | .cons v e, i => if i = 0 then some v else lookup e (i - 1)
  | .recs fs e, i =>
    match (Sem.forms fs)[i]? with
    | some f => some (close f (.recs fs e))
    | none => lookup e (i - (Sem.forms fs).length)

def consAll (vs : List (Val K)) (e : Env K) : Env K := vs.foldr .cons e

/-- What a variable so many scopes out and so many names along stands for. -/
def find : Scopes K → Nat → Nat → Option (Val K)
  | .nil, _, _ => none
  | .args vs ρ, s, i => if s = 0 then vs[i]? else find ρ (s - 1) i
  | .recs bs ρ, s, i => if s = 0 then ((bindings bs)[i]?).map (.exp · (.recs bs ρ)) else find ρ (s - 1) i

/-- What is around the program: the globals and intrinsics, the numbers of the intrinsics and of the prelude's names, and
what stands in a block for the index it does not have yet. -/
structure World (K : Type) where
  sem : Sem.World K
  index : String → Option Nat
  prelude : String → Option Nat
  noIndex : K

abbrev R (K : Type) := Except Sem.Err (Val K)

def global (P : World K) (i : Nat) : R K :=
  match P.sem.globals[i]? with
  | some f => .ok (close f .nil)
  | none => .error (.badGlobal i)

def resolve (P : World K) (e : Env K) : Ref K → R K
  | .l i => match lookup e i with
    | some v => .ok v
    | none => .error (.badIndex i)
  | .g i => global P i
  | .v k => .ok (.nat k)

def resolveAll (P : World K) (e : Env K) : List (Ref K) → Except Sem.Err (List (Val K))
  | [] => .ok []
  | r :: rs => match resolve P e r with
    | .error x => .error x
    | .ok v => match resolveAll P e rs with
      | .error x => .error x
      | .ok vs => .ok (v :: vs)

/-- What a value looks like from outside. -/
inductive Shape (K : Type) where
  | nat (k : K)
  | fn (arity : Nat) (enter : List (Val K) → Val K)
  | data (tag : Nat) (fields : Except Sem.Err (List (Val K)))
  | annotated (mb : Except Sem.Err (Val K × Val K)) (b : R K)
  | busy

def pairOf : Except Sem.Err (List (Val K)) → Except Sem.Err (Val K × Val K)
  | .ok [m, b] => .ok (m, b)
  | .ok _ => .error .outside
  | .error x => .error x

def shape (P : World K) : Val K → Shape K
  | .nat k => .nat k
  | .clo (a + 1) c e => .fn (a + 1) fun vs => .clo 0 c (consAll vs e)
  | .clo 0 (.cons t as) e => .data t (resolveAll P e as)
  | .clo 0 (.metaOf m b) e => .annotated (pairOf (resolveAll P e [m, b])) (resolve P e b)
  | .clo 0 _ _ => .busy
  | .con t vs => .data t (.ok vs)
  | .note m b => .annotated (.ok (m, b)) (.ok b)
  | .exp (.lam _ (n + 1) b) ρ => .fn (n + 1) fun vs => .exp b (.args vs ρ)
  | .exp _ _ => .busy

/-- Literals are constructors. -/
def literal : Prim K → Val K
  | .num k => .con 3 [.nat k]
  | .sym k => .con 4 [.nat k]
  | .str k => .con 5 [.nat k]
  | .bool true => .con 1 []
  | .bool false => .con 2 []
  | .null => .con 0 []
  | .typeData k => .con 17 [.nat k]

/-- A list is a chain of pairs. -/
def listOf : List (Val K) → Val K
  | [] => .con 6 []
  | v :: vs => .con 7 [v, listOf vs]

/-- A block is a list of keys with values. -/
def entries (ρ : Scopes K) : Kvs K → List (Val K)
  | .nil => []
  | .cons k x rest => .con 9 [.nat k, .exp x ρ] :: entries ρ rest

def blockOf (P : World K) (vs : List (Val K)) : Val K := .con 8 [listOf vs, .nat P.noIndex]

/-! ## One step at a time -/

/-- What waits for a value. -/
inductive Fr (K : Type) where
  | case (bs : Brs K) (fb : Fb K) (e : Env K)
  | apply (args : List (Val K))
  | demeta (h o : Syn K) (e : Env K)
  | seq (body : Syn K) (e : Env K)
  | fusedL (id : Nat) (r : Ref K) (e : Env K)
  | fusedR (id : Nat) (left : Val K)
  | prim (id : Nat) (done rest : List (Val K))
  | top

abbrev Cfg (K : Type) := Val K × List (Fr K)

inductive SRes (K : Type) where
  | next (c : Cfg K)
  | done (v : Val K)
  | err (x : Sem.Err)

def SRes.of : R K → List (Fr K) → SRes K
  | .ok v, S => .next (v, S)
  | .error x, _ => .err x

/-- A core expression that is not yet a value. -/
def execE (P : World K) (x : Exp K) (ρ : Scopes K) (S : List (Fr K)) : SRes K :=
  match x with
  | .var s i _ => match find ρ s i with
    | some v => .next (v, S)
    | none => .err (.badIndex i)
  | .free name => match P.prelude name with
    | some i => .of (global P i) S
    | none => .err .outside
  | .let_ bs body => .next (.exp body (.recs bs ρ), S)
  | .lam _ _ body => .next (.exp body (.args [] ρ), S)
  | .app _ f args => .next (.exp f ρ, .apply ((exps args).map (.exp · ρ)) :: S)
  | .lit p => .next (literal p, S)
  | .list _ xs => .next (listOf ((exps xs).map (.exp · ρ)), S)
  | .block _ kvs => .next (blockOf P (entries ρ kvs), S)
  | .intrinsic name => match P.index name with
    | some i => .of (global P i) S
    | none => .err .outside
  | .metaOf _ body m => .next (.note (.exp m ρ) (.exp body ρ), S)
  | .operator _ body => .next (.exp body ρ, S)
  | .lookup _ _ _ | .lookupOr _ _ _ _ | .other => .err .outside

def fallback (v : Val K) (fb : Fb K) (e : Env K) (x : Sem.Err) : R K :=
  match fb with
  | .some b => .ok (.clo 0 b (.cons v e))
  | .none => .error x

/-- A value has come back to a `case`. -/
def onCase (P : World K) (v : Val K) (bs : Brs K) (fb : Fb K) (e : Env K) : R K :=
  match shape P v with
  | .data t fields =>
    match Sem.branch bs t with
    | some body => match fields with
      | .ok vs => .ok (.clo 0 body (consAll vs e))
      | .error x => .error x
    | none => fallback v fb e (.noBranchData t)
  | .nat _ => fallback v fb e .noBranchNative
  | .fn _ _ => fallback v fb e .funToCase
  | _ => .error .outside

/-- A value has come back to be applied: what to go on with, and the arguments that then remain. -/
def onApply (P : World K) (v : Val K) (args : List (Val K)) : Except Sem.Err (Val K × Option (List (Val K))) :=
  match shape P v with
  | .fn a enter =>
    if args.length = a then .ok (enter args, none)
    else if args.length < a then
      .ok (.clo (a - args.length) (Sem.papCode args.length (a - args.length)) (consAll (v :: args) .nil), none)
    else .ok (enter (args.take a), some (args.drop a))
  | .data t _ =>
    if t = 8 then match global P P.sem.merge with
      | .ok m => .ok (m, some (args ++ [v]))
      | .error x => .error x
    else .error .notCallable
  | .nat _ => .error .notCallable
  | _ => .error .outside

def callee (P : World K) (e : Env K) : Ref K → R K
  | .v _ => .error .notCallable
  | r => resolve P e r

def eagerBad (e : Env K) : List (Ref K) → Option Nat
  | [] => none
  | .l i :: rs => match lookup e i with
    | some _ => eagerBad e rs
    | none => some i
  | _ :: rs => eagerBad e rs

def app (P : World K) (e : Env K) (f : Ref K) (args : List (Ref K)) (eager : Bool) :
    Except Sem.Err (Val K × List (Val K)) :=
  match (if eager then eagerBad e args else none) with
  | some i => .error (.badIndex i)
  | none => match callee P e f with
    | .ok v => .ok (v, args.map fun r => .clo 0 (.atom r) e)
    | .error x => .error x

/-- The thing in the box, if it is one. -/
def unbox (P : World K) (v : Val K) : Except Sem.Err (Option (Val K)) :=
  match shape P v with
  | .data t fields =>
    if Sem.boxed t then match fields with
      | .ok (u :: _) => .ok (some u)
      | .ok [] => .error .missingField
      | .error x => .error x
    else .ok none
  | _ => .ok none

def natives : List (Val K) → Option (List K)
  | [] => some []
  | .nat k :: vs => (natives vs).map (k :: ·)
  | _ :: _ => none

def intrinsic (P : World K) (id : Nat) (vs : List (Val K)) : R K :=
  match natives vs with
  | none => .error .argShape
  | some ks => match P.sem.prim id ks with
    | .ok c => .ok (.clo 0 c .nil)
    | .error x => .error (.prim x)

/-- Global code of no parameters that is not a value. -/
def exec (P : World K) (c : Syn K) (e : Env K) (S : List (Fr K)) : SRes K :=
  match c with
  | .atom r => .of (resolve P e r) S
  | .case scr bs fb => .next (.clo 0 scr e, .case bs fb e :: S)
  | .app f args eager | .dapp _ f args eager =>
    match app P e f args eager with
    | .ok (v, vs) => .next (v, .apply vs :: S)
    | .error x => .err x
  | .bif id args => match resolveAll P e args with
    | .error x => .err x
    | .ok [] => .of (intrinsic P id []) S
    | .ok (v :: vs) => .next (v, .prim id [] vs :: S)
  | .let_ fs body => .next (.clo 0 body (consAll ((Sem.forms fs).map (close · e)) e), S)
  | .letrec fs body => .next (.clo 0 body (.recs fs e), S)
  | .ann _ body => .next (.clo 0 body e, S)
  | .demeta scr h o => .next (.clo 0 scr e, .demeta h o e :: S)
  | .seq scr body => .next (.clo 0 scr e, .seq body e :: S)
  | .fused id l r => .next (.clo 0 (.atom l) e, .fusedL id r e :: S)
  | .lookup _ _ _ _ => .err .outside
  | .hole => .err .hole
  | .cons _ _ | .metaOf _ _ => .err .outside

/-- A value `w` without metadata comes back to what waits for it. -/
def give (P : World K) (w : Val K) (S : List (Fr K)) : Fr K → SRes K
  | .case bs fb e => .of (onCase P w bs fb e) S
  | .apply args => match onApply P w args with
    | .ok (u, none) => .next (u, S)
    | .ok (u, some rest) => .next (u, .apply rest :: S)
    | .error x => .err x
  | .demeta _ o e => .next (.clo 0 o (.cons w e), S)
  | .seq b e => .next (.clo 0 b e, S)
  | .fusedL id r e => match unbox P w with
    | .ok (some u) => .next (u, .fusedL id r e :: S)
    | .ok none => .next (.clo 0 (.atom r) e, .fusedR id w :: S)
    | .error x => .err x
  | .fusedR id l => match unbox P w with
    | .ok (some u) => .next (u, .fusedR id l :: S)
    | .ok none => .of (intrinsic P id [l, w]) S
    | .error x => .err x
  | .prim id dn [] => .of (intrinsic P id (dn ++ [w])) S
  | .prim id dn (v :: vs) => .next (v, .prim id (dn ++ [w]) vs :: S)
  | .top => .next (w, S)

/-- A value with metadata comes back to what waits for it. -/
def giveMeta (mb : Except Sem.Err (Val K × Val K)) (b : R K) (S : List (Fr K)) : Fr K → SRes K
  | .demeta h _ de => match mb with
    | .ok (m, b) => .next (.clo 0 h (.cons m (.cons b de)), S)
    | .error x => .err x
  | .top => match mb with
    | .ok (_, b) => .next (b, .top :: S)
    | .error x => .err x
  | fr => .of b (fr :: S)

def step (P : World K) (c : Cfg K) : SRes K :=
  match shape P c.1 with
  | .annotated mb b => match c.2 with
    | [] => .done c.1
    | fr :: S => giveMeta mb b S fr
  | .busy => match c.1 with
    | .clo _ code e => exec P code e c.2
    | .exp x ρ => execE P x ρ c.2
    | _ => .err .outside
  | _ => match c.2 with
    | [] => .done c.1
    | fr :: S => give P c.1 S fr

/-- After `n` steps from `c` comes the end `r`. -/
inductive Ends (P : World K) : Nat → Cfg K → R K → Prop where
  | done {c v} : step P c = .done v → Ends P 0 c (.ok v)
  | err {c x} : step P c = .err x → Ends P 0 c (.error x)
  | next {c c' n r} : step P c = .next c' → Ends P n c' r → Ends P (n + 1) c r

/-- What can be seen of a result from outside. -/
def seen (P : World K) : R K → Option (Sem.Seen K)
  | .error x => some (.error x)
  | .ok v => match shape P v with
    | .nat k => some (.native k)
    | .fn a _ => some (.function a)
    | .data t (.ok vs) => some (.data t vs.length)
    | _ => none

/-- Where a path of field numbers leads: evaluate, take the field, and so on; at the end of it `s` is seen. -/
def Finds (P : World K) : List Nat → Val K → Sem.Seen K → Prop
  | [], v, s => ∃ n r, Ends P n (v, [.top]) r ∧ seen P r = some s
  | i :: p, v, s => ∃ n w t vs u, Ends P n (v, [.top]) (.ok w) ∧ shape P w = .data t (.ok vs) ∧ vs[i]? = some u ∧ Finds P p u s

/-- All that can be seen of a core expression without free names: of its value, of the fields of that, and so on. -/
def Shows (P : World K) (x : Exp K) (p : List Nat) (s : Sem.Seen K) : Prop := Finds P p (.exp x .nil) s

/-- The compiler's tables are those of the surroundings: intrinsics and prelude have the numbers it gives them, the empty list is
where it takes it to be, and what it puts in for an intrinsic is the body of that intrinsic's wrapper. -/
structure Fits (cfg : Config K) (P : World K) : Prop where
  wf : Opt.WfWorld P.sem
  index : ∀ name, P.index name = cfg.index name
  inRange : ∀ name i, cfg.index name = some i → i < P.sem.globals.length
  prelude : ∀ name, P.prelude name = (cfg.prelude name).map (cfg.base + ·)
  slots : ∀ name i, cfg.prelude name = some i → cfg.base + i < P.sem.globals.length
  noIndex : P.noIndex = cfg.noIndex
  empty : ∃ h, P.sem.globals[cfg.emptyList]? = some ⟨h, .cons 6 []⟩ ∧ Sem.arity h = 0
  wrapper : ∀ i w, cfg.wrapper i = some w → w.inlinable = true → 0 < w.arity ∧
    ∃ h, P.sem.globals[i]? = some ⟨h, w.body⟩ ∧ Sem.arity h = w.arity
  unfused : ∀ i, cfg.fusible i = false

mutual
/-- No binding of the expression is to be forced early. -/
def unmarked : Exp K → Bool
  | .let_ bs body => unmarkedBinds bs && unmarked body
  | .lam _ _ body => unmarked body
  | .app _ f args => unmarked f && unmarkedAll args
  | .list _ xs => unmarkedAll xs
  | .block _ kvs => unmarkedKvs kvs
  | .lookup _ obj _ => unmarked obj
  | .lookupOr _ obj _ dft => unmarked obj && unmarked dft
  | .metaOf _ body m => unmarked body && unmarked m
  | .operator _ body => unmarked body
  | _ => true
def unmarkedAll : Exps K → Bool
  | .nil => true
  | .cons x xs => unmarked x && unmarkedAll xs
def unmarkedBinds : Binds K → Bool
  | .nil => true
  | .cons _ d x rest => !d.forced && unmarked x && unmarkedBinds rest
def unmarkedKvs : Kvs K → Bool
  | .nil => true
  | .cons _ x rest => unmarked x && unmarkedKvs rest
end

/-- No signature the compiler knows says that an argument is to be forced early. -/
structure Mild (cfg : Config K) : Prop where
  intrinsicSig : ∀ name s, cfg.intrinsicSig name = some s → ∀ d ∈ s, d.forced = false
  userSig : ∀ name s, cfg.userSig name = some s → ∀ d ∈ s, d.forced = false
  preludeSig : ∀ name s, cfg.preludeSig name = some s → ∀ d ∈ s, d.forced = false

/-- Whenever `v` comes to a value then so does `u`, and in fewer steps: `u` is evaluated on the way. -/
def Needs (P : World K) (v u : Val K) : Prop :=
  ∀ S n a, Ends P n (v, S) (.ok a) → ∃ m b, m < n ∧ Ends P m (u, [.top]) (.ok b)

/-- What is bound to a name with this demand is work yet to be done: neither a value as it stands, nor a global. -/
def Exp.delayed : Exp K → Demand → Bool
  | .let_ _ _, d | .app _ _ _, d => !d.skipUpdate
  | .var _ _ _, _ | .lookup _ _ _, _ | .lookupOr _ _ _ _, _ => true
  | .operator _ b, _ => b.delayed {}
  | _, _ => false

def isVar : Exp K → Bool
  | .var _ _ _ => true
  | _ => false

def demands : Binds K → List (Demand × Exp K)
  | .nil => []
  | .cons _ d x rest => (d, x) :: demands rest

/-- What names may stand for, under one more function and within one more let. -/
def inLam (E : Scopes K → Prop) : Scopes K → Prop := fun ρ' => ∃ vs ρ, E ρ ∧ ρ' = .args vs ρ
def inLet (bs : Binds K) (E : Scopes K → Prop) : Scopes K → Prop := fun ρ' => ∃ ρ, E ρ ∧ ρ' = .recs bs ρ

mutual
/-- Of every binding and every argument that is marked for forcing early and is work yet to be done, `mark` holds: of what is
then gone on with and of that work, for all that the names around may stand for. -/
def Marked (mark : Val K → Val K → Prop) (cfg : Config K) : Exp K → (Scopes K → Prop) → Prop
  | .let_ bs body, E =>
      (∀ ρ (j : Nat) d x, E ρ → (demands bs)[j]? = some (d, x) → d.forced = true → x.delayed d = true →
        mark (.exp body (.recs bs ρ)) (.exp (.var 0 j none) (.recs bs ρ))) ∧
      MarkedBinds mark cfg bs (inLet bs E) ∧ Marked mark cfg body (inLet bs E)
  | .lam _ _ body, E => Marked mark cfg body (inLam E)
  | .app s f args, E =>
      (∀ ρ (j : Nat) x, E ρ → (exps args)[j]? = some x → (argDemand (sigOf cfg f) j).forced = true →
        isVar x = false → x.delayed (argDemand (sigOf cfg f) j) = true → mark (.exp (.app s f args) ρ) (.exp x ρ)) ∧
      Marked mark cfg f E ∧ MarkedAll mark cfg args E
  | .list _ xs, E => MarkedAll mark cfg xs E
  | .block _ kvs, E => MarkedKvs mark cfg kvs E
  | .lookup _ obj _, E => Marked mark cfg obj E
  | .lookupOr _ obj _ dft, E => Marked mark cfg obj E ∧ Marked mark cfg dft E
  | .metaOf _ body m, E => Marked mark cfg body E ∧ Marked mark cfg m E
  | .operator _ body, E => Marked mark cfg body E
  | _, _ => True
def MarkedAll (mark : Val K → Val K → Prop) (cfg : Config K) : Exps K → (Scopes K → Prop) → Prop
  | .nil, _ => True
  | .cons x xs, E => Marked mark cfg x E ∧ MarkedAll mark cfg xs E
def MarkedBinds (mark : Val K → Val K → Prop) (cfg : Config K) : Binds K → (Scopes K → Prop) → Prop
  | .nil, _ => True
  | .cons _ _ x rest, E => Marked mark cfg x E ∧ MarkedBinds mark cfg rest E
def MarkedKvs (mark : Val K → Val K → Prop) (cfg : Config K) : Kvs K → (Scopes K → Prop) → Prop
  | .nil, _ => True
  | .cons _ x rest, E => Marked mark cfg x E ∧ MarkedKvs mark cfg rest E
end

/-- A program is marked honestly: what it says to force early is evaluated anyway. -/
def Honest (P : World K) (cfg : Config K) (x : Exp K) : Prop := Marked (Needs P) cfg x (· = .nil)

end Verif.Comp
