import Verif.CompressModel

/-!
# Finding and blanking unused bindings

Transcription of `src/core/simplify/prune.rs`.  An expression node is identified by the path that leads to it from
the root, innermost step first (the code has one mark cell per node, reached through fat pointers; `fmap` gives every
occurrence its own).  `none` is the panic of a reference to no enclosing binder or slot.

Not modelled: the use counts, which only set demand annotations.
-/

namespace Verif.Prune

open Verif.Core

/-- A step from a node to one of its parts. -/
inductive Step where
  /-- the value of a binding of a `let` -/
  | bind (i : Nat)
  /-- the body of a `let` or of a lambda -/
  | body
  /-- a part of a node other than a lookup -/
  | part (i : Nat)
  /-- the object of a lookup, and its fallback -/
  | obj
  | fb
deriving DecidableEq, Repr

abbrev Path := List Step

/-- `SeenState`, prune.rs:26-39. -/
inductive Seen where
  | unseen | seen | soft | traversed
deriving DecidableEq, Repr

/-- An entry of `ScopeTracker::scopes`: a lambda or a `let`. -/
inductive Scope where
  | lam (n : Nat)
  | letS (p : Path) (vals : List Core)

/-- The marks, `marked_count` and `BlockAccessTracker`, prune.rs:134-206.  `acc` has an entry for a binding
exactly if it is not empty here. -/
structure St where
  seen : Path → Seen := fun _ => .unseen
  count : Nat := 0
  cand : Path → Bool := fun _ => false
  disq : Path → Bool := fun _ => false
  acc : Path → List String := fun _ => []

/-- A mark set. -/
def St.set (st : St) (p : Path) (s : Seen) : St := { st with seen := fun q => if q = p then s else st.seen q }

/-- `if rc.mark() { self.marked_count += 1 }`, prune.rs:104-112. -/
def St.mark (st : St) (p : Path) : St :=
  if st.seen p = .unseen then { st.set p .seen with count := st.count + 1 } else st

/-- `if … .mark_soft() { self.marked_count += 1 }`, prune.rs:114-122. -/
def St.markSoft (st : St) (p : Path) : St :=
  if st.seen p = .unseen then { st.set p .soft with count := st.count + 1 } else st

/-- `is_default_let`, expr.rs:429-431. -/
def isDefaultLet : Core → Bool
  | .letE _ _ _ .default => true
  | _ => false

/-- `register`, prune.rs:163-167. -/
def St.register (st : St) (p : Path) : St :=
  if st.disq p = true then st else { st with cand := fun q => if q = p then true else st.cand q }

/-- `disqualify`, prune.rs:175-178. -/
def St.disqualify (st : St) (p : Path) : St :=
  { st with cand := fun q => if q = p then false else st.cand q
            disq := fun q => if q = p then true else st.disq q }

/-- `if is_candidate(id) { record_access(id, member) }`, prune.rs:170-172, 281-283. -/
def St.record (st : St) (p : Path) (m : String) : St :=
  if st.cand p = true then { st with acc := fun q => if q = p then m :: st.acc q else st.acc q } else st

/-- `accessed_members`, prune.rs:186-192. -/
def St.members (st : St) (p : Path) : Option (List String) :=
  if st.cand p = true ∧ st.acc p ≠ [] then some (st.acc p) else none

/-- The binding a reference is to, if it is one of a `let`: `none` for the panic of an index out of range. -/
def target (sc : List Scope) (s i : Nat) : Option (Option Path) :=
  match sc[s]? with
  | none => none
  | some (.lam _) => some none
  | some (.letS p vals) => if i < vals.length then some (some (.bind i :: p)) else none

/-- `encounter`, prune.rs:251-267. -/
def encounter (sc : List Scope) (r : Bool) (s i : Nat) (st : St) : Option St :=
  if r = true then
    (target sc s i).map fun
      | none => st
      | some q => (st.disqualify q).mark q
  else some st

/-- `encounter_lookup`, prune.rs:273-291. -/
def encounterLookup (sc : List Scope) (r : Bool) (s i : Nat) (m : String) (st : St) : Option St :=
  if r = true then
    (target sc s i).map fun
      | none => st
      | some q => (st.record q m).mark q
  else some st

/-- `depend`, prune.rs:298-302. -/
def St.depend (st : St) (dependant dependency : Path) : St :=
  if st.seen dependant = .seen then st.mark dependency else st

/-- `self.depend(e, m)` for an expression with metadata, prune.rs:392-393. -/
def St.dependMeta (st : St) (p : Path) : List Core → St
  | [_, _] => st.depend (.part 0 :: p) (.part 1 :: p)
  | _ => st

/-- `soft_depend`, prune.rs:310-316. -/
def St.softDepend (st : St) (dependant dependency : Path) : St :=
  if st.seen dependant = .seen ∨ st.seen dependant = .soft then st.markSoft dependency else st

/-- The registration of the bindings of a `let`, prune.rs:336-341. -/
def St.registerAll (st : St) (p : Path) : Nat → List Core → St
  | _, [] => st
  | i, v :: vs => (if isDefaultLet v then st.register (.bind i :: p) else st).registerAll p (i + 1) vs

/-- The frame of `traverse`, prune.rs:318-327, 419-422: nothing is done at nodes already traversed; a seen node
is where a reachable region begins. -/
def visit (p : Path) (r : Bool) (st : St) (k : Bool → St → Option St) : Option St :=
  if st.seen p = .traversed then some st
  else
    let boundary := !r && decide (st.seen p = .seen)
    (k (r || boundary) st).map fun st => if boundary then st.set p .traversed else st

/-- A bound variable. -/
def boundVar : Core → Option (Nat × Nat)
  | .var (.bound s i _) => some (s, i)
  | _ => none

mutual
/-- `traverse`, prune.rs:318-423. -/
def traverse (sc : List Scope) (r : Bool) (p : Path) : Core → St → Option St
  | .var (.bound s i _), st => visit p r st fun r st => encounter sc r s i st
  | .var (.free _), st => visit p r st fun _ st => some st
  | .letE _ vs b _, st => visit p r st fun r st =>
      (traverseB (.letS p vs :: sc) r p 0 vs (st.registerAll p 0 vs)).bind
        (traverse (.letS p vs :: sc) r (.body :: p) b)
  | .lam ps b, st => visit p r st fun r st => traverse (.lam ps.length :: sc) r (.body :: p) b st
  | .node (.lookup m) xs, st => visit p r st fun r st => traverseO sc r p m xs st
  | .node .withMeta xs, st => visit p r st fun r st =>
      traverseL sc r p 0 xs (st.dependMeta p xs)
  | .node _ xs, st => visit p r st fun r st => traverseL sc r p 0 xs st
/-- The bindings of a `let`, prune.rs:343-346. -/
def traverseB (sc : List Scope) (r : Bool) (p : Path) (i : Nat) : List Core → St → Option St
  | [], st => some st
  | v :: vs, st =>
    (traverse sc r (.bind i :: p) v (st.softDepend (.bind i :: p) p)).bind (traverseB sc r p (i + 1) vs)
/-- The object of a lookup, prune.rs:355-359, 376-378. -/
def traverseO (sc : List Scope) (r : Bool) (p : Path) (m : String) : List Core → St → Option St
  | [], st => some st
  | o :: fs, st =>
    match boundVar o with
    | some (s, i) => (encounterLookup sc r s i m st).bind (traverseF sc r p m (some (s, i)) fs)
    | none => (traverse sc r (.obj :: p) o st).bind (traverseF sc r p m none fs)
/-- The fallback of a lookup, prune.rs:360-375, 379-381. -/
def traverseF (sc : List Scope) (r : Bool) (p : Path) (m : String) (obj : Option (Nat × Nat)) :
    List Core → St → Option St
  | [], st => some st
  | f :: _, st =>
    match boundVar f with
    | some (s, i) =>
      if obj = some (s, i) then encounterLookup sc r s i m st else traverse sc r (.fb :: p) f st
    | none => traverse sc r (.fb :: p) f st
/-- Parts in order. -/
def traverseL (sc : List Scope) (r : Bool) (p : Path) (i : Nat) : List Core → St → Option St
  | [], st => some st
  | x :: xs, st => (traverse sc r (.part i :: p) x st).bind (traverseL sc r p (i + 1) xs)
end

/-- `mark_body`, prune.rs:232-243. -/
def markBody (p : Path) : Core → St → St
  | .letE _ _ b _, st => markBody (.body :: p) b st
  | .node .withMeta [e, _], st => markBody (.part 0 :: p) e (st.set (.part 1 :: p) .seen)
  | _, st => st.set p .seen

/-- `while self.pass(expr) > 0 {}`, prune.rs:209-218; at most `fuel` passes. -/
def passes (e : Core) : Nat → St → Option St
  | 0, _ => none
  | fuel + 1, st =>
    (traverse [] false [] e { st with count := 0 }).bind fun st' =>
      if st'.count = 0 then some st' else passes e fuel st'

/-- How a node is to be filtered: not at all, as the value of a binding whose members looked up are known
(`blank_default_block_let`), or as the body of such a value. -/
inductive Filter where
  | none
  | value (ms : List String)
  | body (ms : List String)
deriving DecidableEq

/-- The body of a `let` that is to be filtered: only that of a default `let` is, prune.rs:531-567. -/
def Filter.toBody : Filter → LetType → Filter
  | .value ms, .default => .body ms
  | _, _ => .none

/-- The bindings of such a `let` are not filtered themselves, prune.rs:533-553. -/
def Filter.plain : Filter → LetType → Bool
  | .value _, .default => true
  | _, _ => false

/-- How the value of a binding is to be filtered, prune.rs:463-476 and 541-549. -/
def St.filter (st : St) (plain : Bool) (p : Path) : Filter :=
  if plain = true then .none
  else
    match st.members p with
    | some ms => .value ms
    | none => .none

mutual
/-- `blank_unseen`, prune.rs:446-517, and `blank_default_block_let`, prune.rs:526-582.  The arm of the latter that looks
through metadata is never reached: only values that are default `let`s themselves are registered. -/
def blankW (st : St) (f : Filter) (p : Path) : Core → Core
  | .var v => .var v
  | .letE ns vs b t => .letE ns (blankB st (f.plain t) p 0 vs) (blankW st (f.toBody t) (.body :: p) b) t
  | .lam ps b => .lam ps (blankW st .none (.body :: p) b)
  | .node (.lookup m) xs => .node (.lookup m) (blankO st p xs)
  | .node (.block ks) xs =>
    match f with
    | .body ms => .node (.block (ks.filter (· ∈ ms))) (blankF st ms p 0 ks xs)
    | _ => .node (.block ks) (blankL st p 0 xs)
  | .node k xs => .node k (blankL st p 0 xs)
/-- The bindings, prune.rs:450-479 and 533-553. -/
def blankB (st : St) (plain : Bool) (p : Path) (i : Nat) : List Core → List Core
  | [] => []
  | v :: vs =>
    (if st.seen (.bind i :: p) = .unseen then .node .errEliminated []
     else blankW st (st.filter plain (.bind i :: p)) (.bind i :: p) v) :: blankB st plain p (i + 1) vs
/-- The members that are looked up, prune.rs:556-565. -/
def blankF (st : St) (ms : List String) (p : Path) (i : Nat) : List String → List Core → List Core
  | k :: ks, x :: xs =>
    if k ∈ ms then blankW st .none (.part i :: p) x :: blankF st ms p (i + 1) ks xs
    else blankF st ms p (i + 1) ks xs
  | _, _ => []
def blankL (st : St) (p : Path) (i : Nat) : List Core → List Core
  | [] => []
  | x :: xs => blankW st .none (.part i :: p) x :: blankL st p (i + 1) xs
/-- The object and the fallback of a lookup. -/
def blankO (st : St) (p : Path) : List Core → List Core
  | [] => []
  | o :: fs => blankW st .none (.obj :: p) o :: blankFb st p fs
def blankFb (st : St) (p : Path) : List Core → List Core
  | [] => []
  | f :: _ => [blankW st .none (.fb :: p) f]
end

/-- `blank_unseen` -/
def blank (st : St) (p : Path) (e : Core) : Core := blankW st .none p e

mutual
/-- The nodes of an expression. -/
def nodes (p : Path) : Core → List Path
  | .var _ => [p]
  | .letE _ vs b _ => p :: (nodesB p 0 vs ++ nodes (.body :: p) b)
  | .lam _ b => p :: nodes (.body :: p) b
  | .node (.lookup _) xs => p :: nodesO p xs
  | .node _ xs => p :: nodesL p 0 xs
def nodesB (p : Path) (i : Nat) : List Core → List Path
  | [] => []
  | v :: vs => nodes (.bind i :: p) v ++ nodesB p (i + 1) vs
def nodesL (p : Path) (i : Nat) : List Core → List Path
  | [] => []
  | v :: vs => nodes (.part i :: p) v ++ nodesL p (i + 1) vs
def nodesO (p : Path) : List Core → List Path
  | [] => []
  | o :: fs => nodes (.obj :: p) o ++ nodesF p fs
def nodesF (p : Path) : List Core → List Path
  | [] => []
  | f :: _ => nodes (.fb :: p) f
end

/-- `prune`, prune.rs:19-24.  As many passes as there are nodes are enough. -/
def prune (e : Core) : Option Core :=
  (passes e ((nodes [] e).length + 1) (markBody [] e {})).map fun st => blank st [] e

/-- `SourceLoader::eliminate`, src/driver/source.rs:1059-1063. -/
def eliminate (e : Core) : Option Core := (prune e).bind (Dce.compress [])

end Verif.Prune
