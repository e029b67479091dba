import Verif.OptModel
import Verif.SemSpec

/-!
# What the optimiser is to do

The meaning of programs is `Sem.Means`.  Here: which programs are in scope and well formed, and which of them keep clear of
what the optimiser gets wrong.
-/

namespace Verif.Opt
open Verif.Bc
variable {K : Type}

/-- How many fields a constructor has, by tag: unit, true, false; number, symbol, string; the empty list, pairs, items and
blocks; and the rest.  Nothing above. -/
def fieldsOf (t : Nat) : Option Nat := [0, 0, 0, 1, 1, 1, 0, 2, 2, 2, 2, 1, 2, 3, 2, 2, 2, 1][t]?

/-- With `g` globals and `d` names in scope, is the reference to something? -/
def okRef (g d : Nat) : Ref K → Bool
  | .l i => decide (i < d)
  | .g i => decide (i < g)
  | .v _ => true

/-- Do no two branches have the same tag? -/
def noTag (t : Nat) : Brs K → Bool
  | .nil => true
  | .cons t' _ rest => t' != t && noTag t rest

mutual
/-- With `g` globals and `d` names in scope every reference is to one of them, constructors have as many
arguments as their tag asks for, tags are those of constructors, and no case has two branches for one tag. -/
def wf (g d : Nat) : Syn K → Bool
  | .atom r => okRef g d r
  | .case scr bs fb => wf g d scr && wfBrs g d bs && wfFb g (d + 1) fb
  | .cons t args => args.all (okRef g d) && fieldsOf t == some args.length
  | .app f args _ => okRef g d f && args.all (okRef g d)
  | .dapp _ f args _ => okRef g d f && args.all (okRef g d)
  | .bif _ args => args.all (okRef g d)
  | .let_ fs body => wfForms g d fs && wf g (d + count fs) body
  | .letrec fs body => wfForms g (d + count fs) fs && wf g (d + count fs) body
  | .ann _ body => wf g d body
  | .metaOf m b => okRef g d m && okRef g d b
  | .demeta scr h o => wf g d scr && wf g (d + 2) h && wf g (d + 1) o
  | .seq scr body => wf g d scr && wf g d body
  | .lookup _ key obj dflt => okRef g d key && okRef g d obj && okRef g d dflt
  | .fused _ l r => okRef g d l && okRef g d r
  | .hole => true
def wfBrs (g d : Nat) : Brs K → Bool
  | .nil => true
  | .cons t b rest => (match fieldsOf t with | some n => wf g (d + n) b | none => false) && noTag t rest && wfBrs g d rest
def wfFb (g d : Nat) : Fb K → Bool
  | .none => true
  | .some b => wf g d b
def wfForms (g d : Nat) : Forms K → Bool
  | .nil => true
  | .cons h b rest => wf g (d + Sem.arity h) b && wfForms g d rest
end

mutual
/-- No case has as its only alternative one branch without fields. -/
def unforced : Syn K → Bool
  | .case scr bs fb => !forces bs fb && unforced scr && unforcedBrs bs && unforcedFb fb
  | .let_ fs body => unforcedForms fs && unforced body
  | .letrec fs body => unforcedForms fs && unforced body
  | .ann _ body => unforced body
  | .demeta scr h o => unforced scr && unforced h && unforced o
  | .seq scr body => unforced scr && unforced body
  | _ => true
def unforcedBrs : Brs K → Bool
  | .nil => true
  | .cons _ b rest => unforced b && unforcedBrs rest
def unforcedFb : Fb K → Bool
  | .none => true
  | .some b => unforced b
def unforcedForms : Forms K → Bool
  | .nil => true
  | .cons _ b rest => unforced b && unforcedForms rest
end

mutual
/-- There is no literal lookup in the code. -/
def noLookup : Syn K → Bool
  | .lookup _ _ _ _ => false
  | .case scr bs fb => noLookup scr && noLookupBrs bs && noLookupFb fb
  | .let_ fs body => noLookupForms fs && noLookup body
  | .letrec fs body => noLookupForms fs && noLookup body
  | .ann _ body => noLookup body
  | .demeta scr h o => noLookup scr && noLookup h && noLookup o
  | .seq scr body => noLookup scr && noLookup body
  | _ => true
def noLookupBrs : Brs K → Bool
  | .nil => true
  | .cons _ b rest => noLookup b && noLookupBrs rest
def noLookupFb : Fb K → Bool
  | .none => true
  | .some b => noLookup b
def noLookupForms : Forms K → Bool
  | .nil => true
  | .cons _ b rest => noLookup b && noLookupForms rest
end

/-- Renaming leaves `r` where it is. -/
def still (st : List Tr) (r : Ref K) : Bool :=
  match r with
  | .l i => trans st i == i
  | _ => true

def quietCase (st : List Tr) (forced : Bool) (tagged : Nat → Bool) (scr : Option (Syn K)) (force : Bool)
    (find : List Tr → Nat → Bool) (bs fb : Bool) : Bool :=
  if forced then force else match scr with
    | some (.cons t args) =>
      if tagged t then
        if args.isEmpty then find st t
        else args.all (still st) && (match locals args with
          | some ms => find (.lets ms :: st) t
          | none => find (.shift args.length :: st) t)
      else args.all (still st) && bs && fb
    | _ => bs && fb

mutual
/-- Where a case on a constructor is folded away, the constructor's arguments, renamed once, are not moved by being renamed
again. -/
def quiet (st : List Tr) : Syn K → Bool
  | .let_ fs body => match fromLet fs with
    | some ms => quiet (.lets ms :: st) body
    | none => quietForms st fs && quiet (.shift (count fs) :: st) body
  | .letrec fs body => match fromLetrec (count fs) fs with
    | some ms => quiet (.lets ms :: st) body
    | none => quietForms (.shift (count fs) :: st) fs && quiet (.shift (count fs) :: st) body
  | .case scr bs fb => quiet st scr && quietCase st (forces bs fb) (hasTag · bs) (opt st scr) (quietForce (.bump 1 :: st) bs)
      (fun st t => quietFind st t bs) (quietBrs st bs) (quietFb (.shift 1 :: st) fb)
  | .ann _ body => quiet st body
  | .seq scr body => quiet st scr && quiet st body
  | .demeta scr h o => quiet st scr && quiet (.shift 2 :: st) h && quiet (.shift 1 :: st) o
  | _ => true
def quietForce (st : List Tr) : Brs K → Bool
  | .cons _ b _ => quiet st b
  | .nil => true
def quietBrs (st : List Tr) : Brs K → Bool
  | .nil => true
  | .cons t b rest => (match fieldsOf t with | some n => quiet (.shift n :: st) b | none => true) && quietBrs st rest
def quietFind (st : List Tr) (t : Nat) : Brs K → Bool
  | .nil => true
  | .cons t' b rest => if t' = t then quiet st b else quietFind st t rest
def quietFb (st : List Tr) : Fb K → Bool
  | .none => true
  | .some b => quiet st b
def quietForms (st : List Tr) : Forms K → Bool
  | .nil => true
  | .cons h b rest => (match h with | .lambda n _ => quiet (.shift n :: st) b | _ => quiet st b) && quietForms st rest
end

/-- Where a path of field numbers leads: evaluate, take the field, and so on; at the end of it `s` is seen. -/
def Finds (P : Sem.World K) : List Nat → Sem.Val K → Sem.Seen K → Prop
  | [], v, s => ∃ n r, Sem.program P n v = some r ∧ Sem.seen r = some s
  | i :: p, v, s => ∃ n w t as e r u, Sem.program P n v = some (.ok w) ∧ Sem.shape w = .data t as e ∧ as[i]? = some r ∧
      Sem.resolve P e r = .ok u ∧ Finds P p u s

/-- All that can be seen of a program by looking at its value, at the fields of that, at theirs, and so on. -/
def Shows (P : Sem.World K) (root : Syn K) (p : List Nat) (s : Sem.Seen K) : Prop := Finds P p (.clo 0 root .nil) s

/-- A program's surroundings are in scope and well formed. -/
def WfWorld (P : Sem.World K) : Prop :=
  (∀ f ∈ P.globals, wf P.globals.length (Sem.arity f.head) f.body = true) ∧
    ∀ id ks c, P.prim id ks = .ok c → wf P.globals.length 0 c = true

end Verif.Opt
