import Verif.EngModel
import Verif.BcSpec

/-!
# What an engine shows

`Shows E ks c t`: what execution reads from `c` on is the tree `t`.  An engine may step over annotations.
-/

namespace Verif.Eng
open Verif.Bc
variable {K C : Type}

/-- An argument: an atom, entered or looked into. -/
def ShowsArg (E : Engine C) (ks : List K) (c : C) (r : Ref K) : Prop :=
  ∃ d, E.view c = some (.atom d) ∧ E.ref c = some d ∧ RefIs ks d r

def ShowsArgs (E : Engine C) (ks : List K) : List C → List (Ref K) → Prop
  | [], [] => True
  | c :: cs, r :: rs => ShowsArg E ks c r ∧ ShowsArgs E ks cs rs
  | _, _ => False

def RefsAre (ks : List K) : List DRef → List (Ref K) → Prop
  | [], [] => True
  | d :: ds, r :: rs => RefIs ks d r ∧ RefsAre ks ds rs
  | _, _ => False

/-- The branch for a tag in a table that starts at tag `lo`. -/
def select (lo : Nat) (table : List (Option C)) (tag : Nat) : Option C :=
  if tag < lo then none else (table[tag - lo]?).join

/-- Is a binding of this kind updated with its value? -/
def updates : Head → Bool
  | .thunk => true
  | _ => false

/-- The number of parameters of a binding of this kind. -/
def params : Head → Nat
  | .lambda b _ => b
  | _ => 0

mutual
def Shows (E : Engine C) (ks : List K) (c : C) : Syn K → Prop
  | .atom r => ShowsArg E ks c r
  | .case scr bs fb => ∃ so lo table fo, E.view c = some (.case so lo table fo) ∧ Shows E ks so scr ∧
      (∀ tag, select lo table tag ≠ none → bs.has tag) ∧ ShowsBrs E ks (select lo table) bs ∧ ShowsFb E ks fo fb
  | .cons tag args => ∃ ds, E.view c = some (.cons tag ds) ∧ RefsAre ks ds args
  | .app f args eager => ∃ d os, E.view c = some (.app eager d os) ∧ RefIs ks d f ∧ ShowsArgs E ks os args
  | .dapp _ f args eager => ∃ d os, E.view c = some (.dapp eager d os) ∧ RefIs ks d f ∧ ShowsArgs E ks os args
  | .bif i args => ∃ ds, E.view c = some (.bif i ds) ∧ RefsAre ks ds args
  | .let_ fs body => ∃ hs bo, E.view c = some (.let_ hs bo) ∧ ShowsForms E ks hs fs ∧ Shows E ks bo body
  | .letrec fs body => ∃ hs bo, E.view c = some (.letrec hs bo) ∧ ShowsForms E ks hs fs ∧ Shows E ks bo body
  | .ann _ body => (∃ bo, E.view c = some (.ann bo) ∧ Shows E ks bo body) ∨ Shows E ks c body
  | .metaOf m b => ∃ dm db, E.view c = some (.metaOf dm db) ∧ RefIs ks dm m ∧ RefIs ks db b
  | .demeta scr handler orElse => ∃ so ho oo, E.view c = some (.demeta so ho oo) ∧ Shows E ks so scr ∧
      Shows E ks ho handler ∧ Shows E ks oo orElse
  | .seq scr body => ∃ so bo, E.view c = some (.seq so bo) ∧ Shows E ks so scr ∧ Shows E ks bo body
  | .lookup _ key obj dflt => ∃ dk d o, E.view c = some (.lookup dk d o) ∧ RefIs ks dk key ∧ RefIs ks d obj ∧
      ShowsArg E ks o dflt
  | .fused id left right => ∃ lo ro, E.view c = some (.fused id lo ro) ∧ ShowsArg E ks lo left ∧ ShowsArg E ks ro right
  | .hole => E.view c = some .hole
/-- Each branch that no later branch for the same tag replaces is selected by its tag. -/
def ShowsBrs (E : Engine C) (ks : List K) (sel : Nat → Option C) : Brs K → Prop
  | .nil => True
  | .cons tag body bs => (¬ bs.has tag → ∃ o, sel tag = some o ∧ Shows E ks o body) ∧ ShowsBrs E ks sel bs
def ShowsFb (E : Engine C) (ks : List K) : Option C → Fb K → Prop
  | none, .none => True
  | some o, .some body => Shows E ks o body
  | _, _ => False
def ShowsForms (E : Engine C) (ks : List K) : List (Bind C) → Forms K → Prop
  | [], .nil => True
  | h :: hs, .cons hd body fs => h.upd = updates hd ∧ h.arity = params hd ∧ Shows E ks h.body body ∧ ShowsForms E ks hs fs
  | _, _ => False
end

/-- Several trees, each at its place. -/
def ShowsAll (E : Engine C) (ks : List K) : List C → List (Syn K) → Prop
  | [], [] => True
  | c :: cs, t :: ts => Shows E ks c t ∧ ShowsAll E ks cs ts
  | _, _ => False

end Verif.Eng
