import Verif.IoModel

/-!
# What a program that runs commands should do

There is no stash here and nothing moves: what a value says is read off it, and actions are done one after another.
-/

namespace Verif.Io

section Reading
variable (L : Lang)

/-- The value of a field or of an element: it must not be an action itself. -/
def valueOf (t : L.T) : Option (Except (Stop L.E) L.T) := match L.eval t with
  | none => none
  | some (.error e) => some (.error (.machine e))
  | some (.ok u) => if (L.look u).isIo then some (.error .panic) else some (.ok u)

/-- Then `f`, if there is no error. -/
def andThen {E α β : Type} (x : Option (Except E α)) (f : α → Option (Except E β)) : Option (Except E β) := match x with
  | none => none
  | some (.error e) => some (.error e)
  | some (.ok a) => f a

/-- With the inside of a box. -/
def plainOf (t : L.T) : Option (Except (Stop L.E) L.T) := andThen (valueOf L t) fun w =>
  match boxInner L w with
  | some u => valueOf L u
  | none => some (.ok w)

/-- An answer in so many turns, or none yet. -/
def inTime {E α : Type} (x : Option α) : Option (Except E α) := x.map .ok

/-- The texts of elements that have one. -/
def textsOf (n : Nat) : List L.T → Option (Except (Stop L.E) (List Str))
  | [] => some (.ok [])
  | t :: ts => andThen (plainOf L t) fun u => andThen (inTime (scalar L n u)) fun s =>
      andThen (textsOf n ts) fun rest => some (.ok (match s with
        | some s => s :: rest
        | none => rest))

/-- The text of a field. -/
def fieldOf (n : Nat) (t : L.T) : Option (Except (Stop L.E) (Option Str)) := andThen (plainOf L t) fun u =>
  if isList L u then
    andThen (inTime (elements L n u)) fun es => andThen (textsOf L n es) fun parts =>
      some (.ok (if parts.isEmpty then none else some (joinNul parts)))
  else inTime (scalar L n u)

/-- The texts of all fields. -/
def fieldsOf (n : Nat) : List (Str × L.T) → Fields → Option (Except (Stop L.E) Fields)
  | [], fs => some (.ok fs)
  | (k, t) :: rest, fs => andThen (fieldOf L n t) fun s => fieldsOf n rest ((k, s) :: fs)

/-- The fields of a block. -/
def rawOf (n : Nat) (t : L.T) : Option (Except (Stop L.E) (List (Str × L.T))) := match L.look t with
  | .block es => inTime (entries L n es)
  | _ => some (.error .panic)

/-- The command that an action asks for, in so many turns. -/
def specOf (n : Nat) (t : L.T) : Option (Except (Stop L.E) Spec) :=
  andThen (valueOf L (peel L 64 t)) fun b => andThen (rawOf L n b) fun raw => andThen (fieldsOf L n raw []) fun fs =>
    some (actionSpec (peelTag L 64 t) fs)

/-- What a failure says, in so many turns. -/
def failureOf (n : Nat) (t : L.T) : Option Str := match valueOf L t with
  | none => none
  | some (.error _) => some "IO monad failure".toList
  | some (.ok u) => (scalar L n u).map (·.getD "IO monad failure".toList)

end Reading

/-- The values the driver builds are what they should be: `IoReturn` built is `IoReturn` when it is evaluated. -/
def Sound (L : Lang) : Prop := ∀ w v, ∃ u, L.eval (L.ioReturn w v) = some (.ok u) ∧ L.look u = .ret w v

/-- **What a program does.**  `Runs L os allow h t h' r`: when the commands `h` have been run, to run `t` is to run further
commands, after which those run are `h'`, and the outcome is `r`. -/
inductive Runs (L : Lang) (os : Os L.E) (allow : Bool) : List Spec → L.T → List Spec → Except (Stop L.E) L.T → Prop where
  /-- A program that fails fails. -/
  | err {h t e} : L.eval t = some (.error e) → Runs L os allow h t h (.error (.machine e))
  /-- Something that is not an action cannot be run. -/
  | plain {h t u} : L.eval t = some (.ok u) → (L.look u).isIo = false → Runs L os allow h t h (.error .panic)
  /-- `return v` is `v`. -/
  | ret {h t u w v} : L.eval t = some (.ok u) → L.look u = .ret w v → Runs L os allow h t h (.ok v)
  /-- A failure fails. -/
  | fail {h t u w e n msg} : L.eval t = some (.ok u) → L.look u = .fail w e → failureOf L n e = some msg →
      Runs L os allow h t h (.error (.failed msg))
  /-- An action that is not allowed is not done. -/
  | denied {h t u w s} : L.eval t = some (.ok u) → L.look u = .act w s → allow = false →
      Runs L os allow h t h (.error .denied)
  /-- An action that asks for no command is an error. -/
  | bad {h t u w s n e} : L.eval t = some (.ok u) → L.look u = .act w s → allow = true →
      specOf L n s = some (.error e) → Runs L os allow h t h (.error e)
  /-- A command that cannot be run, or takes too long, is an error. -/
  | broken {h t u w s n sp e} : L.eval t = some (.ok u) → L.look u = .act w s → allow = true →
      specOf L n s = some (.ok sp) → os h sp = .error e → Runs L os allow h t (h ++ [sp]) (.error e)
  /-- A command gives its result. -/
  | act {h t u w s n sp r} : L.eval t = some (.ok u) → L.look u = .act w s → allow = true →
      specOf L n s = some (.ok sp) → os h sp = .ok r → Runs L os allow h t (h ++ [sp]) (.ok (L.result r))
  /-- First one and then, with what it gave, the other. -/
  | bind {h t u w k a h₁ v h₂ r} : L.eval t = some (.ok u) → L.look u = .bind w k a →
      Runs L os allow h (L.app1 a w) h₁ (.ok v) → Runs L os allow h₁ (L.app2 k v w) h₂ r → Runs L os allow h t h₂ r
  /-- If the first fails the other is not run. -/
  | cut {h t u w k a h₁ e} : L.eval t = some (.ok u) → L.look u = .bind w k a →
      Runs L os allow h (L.app1 a w) h₁ (.error e) → Runs L os allow h t h₁ (.error e)

/-- Written out, a value is what `render` makes of it. -/
inductive Shows (L : Lang) (v : L.T) : Except (Stop L.E) L.T → Prop where
  | ok {d} : L.eval (L.render v) = some (.ok d) → Shows L v (.ok d)
  | err {e} : L.eval (L.render v) = some (.error e) → Shows L v (.error (.machine e))

/-- **What a whole program does.**  If it is an action, or a function that makes one when it is given a world, the action is
run and its result is written out; if not, what it is is written out. -/
inductive Whole (L : Lang) (os : Os L.E) (allow : Bool) (root : L.T) : List Spec → Except (Stop L.E) L.T → Prop where
  | err {e} : L.eval root = some (.error e) → Whole L os allow root [] (.error (.machine e))
  | act {u h v d} : L.eval root = some (.ok u) → (L.look u).isIo = true → Runs L os allow [] root h (.ok v) →
      Shows L v d → Whole L os allow root h d
  | actErr {u h e} : L.eval root = some (.ok u) → (L.look u).isIo = true → Runs L os allow [] root h (.error e) →
      Whole L os allow root h (.error e)
  | doc {u d} : L.eval root = some (.ok u) → (L.look u).isIo = false → L.isFun u = false → Shows L u d →
      Whole L os allow root [] d
  | fnErr {u e} : L.eval root = some (.ok u) → (L.look u).isIo = false → L.isFun u = true →
      L.eval (L.app1 u L.unit) = some (.error e) → Whole L os allow root [] (.error (.machine e))
  | fnDoc {u u' d} : L.eval root = some (.ok u) → (L.look u).isIo = false → L.isFun u = true →
      L.eval (L.app1 u L.unit) = some (.ok u') → (L.look u').isIo = false → Shows L u' d → Whole L os allow root [] d
  | fn {u u' h v d} : L.eval root = some (.ok u) → (L.look u).isIo = false → L.isFun u = true →
      L.eval (L.app1 u L.unit) = some (.ok u') → (L.look u').isIo = true →
      Runs L os allow [] (L.app1 u L.unit) h (.ok v) → Shows L v d → Whole L os allow root h d
  | fnActErr {u u' h e} : L.eval root = some (.ok u) → (L.look u).isIo = false → L.isFun u = true →
      L.eval (L.app1 u L.unit) = some (.ok u') → (L.look u').isIo = true →
      Runs L os allow [] (L.app1 u L.unit) h (.error e) → Whole L os allow root h (.error e)

/-- `t` is `return(v)`: given a world it is the value `v`. -/
def IsReturn (L : Lang) (t v : L.T) : Prop := ∀ w, ∃ u, L.eval (L.app1 t w) = some (.ok u) ∧ L.look u = .ret w v

/-- `t` is `bind(a, k)`. -/
def IsBind (L : Lang) (t a k : L.T) : Prop := ∀ w, ∃ u, L.eval (L.app1 t w) = some (.ok u) ∧ L.look u = .bind w k a

/-! ## What the program says -/

/-- `t` is the text `s`. -/
def IsText (L : Lang) (t : L.T) (s : Str) : Prop :=
  ∃ u, L.eval t = some (.ok u) ∧ (L.look u = .native (some s) ∨ ∃ i, L.look u = .box i ∧ L.look i = .native (some s))

/-- `t` is a list of the texts `ss`: that is what there is when it is evaluated all the way. -/
inductive IsTexts (L : Lang) : L.T → List Str → Prop where
  | nil {t u} : L.eval t = some (.ok u) → L.look u = .nil → IsTexts L t []
  | cons {t u h s x xs} : L.eval t = some (.ok u) → L.look u = .cons h s → IsText L h x → IsTexts L s xs →
      IsTexts L t (x :: xs)

/-- The list `t` is there already, as far as it goes: it is a list and so are its tails, without any of them being
evaluated. -/
inductive Built (L : Lang) : L.T → Prop where
  | nil {t} : L.look t = .nil → Built L t
  | cons {t h s} : L.look t = .cons h s → Built L s → Built L t

end Verif.Io
