import Verif.OptSound
import Verif.OptScope

/-!
# The optimiser keeps what a program shows

`src/eval/stg/optimiser.rs`.
-/

namespace Verif.Opt
open Verif.Bc Verif.Sem
variable {K : Type}

/-! ## C53: the optimiser does not fall over -/

/-- A well-formed program is always optimised to something. -/
theorem optimise_total (g d : Nat) (c : Syn K) (h : wf g d c = true) : optimise c ≠ none := by
  obtain ⟨c', h⟩ := opt_some (st := []) h
  simp [optimise, h]

/-- A case with a branch for a tag that is no constructor's brings it down. -/
theorem optimise_panics : optimise (.case (.hole : Syn K) (.cons 200 .hole .nil) .none) = none := by
  simp [optimise, opt, optCase, forces, tagArity, optBrs, optFb]

/-! ## C54: the optimised program shows what the program shows -/

theorem root_rel {P : World K} {lax : Bool} {root c' : Syn K} (hr : wf P.globals.length 0 root = true)
    (hq : quiet [] root = true) (hl : lax = true ∨ unforced root = true) (ho : optimise root = some c') :
    OV P ⟨P.globals.length, lax⟩ (.clo 0 root .nil) (.clo 0 c' .nil) :=
  .code .nil (opt_rel (M := ⟨P.globals.length, lax⟩) hr hq hl ho)

/-- Without a case that has one branch without fields for its only alternative, and where no constructor's arguments are
renamed twice to effect, the program and the optimised program show the same: the same values and the same errors, at the
top and however far down one looks, and one of them runs for ever where the other does. -/
theorem optimise_shows_partial (P : World K) (root c' : Syn K) (hP : WfWorld P) (hr : wf P.globals.length 0 root = true)
    (hq : quiet [] root = true) (hu : unforced root = true) (ho : optimise root = some c') (p : List Nat) (s : Seen K) :
    Shows P root p s ↔ Shows P c' p s := by
  have W := Worlds.self hP false
  have hv := root_rel (lax := false) hr hq (.inr hu) ho
  refine ⟨fun h => finds_fwd W hv h (.inl rfl), fun h => ?_⟩
  rcases finds_bwd W hv h with h | ⟨h, _⟩
  · exact h
  · cases h

/-- With such cases as well: what the program shows that is no error the optimised program shows too. -/
theorem optimise_value_partial (P : World K) (root c' : Syn K) (hP : WfWorld P) (hr : wf P.globals.length 0 root = true)
    (hq : quiet [] root = true) (ho : optimise root = some c') (p : List Nat) (s : Seen K) (hs : ∀ x, s ≠ .error x)
    (h : Shows P root p s) : Shows P c' p s :=
  finds_fwd (Worlds.self hP true) (root_rel (lax := true) hr hq (.inl rfl) ho) h (.inr hs)

/-- And what the optimised program shows the program shows too, unless on the way there it is in error. -/
theorem optimise_back_partial (P : World K) (root c' : Syn K) (hP : WfWorld P) (hr : wf P.globals.length 0 root = true)
    (hq : quiet [] root = true) (ho : optimise root = some c') (p : List Nat) (s : Seen K) (h : Shows P c' p s) :
    Shows P root p s ∨ ∃ q x, q <+: p ∧ Shows P root q (.error x) := by
  rcases finds_bwd (Worlds.self hP true) (root_rel (lax := true) hr hq (.inl rfl) ho) h with h | ⟨_, h⟩
  · exact .inl h
  · exact .inr h

/-! ### A run of the whole -/

/-- Surroundings for the examples: no globals, and the one intrinsic gives its first native back. -/
def bare : World Nat := ⟨[], 0, fun _ ks => match ks with
  | k :: _ => .ok (.atom (.v k))
  | [] => .error 0⟩

theorem bare_wf : WfWorld bare := by
  refine ⟨by simp [bare], fun id ks c h => ?_⟩
  cases ks with
  | nil => simp [bare] at h
  | cons k ks => simp [bare] at h; subst h; rfl

/-- A let that only renames, which goes, and a case on a known constructor with a literal among its arguments, which
becomes a let. -/
def sample : Syn Nat :=
  .let_ (.cons .value (.atom (.v 10)) (.cons .value (.atom (.v 11)) .nil))
    (.seq (.let_ (.cons .thunk (.atom (.l 1)) .nil) (.atom (.l 0)))
      (.case (.cons 7 [.l 1, .v 5]) (.cons 7 (.cons 8 [.l 1, .l 0]) (.cons 6 (.atom (.v 0)) .nil)) .none))

/-- The example meets the hypotheses, and the optimiser does something to it. -/
example : wf bare.globals.length 0 sample = true ∧ quiet [] sample = true ∧ unforced sample = true ∧
    noLookup sample = true ∧ optimise sample = some
      (.let_ (.cons .value (.atom (.v 10)) (.cons .value (.atom (.v 11)) .nil))
        (.seq (.atom (.l 1))
          (.let_ (.cons .value (.atom (.l 1)) (.cons .value (.atom (.v 5)) .nil)) (.cons 8 [.l 1, .l 0])))) := by
  refine ⟨by decide +kernel, by decide +kernel, by decide +kernel, by decide +kernel, by rfl⟩

/-- Its second field is 11, before and so after. -/
example : Shows bare sample [1] (.native 11) ∧ ∃ c', optimise sample = some c' ∧ Shows bare c' [1] (.native 11) := by
  have h : Shows bare sample [1] (.native 11) := by
    refine ⟨20, _, 8, _, _, .l 0, _, rfl, rfl, rfl, rfl, ?_⟩
    exact ⟨5, .ok (.nat 11), rfl, rfl⟩
  exact ⟨h, _, rfl, (optimise_shows_partial bare sample _ bare_wf (by decide +kernel) (by decide +kernel)
    (by decide +kernel) rfl [1] _).1 h⟩

/-- A program with a case that asks for the one constructor without fields: it meets the hypotheses of the two theorems for
such programs but not of the first. -/
def asked : Syn Nat := .case (.cons 0 []) (.cons 0 (.cons 8 [.v 4, .v 5]) .nil) .none

example : unforced asked = false ∧ ∃ c', optimise asked = some c' ∧ Shows bare asked [0] (.native 4) ∧
    Shows bare c' [0] (.native 4) := by
  have h : Shows bare asked [0] (.native 4) := by
    refine ⟨20, _, 8, _, _, .v 4, _, rfl, rfl, rfl, rfl, ?_⟩
    exact ⟨5, .ok (.nat 4), rfl, rfl⟩
  exact ⟨rfl, _, rfl, h, optimise_value_partial bare asked _ bare_wf (by decide +kernel) (by decide +kernel) rfl [0] _
    (by simp) h⟩

/-! ### Where it does not hold -/

/-- A case whose only alternative is a branch without fields asks for that constructor and no other.  Once optimised it
asks for none: what was an error is now a value. -/
def onlyNil (k : K) : Syn K := .case (.cons 1 []) (.cons 0 (.atom (.v k)) .nil) .none

theorem optimise_forgets_tag (P : World K) (k : K) : ∃ c' x, optimise (onlyNil k) = some c' ∧
    Shows P (onlyNil k) [] (.error x) ∧ Shows P c' [] (.native k) ∧ ¬ Shows P (onlyNil k) [] (.native k) := by
  refine ⟨.case (.cons 1 []) .nil (.some (.atom (.v k))), .noBranchData 1, rfl, ⟨5, _, rfl, rfl⟩, ⟨5, _, rfl, rfl⟩, ?_⟩
  rintro ⟨n, r, h1, h2⟩
  obtain ⟨m, t⟩ := program_sound P h1
  obtain ⟨m', t'⟩ := program_sound P (m := 5) (v := .clo 0 (onlyNil k) .nil) (r := .error (.noBranchData 1)) rfl
  rw [(t.det t').2] at h2
  cases h2

/-- A constructor's arguments, renamed once, are renamed again when the case on it is folded away. -/
def renamed : Syn Nat :=
  .let_ (.cons .value (.atom (.v 10)) (.cons .value (.atom (.v 11)) .nil))
    (.let_ (.cons .value (.atom (.l 1)) .nil)
      (.case (.cons 8 [.l 0, .l 0]) (.cons 8 (.atom (.l 0)) .nil) .none))

theorem optimise_renames_twice : wf bare.globals.length 0 renamed = true ∧ unforced renamed = true ∧
    ∃ c', optimise renamed = some c' ∧ Shows bare renamed [] (.native 11) ∧ Shows bare c' [] (.native 10) ∧
      ¬ Shows bare c' [] (.native 11) := by
  refine ⟨by decide +kernel, by decide +kernel, _, rfl, ⟨9, _, rfl, rfl⟩, ⟨9, _, rfl, rfl⟩, ?_⟩
  rintro ⟨n, r, h1, h2⟩
  obtain ⟨m, t⟩ := program_sound bare h1
  obtain ⟨m', t'⟩ := program_sound bare (m := 9) (r := .ok (.nat 10))
    (v := .clo 0 (.let_ (.cons .value (.atom (.v 10)) (.cons .value (.atom (.v 11)) .nil)) (.atom (.l 0))) .nil) rfl
  rw [(t.det t').2] at h2
  cases h2

/-! ## C55: the optimised program has no dangling names -/

/-- Without literal lookups, and where no constructor's arguments are renamed twice to effect, the optimised program is as
well formed as the program: every name in it is in scope. -/
theorem optimise_scoped_partial (g : Nat) (root c' : Syn K) (hr : wf g 0 root = true) (hq : quiet [] root = true)
    (hn : noLookup root = true) (ho : optimise root = some c') : wf g 0 c' = true :=
  (opt_rel (M := ⟨g, true⟩) (d := 0) hr hq (.inl rfl) ho).scoped (fun i hi => absurd hi (by omega)) hr hn

/-- A literal lookup keeps the names it had, though the let that one of them counted past is gone. -/
def looked : Syn Nat :=
  .let_ (.cons .value (.atom (.v 10)) .nil)
    (.let_ (.cons .value (.atom (.l 0)) .nil) (.lookup 0 (.v 3) (.l 1) (.l 1)))

theorem optimise_dangles : wf 0 0 looked = true ∧ quiet [] looked = true ∧
    ∃ c', optimise looked = some c' ∧ wf 0 0 c' = false := by
  refine ⟨by decide +kernel, by decide +kernel, _, rfl, by decide +kernel⟩

end Verif.Opt
