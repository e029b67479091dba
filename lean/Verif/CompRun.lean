import Verif.CompProps
import Verif.MachProps
import Verif.OptProps

/-!
# From a core expression to what the machine gives

The compiler (`CompProps`), the optimiser (`OptProps`) and the machine (`MachProps`) together.
-/

namespace Verif.Comp
open Verif.Bc Verif.Mach Scope
variable {K : Type}

/-- The code is what the compiler makes of `x`, or what the optimiser makes of that. -/
inductive Makes (cfg : Config K) (x : Exp K) : Bool → Syn K → Prop where
  | plain {c} : compile cfg x = .ok c → Makes cfg x false c
  | optimised {c c'} : compile cfg x = .ok c → Opt.quiet [] c = true → Opt.unforced c = true → Opt.optimise c = some c' →
      Makes cfg x true c'

/-- Whatever of a core expression can be seen can be seen of its code, optimised or not, and nothing else. -/
theorem makes_shows_partial (cfg : Config K) (W : World K) (x : Exp K) (o : Bool) (c : Syn K) (F : Fits cfg W)
    (ht : Tables cfg W.sem.globals.length) (hm : Mild cfg) (hu : unmarked x = true) (hh : cfg.render = .headless)
    (h : Makes cfg x o c) (p : List Nat) (s : Sem.Seen K) : Opt.Shows W.sem c p s ↔ Shows W x p s := by
  cases h with
  | plain h => exact compile_shows_partial cfg W x c F hm hu hh h p s
  | optimised h hq hf ho =>
    exact (Opt.optimise_shows_partial W.sem _ _ F.wf (compile_scoped cfg _ x _ ht h) hq hf ho p s).symm.trans
      (compile_shows_partial cfg W x _ F hm hu hh h p s)

variable (cfg : Config K) (W : World K) (P : Mach.Prog K) (x : Exp K) (o : Bool) (c : Syn K) (F : Fits cfg W)
  (ht : Tables cfg W.sem.globals.length) (hm : Mild cfg) (hu : unmarked x = true) (hh : cfg.render = .headless)
  (hP : P.toWorld = W.sem) (h : Makes cfg x o c) (fuel : Nat) (hf : FairRun P fuel (init P c))
include F ht hm hu hh hP h hf

/-- A value the machine ends with is the value of the core expression. -/
theorem run_value_partial (n : Nat) (s : State K) (hr : run P fuel n (init P c) = some (.value s)) :
    ∃ v, showOf s.cur = some v ∧ Shows W x [] v := by
  obtain ⟨v, hv, hm'⟩ := machine_value_partial P c fuel n s hf hr
  rw [hP] at hm'
  exact ⟨v, hv, (makes_shows_partial cfg W x o c F ht hm hu hh h [] v).1 hm'⟩

/-- An error it ends with is the error the core expression is in, unless it is one of the machine's limits or a black
hole. -/
theorem run_error_partial (n : Nat) (e : Sem.Err) (hr : run P fuel n (init P c) = some (.error e))
    (hl : Mach.Err.limit e = false) (hne : e ≠ .hole) : Shows W x [] (.error e) := by
  have hm' := machine_error_partial P c fuel n e hf hr hl hne
  rw [hP] at hm'
  exact (makes_shows_partial cfg W x o c F ht hm hu hh h [] _).1 hm'

/-- And if the core expression has a value or is in error, the machine ends. -/
theorem run_complete_partial (v : Sem.Seen K) (hv : Shows W x [] v) :
    (∃ n s, run P fuel n (init P c) = some (.value s) ∧ showOf s.cur = some v) ∨
    (∃ n e, run P fuel n (init P c) = some (.error e) ∧ (v = .error e ∨ Mach.Err.limit e = true ∨ e = .hole)) := by
  refine machine_complete_partial P c fuel v hf ?_
  rw [hP]
  exact (makes_shows_partial cfg W x o c F ht hm hu hh h [] v).2 hv

omit F ht hm hu hh hP h hf

/-! ### An example -/

/-- The machine for the surroundings of the examples. -/
def demoMachine : Mach.Prog Nat := { demo.sem with peel := true }

/-- Compiled and optimised, the code of the example runs fairly. -/
def sampleRuns : Bool :=
  match compile demoCfg sample with
  | .ok c => Opt.quiet [] c && Opt.unforced c && match Opt.optimise c with
    | some c' => fairFor demoMachine 5 100 (init demoMachine c') && (run demoMachine 5 100 (init demoMachine c')).any fun o =>
      match o with
      | .value _ => true
      | .error _ => false
    | none => false
  | .error _ => false

/-- It meets the hypotheses of the theorems, optimised, and the machine ends with a value: so that is what it means. -/
example : ∃ c n s v, Makes demoCfg sample true c ∧ FairRun demoMachine 5 (init demoMachine c) ∧
    run demoMachine 5 n (init demoMachine c) = some (.value s) ∧ showOf s.cur = some v ∧ Shows demo sample [] v := by
  have h : sampleRuns = true := by decide +kernel
  unfold sampleRuns at h
  split at h
  · rename_i c hc
    simp only [Bool.and_eq_true] at h
    obtain ⟨⟨hq, hu⟩, h⟩ := h
    split at h
    · rename_i c' ho
      simp only [Bool.and_eq_true, Option.any_eq_true_iff_get] at h
      obtain ⟨hfr, hs, hr⟩ := h
      have hmk : Makes demoCfg sample true c' := .optimised hc hq hu ho
      have hf := fairFor_run hfr
      obtain ⟨o, ho⟩ := Option.isSome_iff_exists.1 hs
      cases o with
      | error e => simp [ho] at hr
      | value s =>
        obtain ⟨v, hv, hv'⟩ := run_value_partial demoCfg demo demoMachine sample true c' demo_fits demo_tables demo_mild
          (by decide +kernel) rfl rfl hmk 5 hf _ s ho
        exact ⟨c', _, s, v, hmk, hf, ho, hv, hv'⟩
    · cases h
  · cases h

end Verif.Comp
