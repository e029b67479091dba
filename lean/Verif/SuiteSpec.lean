import Verif.SuiteModel

/-!
# What is expected of targets and of the test runner

Said of targets, outcomes and exit codes, without the evidence files in between.
-/

namespace Verif.Suite

/-- The only target of that name. -/
def Only (ts : List Target) (n : Str) : Prop :=
  ∀ t ∈ ts, ∀ t' ∈ ts, t.name = n → t'.name = n → t = t'

/-- A target is run as part of a test file: the file's own tests and benchmarks, its main target, and
any with checks. -/
inductive Runs (s : Subject) : Target → Prop
  | own {t} : t ∈ s.targets → t ∈ s.own → ("test".toList <+: t.name ∨ "bench-".toList <+: t.name) →
      Runs s t
  | main {t} : t ∈ s.targets → t.name = "main".toList → Runs s t
  | checked {t} : t ∈ s.targets → ¬ "test".toList <+: t.name → ¬ "bench-".toList <+: t.name →
      t.checks ≠ [] → Runs s t

/-- The result says that all is well. -/
inductive Good : Val → Prop
  | bare : Good (.bool true)
  | named {ms v} : Val.member ms "RESULT".toList = some v → (v = .bool true ∨ v = .text "PASS".toList) →
      Good (.block ms)
  | each {ms} : (∀ v, ("RESULT".toList, v) ∉ ms) → (∀ m ∈ ms, m.2 = .bool true) → Good (.block ms)

/-- No line tells of an expectation that failed. -/
def Quiet (ls : List Str) : Prop := ∀ l ∈ ls, ¬ "EXPECT FAILED".toList <:+: l

/-- A check is passed. -/
inductive Holds (w : World) (c : Content) : Str → Prop
  | default : Quiet c.err → Good c.result → Holds w c "default-expectation".toList
  | unguarded : Good c.result → Holds w c "unguarded-expectation".toList
  | bench : Holds w c "bench-expectation".toList
  | own {k f} : k ∉ ["default-expectation".toList, "unguarded-expectation".toList,
        "bench-expectation".toList, "compute-verdict".toList, "has-assertion-failure?".toList] →
      w.fn k = some f → f c = some (.text "PASS".toList) → Holds w c k

/-- What a check is given of an outcome. -/
inductive Seen : Outcome → Content → Prop
  | done {o n v} : o.code = some n → o.shown = some v → Seen o ⟨n, o.out, o.err, v⟩
  | failed {o} : o.code = none →
      Seen o ⟨1, o.out, o.err, .block [("RESULT".toList, .text "FAIL".toList)]⟩

/-- A check that is to be made for a target. -/
inductive Checked (t : Target) : Str → Prop
  | named {k} : k ∈ t.checks → Checked t k
  | bench : t.checks = [] → "bench-".toList <+: t.name → Checked t "bench-expectation".toList
  | default : t.checks = [] → ¬ "bench-".toList <+: t.name → Checked t "default-expectation".toList

/-- Where a target is: the whole file if it has no name. -/
def place (t : Target) : Option (List Str) := if t.name = [] then none else some t.path

/-- The target itself, run in the format, passes every check. -/
def Passes (w : World) (t : Target) (f : Str) : Prop :=
  ∃ o c, w.run (place t) f = some o ∧ Seen o c ∧ ∀ k, Checked t k → Holds w c k

/-- The formats in which a target is run. -/
inductive In (s : Subject) (t : Target) : Str → Prop
  | own {f} : t.format = some f → In s t f
  | given {f} : t.format = none → f ∈ s.formats → In s t f
  | yaml : t.format = none → s.formats = [] → In s t "yaml".toList

/-- A test file passes: every target that is to be run does, or the whole file if there are none. -/
def Passed (s : Subject) (w : World) : Prop :=
  (∀ t f, Runs s t → In s t f → Passes w t f) ∧
  ((∀ t, ¬ Runs s t) → ∀ f, In s Target.whole f → Passes w Target.whole f)

/-- The order of targets is any order of the targets there are. -/
structure Fair (s : Subject) (w : World) : Prop where
  order : ∀ i, (w.order i).Perm s.targets
  verify : verifyTarget ∈ w.checking

/-- Targets have names of their own, and formats are plain. -/
structure Tidy (s : Subject) (w : World) : Prop where
  names : (s.targets.map (·.name)).Nodup
  named : ∀ t ∈ s.targets, t.name ≠ [] ∧ t.path ≠ []
  formats : s.formats.Nodup
  plain : ∀ f ∈ s.formats, '-' ∉ f
  plains : ∀ t ∈ s.targets, ∀ f, t.format = some f → '-' ∉ f
  verify : Only w.checking "verify".toList

/-- What is left out. -/
def Left (allow : Bool) (s : Subject) : Prop := s.needsIo = true ∧ allow = false

end Verif.Suite
