/-!
# Targets and the test runner

Model of core/unit.rs (targets), core/analyse/testplan.rs, driver/tester.rs and lib/test.eu.

The targets of a unit are a `HashSet`; here they are a list, in the order in which the set happens to
be gone through, which differs from one run to the next.
-/

namespace Verif.Suite

abbrev Str := List Char

/-- `Target`, core/target.rs:16-28, without its documentation. -/
structure Target where
  name : Str
  format : Option Str
  path : List Str
  checks : List Str
  deriving DecidableEq, Repr

/-- `Target::is_benchmark`, core/target.rs:88-90. -/
def Target.bench (t : Target) : Bool := "bench-".toList.isPrefixOf t.name

/-- `Target::default`. -/
def Target.whole : Target := ⟨[], none, [], []⟩

/-! ## Which target is entered -/

/-- The errors of retargeting, core/unit.rs:151-160. -/
inductive NoTarget where
  | notFound
  | bad
  deriving DecidableEq

/-- `TranslationUnit::target`, core/unit.rs:51-53, and the search at core/unit.rs:152-157. -/
def pick (ts : List Target) (n : Str) : Option Target := ts.find? (fun t => t.name == n)

/-- `TranslationUnit::retarget`, core/unit.rs:151-169: the path that the body becomes. -/
def retarget (ts : List Target) (n : Str) : Except NoTarget (List Str) :=
  match pick ts n with
  | none => .error .notFound
  | some t => if t.path = [] then .error .bad else .ok t.path

/-- "Replace body with reference to target", driver/prepare.rs:191-198. `none` is the body as it was.
An expression to evaluate (`-e`) is left out. -/
def enter (ts : List Target) : Option Str → Except NoTarget (Option (List Str))
  | some n => (retarget ts n).map some
  | none => if ts.any (fun t => t.name == "main".toList)
      then (retarget ts "main".toList).map some else .ok none

/-- `determine_format`, driver/eval.rs:202-221. -/
def formatOf (given : Option Str) (ts : List Target) (n : Option Str) : Str :=
  ((given.or ((n.bind (pick ts)).bind (·.format))).or
    ((pick ts "main".toList).bind (·.format))).getD "yaml".toList

/-! ## Plans -/

/-- What is read from a test file: `TranslationUnit` and `TestHeaderMetadata`. -/
structure Subject where
  /-- the name of the file without its extension -/
  stem : Str
  targets : List Target
  own : List Target
  formats : List Str
  needsIo : Bool

/-- Whether a target is taken in, core/analyse/testplan.rs:260-266. -/
def included (s : Subject) (t : Target) : Bool :=
  if "test".toList.isPrefixOf t.name || t.bench then s.own.contains t
  else t.name == "main".toList || !t.checks.isEmpty

/-- The formats by default, core/analyse/testplan.rs:243-246. -/
def Subject.fmts (s : Subject) : List Str := if s.formats = [] then ["yaml".toList] else s.formats

/-- The formats of a target, core/analyse/testplan.rs:269-273. -/
def fmtsOf (s : Subject) (t : Target) : List Str :=
  match t.format with | some f => [f] | none => s.fmts

/-- `TestPlan::analyse`, core/analyse/testplan.rs:258-280. -/
def plan (s : Subject) : List (Target × List Str) :=
  let ts := (s.targets.filter (included s)).map fun t => (t, fmtsOf s t)
  if ts = [] then [(Target.whole, s.fmts)] else ts

/-! ## Running -/

/-- Data as read back. Symbols and strings are both `text`, as they are once written as YAML. -/
inductive Val where
  | bool (b : Bool)
  | text (s : Str)
  | null
  | other (n : Nat)
  | block (ms : List (Str × Val))

/-- `TestResult`, driver/tester.rs:243-256. `shown` is what the standard output reads as in the
format, `none` if it cannot be read. -/
structure Outcome where
  code : Option Nat
  out : List Str
  err : List Str
  shown : Option Val

/-- What a check is given: the block in the evidence, driver/tester.rs:391-416. -/
structure Content where
  exit : Nat
  out : List Str
  err : List Str
  result : Val

/-- What the rest of the program does. -/
structure World where
  /-- The order in which the set of targets is gone through when the run with this number is
  prepared: it is loaded anew for each. -/
  order : Nat → List Target
  /-- Loading and running with this path as body; `none` if it fails before it is run. -/
  run : Option (List Str) → Str → Option Outcome
  /-- The functions of the test file; they may themselves fail. -/
  fn : Str → Option (Content → Option Val)
  /-- The order of targets when the evidence is checked, those of the test library included. -/
  checking : List Target

/-- The name that is passed on, driver/options.rs:1193-1198. -/
def asked (t : Target) : Option Str := if t.name = [] then none else some t.name

/-- All combinations of targets and formats, the loops at driver/tester.rs:621-622. -/
def combos (p : List (Target × List Str)) : List (Target × Str) :=
  p.flatMap fun q => q.2.map fun f => (q.1, f)

/-- One run, driver/tester.rs:623-706. -/
def runOne (w : World) (i : Nat) (c : Target × Str) : Option Outcome :=
  match enter (w.order i) (asked c.1) with
  | .error _ => none
  | .ok p => w.run p c.2

/-- The loops of `InProcessTester::run`, driver/tester.rs:621-714. -/
def runAll (w : World) : Nat → List (Target × Str) → Option (List ((Target × Str) × Outcome))
  | _, [] => some []
  | i, c :: cs => match runOne w i c with
    | none => none
    | some o => (runAll w (i + 1) cs).map ((c, o) :: ·)

/-! ## Evidence -/

/-- The key in the evidence, driver/tester.rs:337-341 and 393. -/
def keyOf (c : Target × Str) : Str :=
  (if c.1.name = [] then "default".toList else c.1.name) ++ '-' :: c.2

/-- The checks to be made, driver/tester.rs:364-383. -/
def checksOf (t : Target) : List Str :=
  if t.checks = [] then
    (if t.bench then ["bench-expectation".toList] else ["default-expectation".toList])
  else t.checks

/-- The last with that key: the inputs are merged in order and the nearest binding of a name counts,
core/unit.rs:61-81. -/
def lastOf (rs : List ((Target × Str) × Outcome)) (k : Str) (ok : Outcome → Bool) : Option Outcome :=
  (rs.reverse.find? fun r => keyOf r.1 == k && ok r.2).map (·.2)

/-- The block for one run, driver/tester.rs:343-423. Standard output and error and the result are
referred to by name, and the names are made from the key. `none` if the output cannot be read. -/
def contentOf (rs : List ((Target × Str) × Outcome)) (r : (Target × Str) × Outcome) : Option Content :=
  let k := keyOf r.1
  match lastOf rs k (fun _ => true) with
  | none => none
  | some o =>
    match r.2.code with
    | none => some ⟨1, o.out, o.err, .block [("RESULT".toList, .text "FAIL".toList)]⟩
    | some n => match lastOf rs k (·.code.isSome) with
      | none => none
      | some o' => o'.shown.map fun v => ⟨n, o.out, o.err, v⟩

/-- Of members with the same name in a block the first counts: `close_expr_vars` takes the first
position, core/expr.rs:1578-1580, and the body's map has each name once, core/expr.rs:97-104. -/
def firsts {α : Type} : List (Str × α) → List (Str × α)
  | [] => []
  | (k, a) :: r => (k, a) :: (firsts r).filter fun q => q.1 != k

/-- Every output is loaded as an input, used or not, driver/tester.rs:418-423. -/
def readable (rs : List ((Target × Str) × Outcome)) : Bool :=
  rs.all fun r => r.2.code.isNone || r.2.shown.isSome

/-- `create_evidence_yaml`, driver/tester.rs:321-445. -/
def evidence (rs : List ((Target × Str) × Outcome)) : Option (List (Str × (List Str × Content))) :=
  if readable rs then
    (firsts (rs.map fun r => (keyOf r.1, r))).mapM fun q =>
      (contentOf rs q.2).map fun c => (q.1, (checksOf q.2.1.1, c))
  else none

/-! ## Checking -/

/-- A member of a block. -/
def Val.member (ms : List (Str × Val)) (k : Str) : Option Val := (ms.find? (·.1 == k)).map (·.2)

/-- `= true`. -/
def Val.isTrue : Val → Bool
  | .bool b => b
  | _ => false

/-- `compute-verdict`, lib/test.eu:28-36. -/
def verdict : Val → Val
  | .block ms => match Val.member ms "RESULT".toList with
    | some (.bool true) => .text "PASS".toList
    | some (.bool false) => .text "FAIL".toList
    | some v => v
    | none => if ms.all (fun m => m.2.isTrue) then .text "PASS".toList else .text "FAIL".toList
  | .bool true => .text "PASS".toList
  | .bool false => .text "FAIL".toList
  | _ => .null

/-- `str.contains?` for a text without special characters. -/
def contains (sub : Str) : Str → Bool
  | [] => sub.isPrefixOf []
  | c :: s => sub.isPrefixOf (c :: s) || contains sub s

/-- `has-assertion-failure?`, lib/test.eu:41. -/
def failedExpect (c : Content) : Bool := c.err.any (contains "EXPECT FAILED".toList)

/-- `lookup-across` and the call, lib/test.eu:100-103: the functions of the library come first. -/
def check (w : World) (c : Content) (k : Str) : Option Val :=
  if k = "default-expectation".toList then
    some (if failedExpect c then .text "FAIL".toList else verdict c.result)
  else if k = "unguarded-expectation".toList then some (verdict c.result)
  else if k = "bench-expectation".toList then some (.text "PASS".toList)
  else if k = "compute-verdict".toList then some (.text "FAIL".toList)
  else if k = "has-assertion-failure?".toList then some (.bool (failedExpect c))
  else match w.fn k with
    | some f => f c
    | none => some (.text "FAIL".toList)

/-- `is-pass?`, lib/test.eu:113. -/
def isPass : Val → Bool
  | .text s => s == "PASS".toList
  | _ => false

/-- `validate-test`, lib/test.eu:93-103: all that is checked for one entry. -/
def checkAll (w : World) (c : Content) : List Str → Option (List Val)
  | [] => some []
  | k :: ks => match check w c k, checkAll w c ks with
    | some v, some vs => some (v :: vs)
    | _, _ => none

/-- `verification.main` and `summary`, lib/test.eu:88-110. -/
def overall (w : World) : List (Str × (List Str × Content)) → Option Bool
  | [] => some true
  | (_, ks, c) :: r => match checkAll w c ks, overall w r with
    | some vs, some b => some (vs.all isPass && b)
    | _, _ => none

/-- The target of the library, lib/test.eu:86-88. -/
def verifyTarget : Target := ⟨"verify".toList, none, ["verification".toList, "main".toList], []⟩

/-- `run`, `validate` and `summary` for one plan, driver/tester.rs:186-188: `none` is an error. If
the test file has a target named `verify` as well, that may be the one that is entered; what it says
is not of the form expected. -/
def runPlan (w : World) (s : Subject) : Option Bool :=
  match runAll w 0 (combos (plan s)) with
  | none => none
  | some rs => match evidence rs with
    | none => none
    | some ev => if pick w.checking "verify".toList = some verifyTarget then overall w ev else none

/-! ## A whole run -/

inductive End where
  /-- the exit code, and what the report says of each test -/
  | exit (n : Nat) (report : List Bool)
  | error
  | panic
  deriving DecidableEq

/-- Whether a test is left out, driver/tester.rs:173. -/
def skipped (allow : Bool) (s : Subject) : Bool := s.needsIo && !allow

/-- The loop of `run_plans`, driver/tester.rs:160-194. `files` are the result files, newest first:
they are named by the stem of the test file, core/analyse/testplan.rs:218-223. -/
def loop (allow : Bool) : List (Subject × World) → Nat → List (Str × Bool) →
    Option (Nat × List (Str × Bool))
  | [], e, files => some (e, files)
  | (s, w) :: r, e, files =>
    if skipped allow s then loop allow r e files
    else match runPlan w s with
      | none => none
      | some b => loop allow r (if b then e else 1) ((s.stem, b) :: files)

/-- `InProcessTester::report`, driver/tester.rs:795-: the result files of all plans are read. -/
def readReports (files : List (Str × Bool)) : List (Subject × World) → Option (List Bool)
  | [] => some []
  | (s, _) :: r => match files.find? (·.1 == s.stem), readReports files r with
    | some p, some bs => some (p.2 :: bs)
    | _, _ => none

/-- `run_plans`, driver/tester.rs:156-204. -/
def runPlans (allow : Bool) (ps : List (Subject × World)) : End :=
  match loop allow ps 0 [] with
  | none => .error
  | some (e, files) =>
    if ps = [] then .panic
    else match readReports files ps with
      | none => .error
      | some bs => .exit e bs

/-! ## Error tests -/

/-- White space as taken off by `str::trim`, for ASCII. -/
def ws (c : Char) : Bool := c == ' ' || c == '\t' || c == '\n' || c == '\r' || c == '\x0b' || c == '\x0c'

/-- `str::trim`. -/
def trim (s : Str) : Str := ((s.dropWhile ws).reverse.dropWhile ws).reverse

/-- `str::lines`, without taking off a carriage return: `trim` does. -/
def lines (s : Str) : List Str := go [] s
where
  go (acc : Str) : Str → List Str
    | [] => if acc = [] then [] else [acc.reverse]
    | c :: r => if c = '\n' then acc.reverse :: go [] r else go (c :: acc) r

/-- `str::strip_prefix`. -/
def stripPrefix (p s : Str) : Option Str := if p.isPrefixOf s then some (s.drop p.length) else none

/-- Quotes around are taken off, core/analyse/testplan.rs:105-108. -/
def unquote (v : Str) : Str :=
  match v with
  | '"' :: r => match r.reverse with
    | '"' :: m => m.reverse
    | _ => v
  | _ => v

/-- Digits to a number. -/
def digits : Str → Nat → Option Nat
  | [], n => some n
  | c :: r, n => if c.isDigit then digits r (10 * n + (c.toNat - 48)) else none

/-- `str::parse::<i32>`. -/
def parseI32 (s : Str) : Option Int :=
  let range (n : Int) : Option Int := if -2147483648 ≤ n ∧ n ≤ 2147483647 then some n else none
  match s with
  | [] => none
  | ['+'] => none
  | ['-'] => none
  | '+' :: r => (digits r 0).bind fun n => range n
  | '-' :: r => (digits r 0).bind fun n => range (-n)
  | r => (digits r 0).bind fun n => range n

/-- `ErrorExpectation`, core/analyse/testplan.rs:39-44. -/
structure Expect where
  exit : Option Int
  pattern : Option Str
  deriving DecidableEq

/-- The loop of `ErrorExpectation::parse`, core/analyse/testplan.rs:90-111. -/
def parseLines : List Str → Expect → Option Expect
  | [], e => some e
  | l :: r, e =>
    let l := trim l
    if l = [] ∨ l.head? = some '#' then parseLines r e
    else match stripPrefix "exit:".toList l with
      | some v => match parseI32 (trim v) with
        | some n => parseLines r { e with exit := some n }
        | none => none
      | none => match stripPrefix "stderr:".toList l with
        | some v => parseLines r { e with pattern := some (unquote (trim v)) }
        | none => parseLines r e

/-- `ErrorExpectation::parse`, core/analyse/testplan.rs:86-121. -/
def parseExpect (s : Str) : Option Expect :=
  match parseLines (lines s) ⟨none, none⟩ with
  | some e => if e.exit.isNone && e.pattern.isNone then none else some e
  | none => none

/-- `ErrorExpectation::validate`, core/analyse/testplan.rs:59-77. `matches` is the regular expression
engine, `none` for a pattern that is not one. -/
def Expect.validate («matches» : Str → Str → Option Bool) (e : Expect) (exit : Int) (err : Str) : Bool :=
  (match e.exit with | some n => exit == n | none => true) &&
  (match e.pattern with | some p => «matches» p err == some true | none => true)

/-- `error_test_with_binary`, driver/tester.rs:51-106: the exit code. `sidecar` is the file if there
is one, and `run` what running gives: no code if it was ended by a signal. -/
def errorTest («matches» : Str → Str → Option Bool) (sidecar : Option Str) (run : Option Int × Str) :
    Option Nat :=
  match sidecar with
  | none => some 0
  | some s => match parseExpect s with
    | none => none
    | some e => some (if e.validate «matches» (run.1.getD 1) run.2 then 0 else 1)

end Verif.Suite
