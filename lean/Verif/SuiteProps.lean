import Verif.SuiteLemmas

/-!
# Targets and the test runner: the properties

* C101: the target that is entered is determined by the program and its name.
* C102: a test run ends with code 0 just when every test passes.
* C103: tests that are left out do not make a run fail.
* C104: the report says of each test what it came to.
* C105: which targets are run.
* C106: error tests.
-/

namespace Verif.Suite

/-! ## C101: the target that is entered -/

/-- Where there is one target of the name asked for, it is entered, in whatever order they are gone
through. -/
theorem enter_same_partial (ts ts' : List Target) (n : Option Str)
    (ho : Only ts (n.getD "main".toList)) (hp : ts.Perm ts') : enter ts n = enter ts' n :=
  enter_perm ho hp

/-- And the format is the same. -/
theorem format_same_partial (given : Option Str) (ts ts' : List Target) (n : Option Str)
    (ho : ∀ m, n = some m → Only ts m) (hm : Only ts "main".toList) (hp : ts.Perm ts') :
    formatOf given ts n = formatOf given ts' n := by
  unfold formatOf
  rw [pick_perm hm hp]
  cases n with
  | none => rfl
  | some m => simp only [Option.bind_some, pick_perm (ho m rfl) hp]

/-- It is the one of that name. -/
theorem enter_named (ts : List Target) (t : Target) (ht : t ∈ ts) (ho : Only ts t.name)
    (hp : t.path ≠ []) : enter ts (some t.name) = .ok (some t.path) := by
  simp only [enter, retarget, pick_only ho ht rfl, if_neg hp, Except.map]

/-- Whenever something is entered, it is at a target of that name; and there is an error for a name
that no target has. -/
theorem enter_sound (ts : List Target) (n : Str) :
    (∀ p, enter ts (some n) = .ok p → ∃ t ∈ ts, t.name = n ∧ p = some t.path) ∧
    ((∀ t ∈ ts, t.name ≠ n) ↔ enter ts (some n) = .error .notFound) := by
  cases hp : pick ts n with
  | none =>
    have e : enter ts (some n) = .error .notFound := by simp only [enter, retarget, hp]; rfl
    rw [e]
    refine ⟨fun p h => (by cases h), fun _ => rfl, fun _ => pick_none hp⟩
  | some t =>
    have ht := pick_some hp
    by_cases hq : t.path = []
    · have e : enter ts (some n) = .error .bad := by simp only [enter, retarget, hp, if_pos hq]; rfl
      rw [e]
      refine ⟨fun p h => (by cases h), fun h => absurd ht.2 (h t ht.1), fun h => (by cases h)⟩
    · have e : enter ts (some n) = .ok (some t.path) := by
        simp only [enter, retarget, hp, if_neg hq]; rfl
      rw [e]
      refine ⟨fun p h => ?_, fun h => absurd ht.2 (h t ht.1), fun h => (by cases h)⟩
      injection h with h
      exact ⟨t, ht.1, ht.2, h.symm⟩

/-- Two targets named `main`, the one in the file and the other in a file imported by it. -/
def mains : List Target :=
  [⟨"main".toList, none, ["a".toList], []⟩, ⟨"main".toList, none, ["b".toList], []⟩]

/-- In general it is not determined: with two of the same name, which is entered depends on the order
in which a hash set is gone through, which differs between runs of the same program. -/
theorem enter_same_false : ¬ ∀ (ts ts' : List Target) (n : Option Str), ts.Perm ts' →
    enter ts n = enter ts' n := by
  intro h
  have := h mains mains.reverse none (List.reverse_perm _).symm
  have h1 : enter mains none = .ok (some ["a".toList]) := rfl
  have h2 : enter mains.reverse none = .ok (some ["b".toList]) := rfl
  rw [h1, h2] at this
  injection this with this
  revert this
  decide

example : Only [⟨"x".toList, some "json".toList, ["a".toList], []⟩,
    ⟨"y".toList, none, ["b".toList, "c".toList], []⟩] "y".toList := by
  intro t ht t' ht' h h'
  simp only [List.mem_cons, List.not_mem_nil, or_false] at ht ht'
  rcases ht with rfl | rfl <;> rcases ht' with rfl | rfl <;> first | rfl | (revert h; decide) | (revert h'; decide)

/-! ## C102: the exit code -/

/-- Where the targets of each test file have names of their own and none is left out, a run ends with
code 0 just when every target of every file passes all its checks in every format. -/
theorem exit_zero_partial (allow : Bool) (ps : List (Subject × World)) (hne : ps ≠ [])
    (hf : ∀ p ∈ ps, Fair p.1 p.2) (ht : ∀ p ∈ ps, Tidy p.1 p.2) (hl : ∀ p ∈ ps, ¬ Left allow p.1) :
    (∃ bs, runPlans allow ps = .exit 0 bs) ↔ ∀ p ∈ ps, Passed p.1 p.2 := by
  have hsk : ∀ p ∈ ps, skipped allow p.1 = false := by
    intro p hp
    cases h : skipped allow p.1 with
    | false => rfl
    | true => exact absurd ((skipped_iff _ _).1 h) (hl p hp)
  have hpass : (∀ p ∈ ps, Passed p.1 p.2) ↔ ∀ p ∈ ps, runPlan p.2 p.1 = some true := by
    constructor
    · intro h p hp
      exact (runPlan_iff (hf p hp) (ht p hp)).2 ((passed_iff _ _).2 (h p hp))
    · intro h p hp
      exact (passed_iff _ _).1 ((runPlan_iff (hf p hp) (ht p hp)).1 (h p hp))
  rw [hpass]
  by_cases hr : ∀ p ∈ ps, ∃ b, runPlan p.2 p.1 = some b
  · obtain ⟨e, fs, h1, h2, h3, h4, _⟩ := loop_all ps 0 [] hsk hr
    rw [List.append_nil] at h1
    have hfiles : ∀ p ∈ ps, ∃ f ∈ fs, f.1 = p.1.stem := by
      intro p hp
      obtain ⟨b, hb⟩ := hr p hp
      have : some (p.1.stem, b) ∈ fs.map (fun f => some f) := by
        rw [h2, List.mem_reverse]
        exact List.mem_map.2 ⟨p, hp, by rw [hb]; rfl⟩
      obtain ⟨f, hff, e⟩ := List.mem_map.1 this
      injection e with e
      exact ⟨f, hff, by rw [e]⟩
    obtain ⟨bs, hbs⟩ := readReports_some hfiles
    simp only [runPlans, h1, if_neg hne, hbs, End.exit.injEq]
    constructor
    · rintro ⟨_, he, _⟩ p hp
      by_cases hc : runPlan p.2 p.1 = some true
      · exact hc
      · rw [h4 ⟨p, hp, hc⟩] at he
        cases he
    · intro h
      exact ⟨bs, h3 h, rfl⟩
  · have hn : ∃ p ∈ ps, skipped allow p.1 = false ∧ runPlan p.2 p.1 = none := by
      apply Classical.byContradiction
      intro hc
      refine hr fun p hp => ?_
      cases h : runPlan p.2 p.1 with
      | some b => exact ⟨b, rfl⟩
      | none => exact absurd ⟨p, hp, hsk p hp, h⟩ hc
    simp only [runPlans, loop_none ps 0 [] hn]
    constructor
    · rintro ⟨_, h⟩; cases h
    · intro h
      obtain ⟨p, hp, _, hn⟩ := hn
      rw [h p hp] at hn
      cases hn

/-- What a check comes to. -/
theorem check_holds (w : World) (c : Content) (k : Str) :
    (∃ v, check w c k = some v ∧ isPass v = true) ↔ Holds w c k := check_iff w c k

/-- A run that fails does not pass by default. -/
theorem failed_fails (w : World) (t : Target) (f : Str) (o : Outcome) (hr : w.run (place t) f = some o)
    (hc : o.code = none) (hd : Checked t "default-expectation".toList) : ¬ Passes w t f := by
  rintro ⟨o', c, h, hs, hk⟩
  rw [hr] at h
  injection h with h
  subst h
  cases hs with
  | done h => rw [hc] at h; cases h
  | failed =>
    have := hk _ hd
    generalize hkk : "default-expectation".toList = k at this
    cases this with
    | default _ hg =>
      cases hg with
      | named hm hv =>
        have : Val.member [("RESULT".toList, Val.text "FAIL".toList)] "RESULT".toList =
            some (.text "FAIL".toList) := rfl
        rw [this] at hm
        injection hm with hm
        subst hm
        rcases hv with hv | hv
        · cases hv
        · exact absurd (by injection hv) fail_ne
      | each hn => exact hn _ List.mem_cons_self
    | unguarded => revert hkk; decide
    | bench => revert hkk; decide
    | own hk' => exact hk' (by rw [← hkk]; exact List.mem_cons_self)

/-- Two tests of the same name, the second of which fails. -/
def twice : Subject where
  stem := "t".toList
  targets := [⟨"test-a".toList, none, ["a".toList], []⟩, ⟨"test-a".toList, none, ["b".toList], []⟩]
  own := [⟨"test-a".toList, none, ["a".toList], []⟩, ⟨"test-a".toList, none, ["b".toList], []⟩]
  formats := []
  needsIo := false

def twiceWorld : World where
  order _ := twice.targets
  run p _ := some ⟨some 0, [], [], some (.bool (p == some ["a".toList]))⟩
  fn _ := none
  checking := [verifyTarget]

/-- In general it does not: of two tests of the same name only one is run, and if that is the one
that passes so does the file. -/
theorem exit_zero_false : ¬ ∀ (allow : Bool) (ps : List (Subject × World)), ps ≠ [] →
    (∀ p ∈ ps, Fair p.1 p.2) → (∀ p ∈ ps, ¬ Left allow p.1) → (∃ bs, runPlans allow ps = .exit 0 bs) →
    ∀ p ∈ ps, Passed p.1 p.2 := by
  intro h
  have h1 : Passed twice twiceWorld := h true [(twice, twiceWorld)] (by simp)
    (by
      intro p hp
      rw [List.mem_singleton] at hp
      subst hp
      exact ⟨fun _ => .refl _, List.mem_singleton.2 rfl⟩)
    (by rintro p _ ⟨_, h⟩; cases h) ⟨[true], by decide +kernel⟩ _ (List.mem_singleton.2 rfl)
  have h2 : Passes twiceWorld ⟨"test-a".toList, none, ["b".toList], []⟩ "yaml".toList :=
    h1.1 _ _ (.own (by simp [twice]) (by simp [twice]) (.inl ⟨"-a".toList, rfl⟩)) (.yaml rfl rfl)
  obtain ⟨o, c, ho, hs, hk⟩ := h2
  have hk := hk _ (.default rfl (by decide))
  have ho' : o = ⟨some 0, [], [], some (.bool false)⟩ := by
    have : twiceWorld.run (place ⟨"test-a".toList, none, ["b".toList], []⟩) "yaml".toList =
        some ⟨some 0, [], [], some (.bool false)⟩ := by
      simp [twiceWorld, place]
    rw [this] at ho
    injection ho with ho
    exact ho.symm
  subst ho'
  obtain ⟨v, hv, hp⟩ := (check_iff _ _ _).2 hk
  cases hs with
  | done h1 h2 =>
    simp only [Option.some.injEq] at h2
    subst h2
    injection hv with hv
    subst hv
    simp [failedExpect, verdict, isPass] at hp
  | failed h => cases h

/-- A file with two tests and a benchmark of names of their own, all of which pass. -/
def tidy : Subject where
  stem := "u".toList
  targets := [⟨"test-a".toList, none, ["a".toList], []⟩,
    ⟨"test-b".toList, some "json".toList, ["b".toList], ["mine".toList]⟩,
    ⟨"bench-c".toList, none, ["c".toList], []⟩]
  own := [⟨"test-a".toList, none, ["a".toList], []⟩,
    ⟨"test-b".toList, some "json".toList, ["b".toList], ["mine".toList]⟩,
    ⟨"bench-c".toList, none, ["c".toList], []⟩]
  formats := ["yaml".toList, "toml".toList]
  needsIo := false

def tidyWorld : World where
  order i := if i % 2 = 0 then tidy.targets else tidy.targets.reverse
  run p _ := if p = some ["b".toList] then some ⟨some 0, [], [], some .null⟩
    else some ⟨some 0, [], [], some (.block [("x".toList, .bool true)])⟩
  fn k := if k = "mine".toList then some fun c => some (.text (if c.exit = 0 then "PASS".toList else "FAIL".toList))
    else none
  checking := [verifyTarget]

example : Fair tidy tidyWorld ∧ Tidy tidy tidyWorld ∧ ¬ Left false tidy ∧
    runPlans false [(tidy, tidyWorld)] = .exit 0 [true] := by
  refine ⟨⟨?_, List.mem_singleton.2 rfl⟩, ⟨by decide +kernel, by decide +kernel, by decide +kernel,
    by decide +kernel, ?_, ?_⟩, ?_, by decide +kernel⟩
  · intro i
    unfold tidyWorld
    simp only
    split
    · exact .refl _
    · exact List.reverse_perm _
  · intro t ht f hf
    simp only [tidy, List.mem_cons, List.not_mem_nil, or_false] at ht
    rcases ht with rfl | rfl | rfl
    · cases hf
    · cases hf; decide
    · cases hf
  · intro t ht t' ht' _ _
    rw [List.mem_singleton.1 ht, List.mem_singleton.1 ht']
  · rintro ⟨h, _⟩; cases h

/-! ## C103: tests that are left out -/

/-- A run in which nothing is left out and every test can be run comes to an exit code. -/
theorem ends_partial (allow : Bool) (ps : List (Subject × World)) (hne : ps ≠ [])
    (hr : ∀ p ∈ ps, ∃ b, runPlan p.2 p.1 = some b) (hl : ∀ p ∈ ps, ¬ Left allow p.1) :
    ∃ e bs, runPlans allow ps = .exit e bs ∧ (e = 0 ∨ e = 1) := by
  have hsk : ∀ p ∈ ps, skipped allow p.1 = false := by
    intro p hp
    cases h : skipped allow p.1 with
    | false => rfl
    | true => exact absurd ((skipped_iff _ _).1 h) (hl p hp)
  obtain ⟨e, fs, h1, h2, _, _, h5⟩ := loop_all ps 0 [] hsk hr
  rw [List.append_nil] at h1
  have hfiles : ∀ p ∈ ps, ∃ f ∈ fs, f.1 = p.1.stem := by
    intro p hp
    obtain ⟨b, hb⟩ := hr p hp
    have : some (p.1.stem, b) ∈ fs.map (fun f => some f) := by
      rw [h2, List.mem_reverse]
      exact List.mem_map.2 ⟨p, hp, by rw [hb]; rfl⟩
    obtain ⟨f, hff, e⟩ := List.mem_map.1 this
    injection e with e
    exact ⟨f, hff, by rw [e]⟩
  obtain ⟨bs, hbs⟩ := readReports_some hfiles
  exact ⟨e, bs, by simp only [runPlans, h1, if_neg hne, hbs], h5⟩

/-- Whenever a test is left out, the run fails, whatever the other tests come to: the report is made
from the result files of all tests, and there is none for it. -/
theorem left_out_fails (allow : Bool) (ps : List (Subject × World)) (p : Subject × World) (hp : p ∈ ps)
    (_hl : Left allow p.1) (hs : ∀ q ∈ ps, ¬ Left allow q.1 → q.1.stem ≠ p.1.stem) :
    runPlans allow ps = .error := by
  unfold runPlans
  cases h : loop allow ps 0 [] with
  | none => rfl
  | some r =>
    obtain ⟨e, files⟩ := r
    simp only
    rw [if_neg (by rintro rfl; cases hp)]
    rw [readReports_none ⟨p, hp, ?_⟩]
    intro f hf
    rcases loop_files ps _ _ _ _ h f hf with h' | ⟨q, hq, hsk, e⟩
    · cases h'
    · rw [← e]
      refine hs q hq fun hc => ?_
      rw [(skipped_iff _ _).2 hc] at hsk
      cases hsk

/-- A test that needs `--allow-io`. -/
def io : Subject := { tidy with stem := "io".toList, needsIo := true }

/-- In general leaving out a test does make a run fail, though all the others pass. -/
theorem left_out_false : ¬ ∀ (allow : Bool) (ps : List (Subject × World)),
    (∃ p ∈ ps, ¬ Left allow p.1) → (∀ p ∈ ps, ¬ Left allow p.1 → runPlan p.2 p.1 = some true) →
    ∃ bs, runPlans allow ps = .exit 0 bs := by
  intro h
  obtain ⟨bs, hb⟩ := h false [(tidy, tidyWorld), (io, tidyWorld)]
    ⟨_, List.mem_cons_self, by rintro ⟨h, _⟩; cases h⟩ (by
      intro p hp hl
      simp only [List.mem_cons, List.not_mem_nil, or_false] at hp
      rcases hp with rfl | rfl
      · decide +kernel
      · exact absurd ⟨rfl, rfl⟩ hl)
  rw [left_out_fails false _ (io, tidyWorld) (by simp) ⟨rfl, rfl⟩ (by
    intro q hq hl
    simp only [List.mem_cons, List.not_mem_nil, or_false] at hq
    rcases hq with rfl | rfl
    · decide +kernel
    · exact absurd ⟨rfl, rfl⟩ hl)] at hb
  cases hb

/-- A directory without tests makes the runner panic. -/
theorem none_panics (allow : Bool) : runPlans allow [] = .panic := rfl

/-! ## C104: the report -/

/-- Where the files have names that differ in more than the extension, the report says of each what
it came to. -/
theorem report_partial (allow : Bool) (ps : List (Subject × World)) (e : Nat) (bs : List Bool)
    (hn : (ps.map (·.1.stem)).Nodup) (h : runPlans allow ps = .exit e bs) :
    bs.map some = ps.map fun p => runPlan p.2 p.1 := by
  have stem_inj : ∀ {l : List (Subject × World)}, (l.map (·.1.stem)).Nodup → ∀ p ∈ l, ∀ q ∈ l,
      p.1.stem = q.1.stem → p = q := by
    intro l
    induction l with
    | nil => intro _ p hp; cases hp
    | cons x l ih =>
      intro hn p hp q hq he
      simp only [List.map_cons, List.nodup_cons, List.mem_map, not_exists, not_and] at hn
      rcases List.mem_cons.1 hp with rfl | hp' <;> rcases List.mem_cons.1 hq with rfl | hq'
      · rfl
      · exact absurd he.symm (hn.1 q hq')
      · exact absurd he (hn.1 p hp')
      · exact ih hn.2 p hp' q hq' he
  have files : ∀ (l : List (Subject × World)) (e : Nat) (fs : List (Str × Bool)) (e' : Nat)
      (fs' : List (Str × Bool)), loop allow l e fs = some (e', fs') →
      ∀ f ∈ fs', f ∈ fs ∨ ∃ p ∈ l, p.1.stem = f.1 ∧ runPlan p.2 p.1 = some f.2 := by
    intro l
    induction l with
    | nil => intro e fs e' fs' h f hf; cases h; exact .inl hf
    | cons x l ih =>
      obtain ⟨s, w⟩ := x
      intro e fs e' fs' h f hf
      rw [loop] at h
      split at h
      · rcases ih _ _ _ _ h f hf with h' | ⟨p, hp, h'⟩
        · exact .inl h'
        · exact .inr ⟨p, List.mem_cons_of_mem _ hp, h'⟩
      · cases hr : runPlan w s with
        | none => rw [hr] at h; cases h
        | some b =>
          rw [hr] at h
          rcases ih _ _ _ _ h f hf with h' | ⟨p, hp, h'⟩
          · rcases List.mem_cons.1 h' with rfl | h'
            · exact .inr ⟨(s, w), List.mem_cons_self, rfl, hr⟩
            · exact .inl h'
          · exact .inr ⟨p, List.mem_cons_of_mem _ hp, h'⟩
  unfold runPlans at h
  cases hl : loop allow ps 0 [] with
  | none => rw [hl] at h; cases h
  | some r =>
    obtain ⟨e', fs⟩ := r
    rw [hl] at h
    simp only at h
    split at h
    · cases h
    · cases hr : readReports fs ps with
      | none => rw [hr] at h; cases h
      | some bs' =>
        rw [hr] at h
        injection h with h1 h2
        subst h2
        refine readReports_eq ?_ hr
        intro p hp f hf he
        rcases files _ _ _ _ _ hl f hf with h' | ⟨q, hq, h1, h2⟩
        · cases h'
        · rw [stem_inj hn p hp q hq (he.symm.trans h1.symm)]
          exact h2

/-- The same file name with another extension, and a test that fails. -/
def failing : World := { tidyWorld with run := fun _ _ => some ⟨none, [], [], none⟩ }

/-- In general it does not: `u.eu` fails and `u.yaml` passes, and the report says that both pass. -/
theorem report_false : ¬ ∀ (allow : Bool) (ps : List (Subject × World)) (e : Nat) (bs : List Bool),
    runPlans allow ps = .exit e bs → bs.map some = ps.map fun p => runPlan p.2 p.1 := by
  intro h
  have := h false [(tidy, failing), (tidy, tidyWorld)] 1 [true, true] (by decide +kernel)
  revert this
  decide +kernel

example : runPlans false [(tidy, failing), ({ tidy with stem := "v".toList }, tidyWorld)] =
    .exit 1 [false, true] := by decide +kernel

/-! ## C105: which targets are run -/

/-- What is run: the file's own tests and benchmarks, its main target and those with checks, each in
its own format or all of the file's; and where there are none, the whole file. -/
theorem plan_iff (s : Subject) (t : Target) (f : Str) : (t, f) ∈ combos (plan s) ↔
    (Runs s t ∧ In s t f) ∨ ((∀ t, ¬ Runs s t) ∧ t = Target.whole ∧ In s Target.whole f) :=
  combos_mem s t f

/-- Each is run once. -/
theorem plan_once (s : Subject) (ht : s.targets.Nodup) (hf : s.formats.Nodup) :
    (combos (plan s)).Nodup := by
  have hff : s.fmts.Nodup := by
    unfold Subject.fmts
    split
    · simp
    · exact hf
  have key : ∀ ps : List (Target × List Str), (ps.map (·.1)).Nodup → (∀ p ∈ ps, p.2.Nodup) →
      (combos ps).Nodup := by
    intro ps
    induction ps with
    | nil => intro _ _; exact List.nodup_nil
    | cons p ps ih =>
      intro hn ha
      simp only [List.map_cons, List.nodup_cons] at hn
      have e : combos (p :: ps) = (p.2.map fun f => (p.1, f)) ++ combos ps := by simp [combos]
      rw [e, List.nodup_append]
      refine ⟨nodup_map_inj (ha p List.mem_cons_self) ?_, ih hn.2 fun q hq => ha q (List.mem_cons_of_mem _ hq), ?_⟩
      · intro a _ b _ h; cases h; rfl
      · rintro c hc d hd rfl
        obtain ⟨f, _, rfl⟩ := List.mem_map.1 hc
        obtain ⟨q, hq, hdq⟩ := List.mem_flatMap.1 hd
        obtain ⟨g, _, he⟩ := List.mem_map.1 hdq
        exact hn.1 (List.mem_map.2 ⟨q, hq, (Prod.mk.inj he).1⟩)
  refine key _ ?_ ?_
  · unfold plan
    simp only
    split
    · simp
    · rw [List.map_map]
      have : (fun t : Target => t) = ((fun p : Target × List Str => p.1) ∘ fun t => (t, fmtsOf s t)) := rfl
      rw [← this, List.map_id']
      exact List.filter_sublist.nodup ht
  · rintro ⟨t, fs⟩ hp
    rcases plan_mem s hp with h | ⟨_, _, rfl⟩
    · rw [(plan_runs s t h fs).1 hp]
      unfold fmtsOf
      cases t.format with
      | some f => simp
      | none => exact hff
    · exact hff

/-- Tests of files that are imported are not run. -/
theorem plan_imports (s : Subject) (t : Target) (f : Str) (ho : t ∉ s.own)
    (hn : "test".toList <+: t.name ∨ "bench-".toList <+: t.name) : (t, f) ∉ combos (plan s) := by
  rw [plan_iff]
  rintro (⟨h, _⟩ | ⟨_, rfl, _⟩)
  · cases h with
    | own _ h _ => exact ho h
    | main _ h => rw [h] at hn; revert hn; decide
    | checked _ h1 h2 _ => exact hn.elim h1 h2
  · revert hn
    decide

example : combos (plan tidy) =
    [(⟨"test-a".toList, none, ["a".toList], []⟩, "yaml".toList),
     (⟨"test-a".toList, none, ["a".toList], []⟩, "toml".toList),
     (⟨"test-b".toList, some "json".toList, ["b".toList], ["mine".toList]⟩, "json".toList),
     (⟨"bench-c".toList, none, ["c".toList], []⟩, "yaml".toList),
     (⟨"bench-c".toList, none, ["c".toList], []⟩, "toml".toList)] := by decide +kernel

/-! ## C106: error tests -/

/-- A sidecar file as it is meant to be written. -/
def written (e : Expect) : Str :=
  (match e.exit with
    | some n => "exit: ".toList ++ (if n < 0 then '-' :: Nat.toDigits 10 n.natAbs else Nat.toDigits 10 n.natAbs) ++ ['\n']
    | none => []) ++
  (match e.pattern with
    | some p => "stderr: \"".toList ++ p ++ ['"', '\n']
    | none => [])

theorem lines_go (acc a b : Str) (h : '\n' ∉ a) :
    lines.go acc (a ++ '\n' :: b) = (acc.reverse ++ a) :: lines.go [] b := by
  induction a generalizing acc with
  | nil => simp [lines.go]
  | cons c a ih =>
    have hc : c ≠ '\n' := fun e => h (e ▸ List.mem_cons_self)
    rw [List.cons_append, lines.go, if_neg hc, ih _ fun hm => h (List.mem_cons_of_mem _ hm)]
    simp

theorem lines_line (a b : Str) (h : '\n' ∉ a) : lines (a ++ '\n' :: b) = a :: lines b := by
  unfold lines
  rw [lines_go [] a b h]
  rfl

/-- Nothing is taken off a text that neither begins nor ends with white space. -/
theorem trim_id {s : Str} (h1 : ∀ c, s.head? = some c → ws c = false)
    (h2 : ∀ c, s.getLast? = some c → ws c = false) : trim s = s := by
  have drop : ∀ l : Str, (∀ c, l.head? = some c → ws c = false) → l.dropWhile ws = l := by
    intro l hl
    cases l with
    | nil => rfl
    | cons c l => rw [List.dropWhile_cons, hl c rfl]; rfl
  unfold trim
  rw [drop s h1, drop s.reverse (by simpa using h2), List.reverse_reverse]

theorem digit_val {d : Nat} (h : d < 10) : (Nat.digitChar d).isDigit = true ∧ (Nat.digitChar d).toNat - 48 = d := by
  match d, h with
  | 0, _ | 1, _ | 2, _ | 3, _ | 4, _ | 5, _ | 6, _ | 7, _ | 8, _ | 9, _ => exact ⟨by decide, by decide⟩

theorem digits_append : ∀ (a b : Str) (n : Nat), digits (a ++ b) n = (digits a n).bind fun m => digits b m
  | [], b, n => rfl
  | c :: a, b, n => by
    simp only [List.cons_append, digits]
    split
    · exact digits_append a b _
    · rfl

theorem digits_toDigits (n : Nat) : digits (Nat.toDigits 10 n) 0 = some n := by
  induction n using Nat.strongRecOn with
  | ind n ih =>
    rw [Nat.toDigits_eq_if (by decide)]
    split
    · next h =>
      have := digit_val h
      simp only [digits, this.1, if_true, this.2]
      simp
    · next h =>
      have := digit_val (Nat.mod_lt n (by decide : 0 < 10))
      rw [digits_append, ih (n / 10) (by omega)]
      simp only [Option.bind_some, digits, this.1, if_true, this.2]
      congr 1
      omega

theorem toDigits_digit {n : Nat} {c : Char} (h : c ∈ Nat.toDigits 10 n) : c.isDigit = true :=
  Nat.isDigit_of_mem_toDigits (by decide) (by decide) h

theorem parse_plain {ds : Str} {n : Nat} (hd : digits ds 0 = some n) (hne : ds ≠ [])
    (hc : ∀ c ∈ ds, c.isDigit = true) (hn : n ≤ 2147483647) : parseI32 ds = some (n : Int) := by
  cases ds with
  | nil => exact absurd rfl hne
  | cons c r =>
    have hp : c ≠ '+' := by
      rintro rfl; exact absurd (hc _ List.mem_cons_self) (by decide)
    have hm : c ≠ '-' := by
      rintro rfl; exact absurd (hc _ List.mem_cons_self) (by decide)
    unfold parseI32
    split
    · next e => cases e
    · next e => exact absurd (List.cons.inj e).1 hp
    · next e => exact absurd (List.cons.inj e).1 hm
    · next e => exact absurd (List.cons.inj e).1 hp
    · next e => exact absurd (List.cons.inj e).1 hm
    · rw [hd]
      simp only [Option.bind_some]
      rw [if_pos]
      omega

theorem parse_minus {ds : Str} {n : Nat} (hd : digits ds 0 = some n) (hne : ds ≠ [])
    (hn : n ≤ 2147483648) : parseI32 ('-' :: ds) = some (-(n : Int)) := by
  unfold parseI32
  split
  · next e => cases e
  · next e => exact absurd (List.cons.inj e).1 (by decide)
  · next e => exact absurd (List.cons.inj e).2 hne
  · next e => exact absurd (List.cons.inj e).1 (by decide)
  · next e =>
    rw [← (List.cons.inj e).2, hd]
    simp only [Option.bind_some]
    rw [if_pos]
    omega
  · next h => exact absurd rfl (h ds)

theorem trim_space {s : Str} (h1 : ∀ c, s.head? = some c → ws c = false)
    (h2 : ∀ c, s.getLast? = some c → ws c = false) : trim (' ' :: s) = s := by
  have : trim (' ' :: s) = trim s := by
    unfold trim
    rw [List.dropWhile_cons, show ws ' ' = true from rfl]
    rfl
  rw [this, trim_id h1 h2]

theorem digit_plain {c : Char} (h : c.isDigit = true) : ws c = false := by
  cases hw : ws c with
  | false => rfl
  | true =>
    simp only [ws, Bool.or_eq_true, beq_iff_eq] at hw
    rcases hw with ((((rfl | rfl) | rfl) | rfl) | rfl) | rfl <;> revert h <;> decide

/-- A line with an exit code is read. -/
theorem exit_line {num : Str} {n : Int} (hn : parseI32 num = some n) (hne : num ≠ [])
    (hc : ∀ c ∈ num, c = '-' ∨ c.isDigit = true) (r : List Str) (e : Expect) :
    parseLines (("exit: ".toList ++ num) :: r) e = parseLines r { e with exit := some n } := by
  have hws : ∀ c ∈ num, ws c = false := by
    intro c h
    rcases hc c h with rfl | h
    · decide
    · exact digit_plain h
  have hlast : ∀ c, num.getLast? = some c → ws c = false := fun c h => hws c (List.mem_of_getLast? h)
  have hhead : ∀ c, num.head? = some c → ws c = false := fun c h => hws c (List.mem_of_head? h)
  have ht : trim ("exit: ".toList ++ num) = "exit: ".toList ++ num := by
    refine trim_id ?_ ?_
    · intro c h; cases h; decide
    · intro c h
      rw [List.getLast?_append] at h
      cases hl : num.getLast? with
      | none => exact absurd (List.getLast?_eq_none_iff.1 hl) hne
      | some d =>
        rw [hl] at h
        cases h
        exact hlast _ hl
  have hs : stripPrefix "exit:".toList ("exit: ".toList ++ num) = some (' ' :: num) := rfl
  rw [parseLines]
  simp only [ht]
  rw [if_neg (by simp), hs]
  simp only
  rw [trim_space hhead hlast, hn]

/-- A line with a pattern is read. -/
theorem pattern_line (p : Str) (r : List Str) (e : Expect) :
    parseLines (("stderr: \"".toList ++ p ++ ['"']) :: r) e = parseLines r { e with pattern := some p } := by
  have hlast : ∀ (a : Str) c, (a ++ ['"']).getLast? = some c → ws c = false := by
    intro a c h
    rw [List.getLast?_append] at h
    cases h
    decide
  have ht : trim ("stderr: \"".toList ++ p ++ ['"']) = "stderr: \"".toList ++ p ++ ['"'] := by
    refine trim_id ?_ (hlast _)
    intro c h; cases h; decide
  have hs : stripPrefix "exit:".toList ("stderr: \"".toList ++ p ++ ['"']) = none := rfl
  have hs' : stripPrefix "stderr:".toList ("stderr: \"".toList ++ p ++ ['"']) =
      some (' ' :: '"' :: (p ++ ['"'])) := rfl
  rw [parseLines]
  simp only [ht]
  rw [if_neg (by simp), hs]
  simp only
  rw [hs']
  simp only
  rw [trim_space (s := '"' :: (p ++ ['"'])) (by intro c h; cases h; decide) (hlast ('"' :: p))]
  congr 2
  simp [unquote]

/-- **What is written in a sidecar is what is read**, for every exit code and every pattern of one
line; the pattern is taken as it stands, quotes and backslashes in it included. -/
theorem sidecar_read (e : Expect) (hg : e.exit ≠ none ∨ e.pattern ≠ none)
    (hr : ∀ n, e.exit = some n → -2147483648 ≤ n ∧ n ≤ 2147483647)
    (hp : ∀ p, e.pattern = some p → '\n' ∉ p) : parseExpect (written e) = some e := by
  have hpat : ∀ e0 : Expect, parseLines (lines (match e.pattern with
      | some p => "stderr: \"".toList ++ p ++ ['"', '\n'] | none => [])) e0 =
      some { e0 with pattern := e.pattern.or e0.pattern } := by
    intro e0
    cases h : e.pattern with
    | none => rfl
    | some p =>
      have : "stderr: \"".toList ++ p ++ ['"', '\n'] = ("stderr: \"".toList ++ p ++ ['"']) ++ '\n' :: [] := by
        simp
      simp only
      rw [this, lines_line _ _ (by
        intro hm
        simp only [List.mem_append, List.mem_singleton] at hm
        rcases hm with (hm | hm) | hm
        · revert hm; decide
        · exact hp p h hm
        · revert hm; decide), pattern_line]
      rfl
  have hall : parseLines (lines (written e)) ⟨none, none⟩ = some e := by
    unfold written
    cases h : e.exit with
    | none =>
      simp only [List.nil_append]
      rw [hpat]
      obtain ⟨x, q⟩ := e
      simp only at h
      subst h
      cases q <;> rfl
    | some n =>
      simp only
      have hrange := hr n h
      have hd := digits_toDigits n.natAbs
      have hne : Nat.toDigits 10 n.natAbs ≠ [] := by
        intro e; have := Nat.length_toDigits_pos (b := 10) (n := n.natAbs); rw [e] at this; cases this
      have hnum : ∃ num : Str, (if n < 0 then '-' :: Nat.toDigits 10 n.natAbs else Nat.toDigits 10 n.natAbs) = num ∧
          parseI32 num = some n ∧ num ≠ [] ∧ ∀ c ∈ num, c = '-' ∨ c.isDigit = true := by
        refine ⟨_, rfl, ?_⟩
        split
        · refine ⟨?_, by simp, ?_⟩
          · rw [parse_minus hd hne (by omega)]
            congr 1
            omega
          · intro c hc
            rcases List.mem_cons.1 hc with rfl | hc
            · exact .inl rfl
            · exact .inr (toDigits_digit hc)
        · refine ⟨?_, hne, fun c hc => .inr (toDigits_digit hc)⟩
          rw [parse_plain hd hne (fun c hc => toDigits_digit hc) (by omega)]
          congr 1
          omega
      obtain ⟨num, e1, h1, h2, h3⟩ := hnum
      rw [e1, List.append_assoc, List.singleton_append, lines_line _ _ (by
        intro hm
        rcases List.mem_append.1 hm with hm | hm
        · revert hm; decide
        · rcases h3 _ hm with h | h <;> revert h <;> decide), exit_line h1 h2 h3, hpat]
      obtain ⟨x, q⟩ := e
      simp only at h
      subst h
      cases q <;> rfl
  unfold parseExpect
  rw [hall]
  simp only
  rw [if_neg]
  rcases hg with h | h <;> simp [h]

/-- **An error test passes just when the exit code and the pattern agree**, or if nothing is said of
what is expected. -/
theorem error_test_iff («matches» : Str → Str → Option Bool) (sidecar : Option Str) (run : Option Int × Str) :
    errorTest «matches» sidecar run = some 0 ↔ sidecar = none ∨ ∃ s e, sidecar = some s ∧
      parseExpect s = some e ∧ (∀ n, e.exit = some n → run.1.getD 1 = n) ∧
      (∀ p, e.pattern = some p → «matches» p run.2 = some true) := by
  unfold errorTest
  cases sidecar with
  | none => simp
  | some s =>
    simp only [reduceCtorEq, Option.some.injEq, false_or]
    cases hp : parseExpect s with
    | none => simp [hp]
    | some e =>
      have : e.validate «matches» (run.1.getD 1) run.2 = true ↔
          (∀ n, e.exit = some n → run.1.getD 1 = n) ∧
          (∀ p, e.pattern = some p → «matches» p run.2 = some true) := by
        unfold Expect.validate
        rw [Bool.and_eq_true]
        refine and_congr ?_ ?_
        · cases e.exit <;> simp
        · cases e.pattern <;> simp
      constructor
      · intro h
        refine ⟨s, e, rfl, hp, this.1 ?_⟩
        cases hv : e.validate «matches» (run.1.getD 1) run.2 with
        | true => rfl
        | false => simp [hv] at h
      · rintro ⟨s', e', rfl, he, h⟩
        rw [hp] at he
        injection he with he
        subst he
        simp [this.2 h]

/-- Every key other than the two is passed over, and so a sidecar with a misspelt one is taken to
expect less than it says. -/
theorem other_key (l : Str) (r : List Str) (e : Expect)
    (h1 : ¬ "exit:".toList <+: trim l) (h2 : ¬ "stderr:".toList <+: trim l) :
    parseLines (l :: r) e = parseLines r e := by
  rw [parseLines]
  split
  · rfl
  · simp only [stripPrefix]
    rw [if_neg (fun h => h1 (List.isPrefixOf_iff_prefix.1 h)),
      if_neg (fun h => h2 (List.isPrefixOf_iff_prefix.1 h))]

/-- As YAML, a pattern in double quotes has its escapes undone; here they stay. -/
theorem sidecar_escapes : parseExpect "stderr: \"a\\\\b\"\n".toList = some ⟨none, some "a\\\\b".toList⟩ := by
  decide +kernel

example : parseExpect (written ⟨some (-3), some "a \"b\" \\d+".toList⟩) =
    some ⟨some (-3), some "a \"b\" \\d+".toList⟩ :=
  sidecar_read _ (.inl (by simp)) (by intro n h; cases h; decide) (by intro p h; cases h; decide)

end Verif.Suite
