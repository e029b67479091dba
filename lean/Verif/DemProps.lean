import Verif.DemSame

/-!
# Demand analysis

It comes to an end, it writes on bindings and does nothing else, it finds every binding that leads back to itself.  What is
compiled with what it writes means what the program means if what it writes is so, and it is not always so.
-/

namespace Verif.Dem
open Verif.Comp Verif.Bc
variable {K : Type}

/-! ## It comes to an end -/

/-- No loop of the analysis takes more turns than four for each binding of the largest let, and one.  In particular there is no
program on which it does not end. -/
theorem analyse_ends (seeds : String → Option Sig) (hs : Sound seeds) (x : Exp K) (turns : Nat) (h : 4 * width x < turns) :
    (analyse seeds turns x).isSome = true := by
  obtain ⟨o, σ, h, _⟩ := ana_ends hs x h []
  simp [analyse, h]

/-- What the intrinsics of the examples ask of their arguments, as `build_intrinsic_signatures`, analyse_demand.rs:70-132. -/
def demoSeeds (name : String) : Option Sig :=
  if name = "ADD" then some [strictOnce, strictOnce]
  else if name = "IF" then some [strictOnce, lazyOnce, lazyOnce]
  else if name = "FAIL" then some [strictOnce]
  else none

theorem demoSeeds_sound : Sound demoSeeds := by
  intro name s h d hd
  unfold demoSeeds at h
  have hso : Use strictOnce := ⟨.inl rfl, .inr rfl, rfl, rfl⟩
  have hlo : Use lazyOnce := ⟨.inl rfl, .inl rfl, rfl, rfl⟩
  repeat' split at h
  all_goals cases h
  all_goals simp only [List.mem_cons, List.not_mem_nil, or_false] at hd
  all_goals rcases hd with rfl | hd
  all_goals first | exact .inr hso | skip
  · subst hd; exact .inr hso
  · rcases hd with rfl | rfl <;> exact .inr hlo

/-- Three bindings that see each other: `let a: b + c; b: IF(a, c, c); c: a in a`. -/
def knot : Exp Nat :=
  .let_ (.cons "a" {} (.app 1 (.intrinsic "ADD") (.cons (.var 0 1 (some "b")) (.cons (.var 0 2 (some "c")) .nil)))
    (.cons "b" {} (.app 2 (.intrinsic "IF") (.cons (.var 0 0 (some "a")) (.cons (.var 0 2 (some "c")) (.cons (.var 0 2 (some "c")) .nil))))
    (.cons "c" {} (.var 0 0 (some "a")) .nil)))
  (.var 0 0 (some "a"))

/-- It is no trivial case: two turns do not do, and the bound promises that thirteen do. -/
example : (analyse demoSeeds 2 knot).isSome = false ∧ (analyse demoSeeds 13 knot).isSome = true :=
  ⟨by decide +kernel, analyse_ends demoSeeds demoSeeds_sound knot 13 (by decide +kernel)⟩

/-! ## It writes on bindings and does nothing else -/

/-- The expression that comes of it is the one that went in, but for what is written on the bindings. -/
theorem analyse_bare (seeds : String → Option Sig) (turns : Nat) (x y : Exp K) (σ : Named) (h : analyse seeds turns x = some (y, σ)) :
    bare y = bare x := by
  obtain ⟨⟨o, σ'⟩, h1, h2⟩ := Option.map_eq_some_iff.1 h
  cases h2
  exact ana_bare x h1

/-- And so it means the same. -/
theorem analyse_means (seeds : String → Option Sig) (turns : Nat) (x y : Exp K) (σ : Named) (h : analyse seeds turns x = some (y, σ))
    (P : World K) (p : List Nat) (s : Sem.Seen K) : Shows P y p s ↔ Shows P x p s :=
  shows_bare (analyse_bare seeds turns x y σ h) p s

/-! ## Bindings that lead back to themselves -/

theorem letDemands_recursive {turns : Nat} {block : Bool} {body : Asks} {rhs : List Asks} {ds : List Demand}
    (h : letDemands turns block body rhs = some ds) {i : Nat} {d : Demand} (hi : ds[i]? = some d)
    (hl : Leads (deps rhs.length rhs) i i) : d.recursive = true := by
  unfold letDemands at h
  simp only at h
  split at h
  · cases h
  · rename_i rs hrs
    split at h
    · cases h
    · split at h
      · cases h
      · cases h
        rw [List.getElem?_map] at hi
        obtain ⟨k, hk, rfl⟩ := Option.map_eq_some_iff.1 hi
        obtain ⟨r, h1, h2⟩ := recursives_get hrs hk
        have hki : k = i := by
          have := List.getElem?_eq_some_iff.1 hk
          obtain ⟨_, h⟩ := this
          simpa using h.symm
        subst hki
        have hr := (isRecursive_right (by rw [deps_length]; exact deps_fit _ _) h2).2 hl
        subst hr
        have : rs.getD k false = true := by rw [List.getD_eq_getElem?_getD, h1]; rfl
        simp only [this, recur, shown, if_true]
        split <;> split <;> rfl

/-- In the bindings of a let, one from which the others lead back to it is never forced early: neither by the let, nor under any
demand the analysis gives it. -/
theorem analyse_recursive (turns : Nat) (block : Bool) (body : Asks) (rhs : List Asks) (ds : List Demand)
    (h : letDemands turns block body rhs = some ds) (i : Nat) (d : Demand) (hi : ds[i]? = some d)
    (hl : Leads (deps rhs.length rhs) i i) : d.forced = false := by
  simp [Demand.forced, letDemands_recursive h hi hl]

/-- The demands on the bindings of a let at the top. -/
def written : Exp K → List Demand
  | .let_ bs _ => (demands bs).map (·.1)
  | _ => []

/-- `a` leads to `b` and `b` to `a`; all three are used more than once, and none is to be forced. -/
example : (analyse demoSeeds 13 knot).map (fun r => written r.1) =
    some [⟨.multi, .strict, false, true⟩, ⟨.multi, .strict, false, true⟩, ⟨.multi, .strict, false, true⟩] := by
  decide +kernel

/-! ## What is compiled -/

/-- The compiler with the signatures found. -/
abbrev told (cfg : Config K) (σ : Named) : Config K := { cfg with userSig := σ.find }

/-- The surroundings do not change with the signatures. -/
theorem fits_told {cfg : Config K} {P : World K} (F : Fits cfg P) (σ : Named) : Fits (told cfg σ) P :=
  ⟨F.wf, F.index, F.inRange, F.prelude, F.slots, F.noIndex, F.empty, F.wrapper, F.unfused⟩

/-- If what the analysis wrote is so then the compiled program shows the values the program shows.  In full it should be so of
every program; `analysed_eager` and the theorems after it say that it is not. -/
theorem analysed_shows_partial (cfg : Config K) (P : World K) (seeds : String → Option Sig) (turns : Nat) (x y : Exp K) (σ : Named)
    (F : Fits cfg P) (hh : cfg.render = .headless) (ha : analyse seeds turns x = some (y, σ)) (hy : Honest P (told cfg σ) y)
    (c : Syn K) (hc : compileAnalysed cfg seeds turns x = some (.ok c)) (p : List Nat) (s : Sem.Seen K) (hs : ∀ e, s ≠ .error e) :
    Opt.Shows P.sem c p s ↔ Shows P x p s := by
  have hc' : compile (told cfg σ) y = .ok c := by
    unfold compileAnalysed at hc
    rw [ha] at hc
    exact Option.some.inj hc
  rw [← analyse_means seeds turns x y σ ha]
  exact compile_honest_partial (told cfg σ) P y c (fits_told F σ) hy hh hc' p s hs

/-- If it marks nothing then the program shows the same errors as well. -/
theorem analysed_same_partial (cfg : Config K) (P : World K) (seeds : String → Option Sig) (turns : Nat) (x y : Exp K) (σ : Named)
    (F : Fits cfg P) (hh : cfg.render = .headless) (ha : analyse seeds turns x = some (y, σ)) (hm : Mild (told cfg σ))
    (hy : unmarked y = true) (c : Syn K) (hc : compileAnalysed cfg seeds turns x = some (.ok c)) (p : List Nat) (s : Sem.Seen K) :
    Opt.Shows P.sem c p s ↔ Shows P x p s := by
  have hc' : compile (told cfg σ) y = .ok c := by
    unfold compileAnalysed at hc
    rw [ha] at hc
    exact Option.some.inj hc
  rw [← analyse_means seeds turns x y σ ha]
  exact compile_shows_partial (told cfg σ) P y c (fits_told F σ) hm hy hh hc' p s

/-! ### Examples and witnesses -/

/-- What the analysed and compiled program shows along a path, by calculation. -/
def lookAnalysed (cfg : Config K) (P : World K) (seeds : String → Option Sig) (turns : Nat) (x : Exp K) (n : Nat) (p : List Nat) :
    Option (Sem.Seen K) :=
  match compileAnalysed cfg seeds turns x with
  | some (.ok c) => lookSem P.sem n p (.clo 0 c .nil)
  | _ => none

theorem analysed_shows {cfg : Config K} {P : World K} {seeds turns x n p s} (h : lookAnalysed cfg P seeds turns x n p = some s) :
    ∃ c, compileAnalysed cfg seeds turns x = some (.ok c) ∧ Opt.Shows P.sem c p s := by
  unfold lookAnalysed at h
  split at h
  · rename_i c hc
    exact ⟨c, hc, lookSem_finds h⟩
  · cases h

/-- The compiler of the examples, which has the signatures of the intrinsics too. -/
def demoCfg' : Config Nat := { demoCfg with intrinsicSig := demoSeeds }

theorem demo_fits' : Fits demoCfg' demo :=
  let F := demo_fits
  ⟨F.wf, F.index, F.inRange, F.prelude, F.slots, F.noIndex, F.empty, F.wrapper, F.unfused⟩

/-- `let x: 1 + 2 in x + x`, with nothing written on it. -/
def plain : Exp Nat :=
  .let_ (.cons "x" {} (.app 5 (.intrinsic "ADD") (.cons (.lit (.num 1)) (.cons (.lit (.num 2)) .nil))) .nil)
    (.app 6 (.intrinsic "ADD") (.cons (.var 0 0 (some "x")) (.cons (.var 0 0 (some "x")) .nil)))

/-- The analysis finds `x` needed and used twice, which is so: the theorem applies, and the program comes to 6. -/
example : analyse demoSeeds 5 plain = some (twice, []) ∧ Honest demo (told demoCfg' []) twice ∧
    ∃ c, compileAnalysed demoCfg' demoSeeds 5 plain = some (.ok c) ∧ Opt.Shows demo.sem c [0] (.native 6) := by
  have ha : analyse demoSeeds 5 plain = some (twice, []) := by rfl
  have hy : Honest demo (told demoCfg' []) twice := by
    refine ⟨fun ρ j d x hρ hj _ _ => ?_, ⟨⟨fun ρ j x _ hj _ _ hd => ?_, (by trivial), (by trivial), (by trivial), (by trivial)⟩, (by trivial)⟩,
      fun ρ j x _ hj _ hv _ => ?_, (by trivial), (by trivial), (by trivial), (by trivial)⟩
    · exact twice_honest.1 ρ j d x hρ hj ‹_› ‹_›
    · match j with
      | 0 => cases hj; cases hd
      | 1 => cases hj; cases hd
      | j + 2 => cases hj
    · match j with
      | 0 => cases hj; cases hv
      | 1 => cases hj; cases hv
      | j + 2 => cases hj
  obtain ⟨c, hc, hs⟩ := analysed_shows (cfg := demoCfg') (P := demo) (seeds := demoSeeds) (turns := 5) (x := plain) (n := 60) (p := [0])
    (s := .native 6) (by decide +kernel)
  exact ⟨ha, hy, c, hc, (analysed_shows_partial demoCfg' demo demoSeeds 5 plain twice [] demo_fits' rfl ha hy c hc [0] _ (by simp)).2
    (look_finds (n := 60) (by decide +kernel))⟩

/-- `fail`. -/
def fails : Exp Nat := .app 5 (.intrinsic "FAIL") (.cons (.lit .null) .nil)
def num (n : Nat) : Exp Nat := .lit (.num n)
def call (name : String) (args : List (Exp Nat)) : Exp Nat := .app 6 (.intrinsic name) (args.foldr .cons .nil)

/-- `let x: fail in [x, x]`: a list is made without its items. -/
def eagerList : Exp Nat :=
  .let_ (.cons "x" {} fails .nil) (.list 7 (.cons (.var 0 0 (some "x")) (.cons (.var 0 0 (some "x")) .nil)))

/-- The program means a list of two.  Analysed and compiled, it fails: the analysis counts the items of a list as needed. -/
theorem analysed_eager : Fits demoCfg' demo ∧ Sound demoSeeds ∧ Shows demo eagerList [] (.data 7 2) ∧
    ∃ c, compileAnalysed demoCfg' demoSeeds 9 eagerList = some (.ok c) ∧ Opt.Shows demo.sem c [] (.error (.prim 1)) :=
  ⟨demo_fits', demoSeeds_sound, look_finds (n := 60) (by decide +kernel), analysed_shows (n := 60) (by decide +kernel)⟩

/-- `{x: fail, y: 1}`, as the parser gives it: a let around a block of its names. -/
def eagerBlock : Exp Nat :=
  .let_ (.cons "x" {} fails (.cons "y" {} (num 1) .nil))
    (.block 7 (.cons 10 (.var 0 0 (some "x")) (.cons 11 (.var 0 1 (some "y")) .nil)))

/-- The program means a block whose second field is 1.  Analysed and compiled, it fails before there is a block: one use is
enough, since every field of a block is taken to be used more than once. -/
theorem analysed_block : Shows demo eagerBlock [] (.data 8 2) ∧ Shows demo eagerBlock [0, 1, 0, 1, 0] (.native 1) ∧
    ∃ c, compileAnalysed demoCfg' demoSeeds 9 eagerBlock = some (.ok c) ∧ Opt.Shows demo.sem c [] (.error (.prim 1)) :=
  ⟨look_finds (n := 60) (by decide +kernel), look_finds (n := 60) (by decide +kernel),
    analysed_shows (n := 60) (by decide +kernel)⟩

/-- `let x: fail in let f(y): x + x in if(false, f(1), 2)`. -/
def eagerFunction : Exp Nat :=
  .let_ (.cons "x" {} fails .nil)
    (.let_ (.cons "f" {} (.lam 7 1 (call "ADD" [.var 2 0 (some "x"), .var 2 0 (some "x")])) .nil)
      (call "IF" [.lit (.bool false), .app 8 (.var 0 0 (some "f")) (.cons (num 1) .nil), num 2]))

/-- The program means 2.  Analysed and compiled, it fails: what the body of a function needs counts as needed where the function
is bound. -/
theorem analysed_function : Shows demo eagerFunction [0] (.native 2) ∧
    ∃ c, compileAnalysed demoCfg' demoSeeds 9 eagerFunction = some (.ok c) ∧ Opt.Shows demo.sem c [] (.error (.prim 1)) :=
  ⟨look_finds (n := 60) (by decide +kernel), analysed_shows (n := 60) (by decide +kernel)⟩

/-- `let f(a): a + a; k(a): 1; g(f): f(if(true, fail, 2)) in g(k)`. -/
def sameName : Exp Nat :=
  .let_ (.cons "f" {} (.lam 7 1 (call "ADD" [.var 0 0 (some "a"), .var 0 0 (some "a")]))
    (.cons "k" {} (.lam 8 1 (num 1))
    (.cons "g" {} (.lam 9 1 (.app 10 (.var 0 0 (some "f")) (.cons fails .nil))) .nil)))
  (.app 11 (.var 0 2 (some "g")) (.cons (.var 0 1 (some "k")) .nil))

/-- The program with `f` called `h` where it is bound; it is used nowhere. -/
def otherName : Exp Nat :=
  .let_ (.cons "h" {} (.lam 7 1 (call "ADD" [.var 0 0 (some "a"), .var 0 0 (some "a")]))
    (.cons "k" {} (.lam 8 1 (num 1))
    (.cons "g" {} (.lam 9 1 (.app 10 (.var 0 0 (some "f")) (.cons fails .nil))) .nil)))
  (.app 11 (.var 0 2 (some "g")) (.cons (.var 0 1 (some "k")) .nil))

/-- Both programs mean 1.  Analysed and compiled, the second gives 1 and the first fails: what is known of a function holds for
whatever else goes by its name. -/
theorem analysed_name : Shows demo sameName [0] (.native 1) ∧ Shows demo otherName [0] (.native 1) ∧
    (∃ c, compileAnalysed demoCfg' demoSeeds 13 sameName = some (.ok c) ∧ Opt.Shows demo.sem c [] (.error (.prim 1))) ∧
    ∃ c, compileAnalysed demoCfg' demoSeeds 13 otherName = some (.ok c) ∧ Opt.Shows demo.sem c [0] (.native 1) :=
  ⟨look_finds (n := 60) (by decide +kernel), look_finds (n := 60) (by decide +kernel),
    analysed_shows (n := 60) (by decide +kernel), analysed_shows (n := 60) (by decide +kernel)⟩

end Verif.Dem
