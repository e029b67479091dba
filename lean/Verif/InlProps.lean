import Verif.InlBeta
import Verif.CompProps

/-!
# The inliner

It keeps what a tame program shows; it does not keep what every program shows; and applying functions early copies no
application.
-/

namespace Verif.Inl
open Verif.Comp
variable {K : Type}

/-! ## What a program shows -/

mutual
/-- Marking functions changes nothing that is meant. -/
theorem tag_means (self : Option String) (x : Exp K) : erase (tag self x) = erase x := by
  match x with
  | .var v => rfl
  | .let_ t bs b => simp only [tag, erase, tag_means none b, tagB_means bs]
  | .lam true ps b => simp only [tag, erase, tag_means none b]
  | .lam false ps b =>
    unfold tag
    split
    · rfl
    · split <;> simp only [erase, tag_means none b]
  | .app f xs => simp only [tag, erase, tag_means none f, tagL_means xs]
  | .lit p => rfl
  | .intrinsic n => rfl
  | .metaOf x m => simp only [tag, erase, tag_means self x, tag_means none m]
  | .node k xs => simp only [tag, erase, tagL_means xs]
theorem tagL_means (xs : Exps K) : eraseL (tagL xs) = eraseL xs := by
  match xs with
  | .nil => rfl
  | .cons x xs => simp only [tagL, eraseL, tag_means none x, tagL_means xs]
theorem tagB_means (bs : Binds K) : eraseB (tagB bs) = eraseB bs := by
  match bs with
  | .nil => rfl
  | .cons n x rest => simp only [tagB, eraseB, tag_means (some n) x, tagB_means rest]
end

/-- **One pass keeps what a program shows**, if the program is tame: the pass comes to an end, and what it gives shows what the
program shows, at every depth, its errors and its failure to end included.

The full statement, for all programs, is not so: see `inline_scope`, `inline_name` and `inline_meta`.  What is missing is
programs with functions marked inlinable whose bodies are not flat, with documented combinators, or with names that stand for
different things in nested lets. -/
theorem pass_shows_partial (x : Exp K) (hx : tame [] x = true) :
    ∃ y N, (∀ fuel ≥ N, inlinePass fuel x = some y) ∧
      ∀ (P : World K) (p : List Nat) (s : Sem.Seen K), Shows P (erase y) p s ↔ Shows P (erase x) p s := by
  obtain ⟨N, hN⟩ := distribute_eq x hx
  exact ⟨beta (D [] x), N, fun fuel hf => by simp [inlinePass, hN fuel hf], fun P p s => (pass_shows x hx p s).symm⟩

/-- **Inlining keeps what a program shows**, if the program with its functions marked is tame. -/
theorem inline_shows_partial (x : Exp K) (hx : tame [] (tag none x) = true) :
    ∃ y N, (∀ fuel ≥ N, inline fuel x = some y) ∧
      ∀ (P : World K) (p : List Nat) (s : Sem.Seen K), Shows P (erase y) p s ↔ Shows P (erase x) p s := by
  obtain ⟨y, N, h1, h2⟩ := pass_shows_partial _ hx
  exact ⟨y, N, h1, fun P p s => by rw [h2 P p s, tag_means]⟩

/-- As `prepare` does it, driver/prepare.rs:338-340. -/
def inlineTwice (fuel : Nat) (x : Exp K) : Option (Exp K) := (inline fuel x).bind (inline fuel)

/-- **Inlining twice keeps what a program shows**, if what comes of inlining it once is tame again when marked. -/
theorem inline_twice_partial (x : Exp K) (hx : tame [] (tag none x) = true)
    (hy : ∀ n y, inline n x = some y → tame [] (tag none y) = true) :
    ∃ z N, (∀ fuel ≥ N, inlineTwice fuel x = some z) ∧
      ∀ (P : World K) (p : List Nat) (s : Sem.Seen K), Shows P (erase z) p s ↔ Shows P (erase x) p s := by
  obtain ⟨y, N, h1, h2⟩ := inline_shows_partial x hx
  obtain ⟨z, M, h3, h4⟩ := inline_shows_partial y (hy N y (h1 N (Nat.le_refl N)))
  refine ⟨z, max N M, fun fuel hf => ?_, fun P p s => (h4 P p s).trans (h2 P p s)⟩
  simp only [inlineTwice, h1 fuel (by omega), Option.bind_some, h3 fuel (by omega)]

/-! ### Examples and witnesses -/

/-- What the inlined program shows along a path, by calculation. -/
def lookInlined (P : World Nat) (x : Exp Nat) (n : Nat) (p : List Nat) : Option (Sem.Seen Nat) :=
  (inline n x).bind fun y => look P n p (.exp (erase y) .nil)

theorem inlined_shows {P : World Nat} {x : Exp Nat} {n : Nat} {p : List Nat} {s : Sem.Seen Nat} (h : lookInlined P x n p = some s) :
    ∃ y, inline n x = some y ∧ Shows P (erase y) p s := by
  unfold lookInlined at h
  cases hy : inline n x with
  | none => simp [hy] at h
  | some y => exact ⟨y, rfl, look_finds (n := n) (by simpa [hy] using h)⟩

def var (s i : Nat) (name : String) : Exp Nat := .var (.bound s i (some name))
def num (n : Nat) : Exp Nat := .lit (.num n)
def call (name : String) (args : List (Exp Nat)) : Exp Nat := .app (.intrinsic name) (.of args)

/-- `let add(a, b): ADD(a, b); twice(a): add(a, a) in twice(add(1, 2))`. -/
def sample : Exp Nat :=
  .let_ .other (.of [("add", .lam false ["a", "b"] (call "ADD" [var 0 0 "a", var 0 1 "b"])),
      ("twice", .lam false ["a"] (.app (var 1 0 "add") (.of [var 0 0 "a", var 0 0 "a"])))])
    (.app (var 0 1 "twice") (.of [.app (var 0 0 "add") (.of [num 1, num 2])]))

/-- The sample is tame when marked, and comes to 6 before and after. -/
example : tame [] (tag none sample) = true ∧ Shows demo (erase sample) [0] (.native 6) ∧
    ∃ y, inline 200 sample = some y ∧ Shows demo (erase y) [0] (.native 6) :=
  ⟨by decide +kernel, look_finds (n := 200) (by decide +kernel), inlined_shows (by decide +kernel)⟩

/-- `let add(a, b): ADD(a, b); dup(a): ADD(a, a); k(x): dup(add(x, 1)) in k(2)`: the argument of `dup` is used twice, so
that it is given a name. -/
def shares : Exp Nat :=
  .let_ .other (.of [("add", .lam false ["a", "b"] (call "ADD" [var 0 0 "a", var 0 1 "b"])),
      ("dup", .lam false ["a"] (call "ADD" [var 0 0 "a", var 0 0 "a"])),
      ("k", .lam false ["x"] (.app (var 1 1 "dup") (.of [.app (var 1 0 "add") (.of [var 0 0 "x", num 1])])))])
    (.app (var 0 2 "k") (.of [num 2]))

example : tame [] (tag none shares) = true ∧ Shows demo (erase shares) [0] (.native 6) ∧
    (∃ y, inline 200 shares = some y ∧ Shows demo (erase y) [0] (.native 6)) ∧
    (∀ y, inline 200 shares = some y → tame [] (tag none y) = true) ∧
    (∀ y, inline 200 shares = some y → refersTo "__shared_a" y = true) := by
  refine ⟨by decide +kernel, look_finds (n := 200) (by decide +kernel), inlined_shows (by decide +kernel), ?_, ?_⟩
  · intro y hy
    have : (inline 200 shares).all (fun y => tame [] (tag none y)) = true := by decide +kernel
    simpa [hy] using this
  · intro y hy
    have : (inline 200 shares).all (refersTo "__shared_a") = true := by decide +kernel
    simpa [hy] using this

/-- `g(a): { f({x}): a  r(y): f(y) }.r`, with `g(7)(8)`: the function `f` takes its argument apart and gives back `a`. -/
def outerScope : Exp Nat :=
  .app (.app (.lam false ["a"]
    (.let_ .other (.of [("f", .lam false ["p"] (.let_ .destructureBlock (.of [("x", var 1 0 "p")]) (var 3 0 "a")))])
      (.lam false ["y"] (.app (var 1 0 "f") (.of [var 0 0 "y"]))))) (.of [num 7])) (.of [num 8])

/-- The program means 7.  Inlined, it means 8: what is put in under a function is not moved out of the way of it. -/
theorem inline_scope : Shows demo (erase outerScope) [0] (.native 7) ∧
    ∃ y, inline 200 outerScope = some y ∧ Shows demo (erase y) [0] (.native 8) :=
  ⟨look_finds (n := 200) (by decide +kernel), inlined_shows (by decide +kernel)⟩

/-- `let k: 7; f({x}): k in { k: 8  i: ADD  r: f(1) }.r`. -/
def innerName : Exp Nat :=
  .let_ .other (.of [("k", num 7), ("f", .lam false ["p"] (.let_ .destructureBlock (.of [("x", var 1 0 "p")]) (var 2 0 "k")))])
    (.let_ .defaultBlock (.of [("k", num 8), ("i", .intrinsic "ADD"), ("r", .app (var 1 1 "f") (.of [num 1]))])
      (var 0 2 "r"))

/-- The program means 7.  Inlined, it means 8: names in what is put in are taken for those of a let around it. -/
theorem inline_name : Shows demo (erase innerName) [0] (.native 7) ∧
    ∃ y, inline 200 innerName = some y ∧ Shows demo (erase y) [0] (.native 8) :=
  ⟨look_finds (n := 200) (by decide +kernel), inlined_shows (by decide +kernel)⟩

/-- Surroundings in which metadata can be asked for, as `META` does (eval/stg/meta.rs), here with 0 for none. -/
def metaDemo : World Nat where
  sem := ⟨demo.sem.globals ++ [⟨.lambda 1 0, .demeta (.atom (.l 0)) (.atom (.l 0)) (.cons 3 [.v 0])⟩], 0, demo.sem.prim⟩
  index := fun name => if name = "META" then some 4 else demo.index name
  prelude := fun _ => none
  noIndex := 0

/-- `` ` 9 id(x): x ``, and then the metadata of `id`. -/
def documented : Exp Nat :=
  .let_ .other (.of [("id", .metaOf (.lam false ["x"] (var 0 0 "x")) (num 9))]) (call "META" [var 0 0 "id"])

/-- The program means 9.  Inlined, it means that there is no metadata: what is put in for a name is without its metadata. -/
theorem inline_meta : Shows metaDemo (erase documented) [0] (.native 9) ∧
    ∃ y, inline 200 documented = some y ∧ Shows metaDemo (erase y) [0] (.native 0) :=
  ⟨look_finds (n := 200) (by decide +kernel), inlined_shows (by decide +kernel)⟩

/-! ## Applications -/

mutual
theorem apps_trav {f : Nat → Var → Exp K} (hf : ∀ d v, apps (f d v) = 0) (x : Exp K) (d : Nat) : apps (x.trav f d) = apps x := by
  match x with
  | .var v => exact hf d v
  | .let_ t bs b => simp only [Exp.trav, apps, apps_trav hf b, appsB_trav hf bs]
  | .lam i ps b => simp only [Exp.trav, apps, apps_trav hf b]
  | .app g xs => simp only [Exp.trav, apps, apps_trav hf g, appsL_trav hf xs]
  | .lit p => rfl
  | .intrinsic n => rfl
  | .metaOf x m => simp only [Exp.trav, apps, apps_trav hf x, apps_trav hf m]
  | .node k xs => simp only [Exp.trav, apps, appsL_trav hf xs]
theorem appsL_trav {f : Nat → Var → Exp K} (hf : ∀ d v, apps (f d v) = 0) (xs : Exps K) (d : Nat) : appsL (xs.trav f d) = appsL xs := by
  match xs with
  | .nil => rfl
  | .cons x xs => simp only [Exps.trav, appsL, apps_trav hf x, appsL_trav hf xs]
theorem appsB_trav {f : Nat → Var → Exp K} (hf : ∀ d v, apps (f d v) = 0) (xs : Binds K) (d : Nat) : appsB (xs.trav f d) = appsB xs := by
  match xs with
  | .nil => rfl
  | .cons _ x xs => simp only [Binds.trav, appsB, apps_trav hf x, appsB_trav hf xs]
end

theorem apps_openVar (ns : List String) (d : Nat) (v : Var) : apps (openVar (K := K) ns d v) = 0 := by
  cases v <;> simp only [openVar] <;> repeat' split
  all_goals rfl

theorem apps_closeVar (ns : List String) (d : Nat) (v : Var) : apps (closeVar (K := K) ns d v) = 0 := by
  cases v <;> simp only [closeVar] <;> repeat' split
  all_goals rfl

theorem apps_succVar (d : Nat) (v : Var) : apps (succVar (K := K) d v) = 0 := by
  cases v <;> simp only [succVar] <;> repeat' split
  all_goals rfl

theorem apps_succs (n : Nat) (x : Exp K) : apps (succs n x) = apps x := by
  induction n generalizing x with
  | zero => rfl
  | succ n ih => rw [succs, ih, succ, apps_trav apps_succVar]

/-- What is put in for a name costs. -/
def cost (m : List (String × Exp K)) (n : String) : Nat := ((findName m n).map apps).getD 0

theorem sum_append (f : String → Nat) (l l' : List String) : ((l ++ l').map f).sum = (l.map f).sum + (l'.map f).sum := by
  simp

mutual
theorem apps_substs (m : List (String × Exp K)) (x : Exp K) (d : Nat) :
    apps (x.trav (fun d v => match v with
      | .free n => match findName m n with
        | some r => succs d r
        | none => .var (.free n)
      | v => .var v) d) = apps x + ((frees x).map (cost m)).sum := by
  match x with
  | .var (.free n) =>
    simp only [Exp.trav, frees, List.map_cons, List.map_nil, List.sum_cons, List.sum_nil, cost, apps]
    cases findName m n with
    | none => simp [apps]
    | some r => simp [apps_succs]
  | .var (.bound ..) => simp [Exp.trav, apps, frees]
  | .let_ t bs b => simp only [Exp.trav, apps, frees, sum_append, apps_substs m b, appsB_substs m bs]; omega
  | .lam i ps b => simp only [Exp.trav, apps, frees, apps_substs m b]
  | .app g xs => simp only [Exp.trav, apps, frees, sum_append, apps_substs m g, appsL_substs m xs]; omega
  | .lit p => simp [Exp.trav, apps, frees]
  | .intrinsic n => simp [Exp.trav, apps, frees]
  | .metaOf x y => simp only [Exp.trav, apps, frees, sum_append, apps_substs m x, apps_substs m y]; omega
  | .node k xs => simp only [Exp.trav, apps, frees, appsL_substs m xs]
theorem appsL_substs (m : List (String × Exp K)) (xs : Exps K) (d : Nat) :
    appsL (xs.trav (fun d v => match v with
      | .free n => match findName m n with
        | some r => succs d r
        | none => .var (.free n)
      | v => .var v) d) = appsL xs + ((freesL xs).map (cost m)).sum := by
  match xs with
  | .nil => simp [Exps.trav, appsL, freesL]
  | .cons x xs => simp only [Exps.trav, appsL, freesL, sum_append, apps_substs m x, appsL_substs m xs]; omega
theorem appsB_substs (m : List (String × Exp K)) (xs : Binds K) (d : Nat) :
    appsB (xs.trav (fun d v => match v with
      | .free n => match findName m n with
        | some r => succs d r
        | none => .var (.free n)
      | v => .var v) d) = appsB xs + ((freesB xs).map (cost m)).sum := by
  match xs with
  | .nil => simp [Binds.trav, appsB, freesB]
  | .cons _ x xs => simp only [Binds.trav, appsB, freesB, sum_append, apps_substs m x, appsB_substs m xs]; omega
end

theorem cost_cons (p : String) (y : Exp K) (m : List (String × Exp K)) (occ : List String) :
    (occ.map (cost ((p, y) :: m))).sum ≤ occ.count p * apps y + (occ.map (cost m)).sum := by
  induction occ with
  | nil => simp
  | cons n occ ih =>
    simp only [List.map_cons, List.sum_cons]
    by_cases h : p = n
    · subst h
      have h1 : cost ((p, y) :: m) p = apps y := by simp [cost, findName]
      rw [h1, List.count_cons_self, Nat.add_mul]
      omega
    · have h1 : cost ((p, y) :: m) n = cost m n := by simp [cost, findName, h]
      rw [h1, List.count_cons_of_ne (Ne.symm h)]
      omega

/-- What is put in, as often as it is, and what is shared, costs no more than the arguments. -/
theorem plan_cost (occ : List String) (l : List (String × Exp K)) (avoid : List String) :
    (occ.map (cost (plan occ l avoid).1)).sum + ((plan occ l avoid).2.map fun q => apps q.2).sum ≤ (l.map fun q => apps q.2).sum := by
  induction l generalizing avoid with
  | nil =>
    have : ∀ n, cost (K := K) [] n = 0 := fun n => by simp [cost, findName]
    have h2 : (occ.map (cost (K := K) [])).sum = 0 := by
      induction occ with
      | nil => rfl
      | cons a l ih => simp [this, ih]
    simp [plan, h2]
  | cons q l ih =>
    obtain ⟨p, x⟩ := q
    by_cases hc : (decide (1 < occ.count p) && !duplicable x) = true
    · have := ih (freshName p avoid :: avoid)
      have h2 := cost_cons p (.var (.free (freshName p avoid))) (plan occ l (freshName p avoid :: avoid)).1 occ
      simp only [apps, Nat.mul_zero] at h2
      simp only [plan, hc, if_true, List.map_cons, List.sum_cons]
      omega
    · have := ih avoid
      have h2 := cost_cons p x (plan occ l avoid).1 occ
      have h3 : occ.count p * apps x ≤ apps x := by
        simp only [Bool.and_eq_true, decide_eq_true_eq, Bool.not_eq_eq_eq_not, Bool.not_true, not_and, Bool.not_eq_false] at hc
        by_cases h4 : 1 < occ.count p
        · have h5 : apps x = 0 := by
            have := hc h4
            cases x <;> first | rfl | simp [duplicable] at this
          simp [h5]
        · have : occ.count p ≤ 1 := by omega
          calc occ.count p * apps x ≤ 1 * apps x := Nat.mul_le_mul_right _ this
            _ = apps x := Nat.one_mul _
      simp only [plan, hc, if_false, Bool.false_eq_true, List.map_cons, List.sum_cons]
      omega

theorem appsL_list (xs : Exps K) : (xs.list.map apps).sum = appsL xs := by
  match xs with
  | .nil => rfl
  | .cons x xs => simp only [Exps.list, List.map_cons, List.sum_cons, appsL, appsL_list xs]

theorem appsB_of (l : List (String × Exp K)) : appsB (.of l) = (l.map fun q => apps q.2).sum := by
  induction l with
  | nil => rfl
  | cons q l ih => obtain ⟨n, x⟩ := q; simp only [Binds.of, appsB, List.map_cons, List.sum_cons, ih]

/-- Applying a function early costs no more than its body and its arguments. -/
theorem early_apps (ps : List String) (b : Exp K) (xs : List (Exp K)) (hl : ps.length = xs.length) :
    apps (applyEarly ps b xs) ≤ apps b + (xs.map apps).sum := by
  have h1 : apps (openLam ps b) = apps b := apps_trav (apps_openVar ps) b 0
  have h2 := plan_cost (frees (openLam ps b)) (ps.zip xs) (frees (openLam ps b) ++ xs.flatMap frees)
  have h3 : ((ps.zip xs).map fun q => apps q.2) = xs.map apps := by
    have := congrArg (List.map apps) (List.map_snd_zip (l₁ := ps) (l₂ := xs) (by omega))
    simpa [List.map_map, Function.comp_def] using this
  rw [h3] at h2
  cases hp : plan (frees (openLam ps b)) (ps.zip xs) (frees (openLam ps b) ++ xs.flatMap frees) with
  | mk m sh =>
    rw [hp] at h2
    have h4 : apps (substsDepth m (openLam ps b)) = apps (openLam ps b) + ((frees (openLam ps b)).map (cost m)).sum :=
      apps_substs m (openLam ps b) 0
    rw [h1] at h4
    simp only at h2
    simp only [applyEarly, hp]
    split
    · omega
    · simp only [closeLet, apps, appsB_of, List.map_map, apps_trav (apps_closeVar _)]
      have h5 : (sh.map ((fun q => apps q.2) ∘ fun p => (p.1, p.2.trav (closeVar (sh.map (·.1))) 0))) = sh.map fun q => apps q.2 := by
        apply List.map_congr_left
        intro q _
        simp only [Function.comp, apps_trav (apps_closeVar _)]
      rw [h5]
      omega

mutual
/-- **Applying functions early copies no application**: of any expression, there are no more after than before. -/
theorem beta_apps (x : Exp K) : apps (beta x) ≤ apps x := by
  match x with
  | .var v => exact Nat.le_refl _
  | .let_ t bs b => have := beta_apps b; have := betaB_apps bs; simp only [beta, apps]; omega
  | .lam i ps b => have := beta_apps b; simp only [beta, apps]; omega
  | .app f xs =>
    have h1 := beta_apps f
    have h2 := betaL_apps xs
    have walk : apps (.app (beta f) (betaL xs)) ≤ apps (.app f xs) := by simp only [apps]; omega
    cases f with
    | lam i ps b =>
      cases i with
      | false => simpa only [beta] using walk
      | true =>
        simp only [beta]
        split
        case isTrue hl =>
          have h3 := early_apps ps b (betaL xs).list (by rw [betaL_list]; simpa using hl)
          rw [appsL_list] at h3
          simp only [apps]
          omega
        case isFalse => simpa only [beta] using walk
    | _ => simpa only [beta] using walk
  | .lit p => exact Nat.le_refl _
  | .intrinsic n => exact Nat.le_refl _
  | .metaOf x m => have := beta_apps x; have := beta_apps m; simp only [beta, apps]; omega
  | .node k xs => exact betaL_apps xs
theorem betaL_apps (xs : Exps K) : appsL (betaL xs) ≤ appsL xs := by
  match xs with
  | .nil => exact Nat.le_refl _
  | .cons x xs => have := beta_apps x; have := betaL_apps xs; simp only [betaL, appsL]; omega
theorem betaB_apps (xs : Binds K) : appsB (betaB xs) ≤ appsB xs := by
  match xs with
  | .nil => exact Nat.le_refl _
  | .cons _ x xs => have := beta_apps x; have := betaB_apps xs; simp only [betaB, appsB]; omega
end

/-- `dup(fail + 1)`, with `dup` put in: three applications before and two after, though the argument is used twice. -/
example :
    let x : Exp Nat := .app (.lam true ["a"] (call "ADD" [var 0 0 "a", var 0 0 "a"])) (.of [call "ADD" [num 1, num 2]])
    apps x = 3 ∧ apps (beta x) = 2 := by decide +kernel

end Verif.Inl
