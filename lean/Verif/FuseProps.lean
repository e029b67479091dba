import Verif.HoistLemmas
import Verif.CompProps

/-!
# What is known is put in

What is known of blocks and lists that are written out is put in before a program is run, and members of the prelude's
namespaces are gone to at once.
-/

namespace Verif.Fuse
open Verif.Comp Verif.Bc
variable {K : Type} [DecidableEq K]

/-- Folding comes to an end: so many levels as there are suffice, and more make no difference. -/
theorem fuse_ends (x : Inl.Exp K) : ∃ y, ∀ n, levels x ≤ n → fuse n x = some y := by
  obtain ⟨y, h, _⟩ := fuse_settles (levels x) x (Nat.le_refl _)
  exact ⟨y, fun n hn => fuse_mono hn x y h⟩

/-- What is shown is kept, all of it and no more. -/
theorem fuse_shows {sym : K → Prop} {P : World K} (h : Std sym P) {n : Nat} {x y : Inl.Exp K} (hk : Keyed sym x)
    (hf : fuse n x = some y) (p : List Nat) (s : Sem.Seen K) : Shows P (mean y) p s ↔ Shows P (mean x) p s :=
  (star_shows (fuse_keeps h n x y hk hf).2 p s).symm

/-- Nothing known is left anywhere in the result. -/
theorem fuse_done {n : Nat} {x y z : Inl.Exp K} (hf : fuse n x = some y) (hp : Part z y) : ¬ Redex z := by
  obtain ⟨y', h, hs, _⟩ := fuse_settles (levels x) x (Nat.le_refl _)
  cases fuse_one hf h
  exact fun hr => redex_fold hr ((still_iff z).1 (part_still hp hs)).1

/-- Folding again changes nothing. -/
theorem fuse_again {n m : Nat} {x y z : Inl.Exp K} (hf : fuse n x = some y) (hm : fuse m y = some z) : z = y := by
  obtain ⟨y', h, hs, _⟩ := fuse_settles (levels x) x (Nat.le_refl _)
  cases fuse_one hf h
  exact fuse_one hm (fuse_still y hs (Nat.le_refl _))

/-- No calls are added. -/
theorem fuse_apps {n : Nat} {x y : Inl.Exp K} (hf : fuse n x = some y) : Inl.apps y ≤ Inl.apps x := fuse_calls n x y hf

/-! ## A world to show it in -/

/-- The intrinsics, a function `__str_upper`, and a namespace `str` with the member `upper` (the symbol 10), which is that function. -/
def world : World Nat where
  sem := ⟨[⟨.value, .cons 6 []⟩, headCode .hole .hole, tailCode .hole .hole, lookupCode 4 5 .hole, matchesCode 6 .hole .hole,
      extractCode .hole .hole, eqCode 7 .nil .nil, ⟨.lambda 2 0, .hole⟩, ⟨.lambda 1 0, .atom (.l 0)⟩,
      ⟨.value, .cons 8 [.g 10, .v 0]⟩, ⟨.value, .cons 7 [.g 11, .g 0]⟩, ⟨.value, .cons 9 [.v 10, .g 8]⟩], 0,
    fun id ks => match id, ks with
      | 7, [a, b] => .ok (.cons (if a = b then 1 else 2) [])
      | _, _ => .error 1⟩
  index := fun name => if name = "HEAD" then some 1 else if name = "TAIL" then some 2 else if name = "LOOKUPOR" then some 3
    else if name = "LOOKUP_FAIL" then some 7 else none
  prelude := fun name => if name = "str" then some 9 else if name = "__str_upper" then some 8 else none
  noIndex := 0

theorem world_std : Std (fun _ => True) world :=
  ⟨⟨1, .hole, .hole, by simp [world], rfl⟩, ⟨2, .hole, .hole, by simp [world], rfl⟩,
    ⟨3, 4, 5, 6, 7, .hole, .hole, .hole, .hole, .hole, .nil, .nil, by simp [world], rfl, rfl, rfl, rfl, fun _ _ _ _ => rfl⟩⟩

def nums : List Nat → Inl.Exps Nat
  | [] => .nil
  | n :: ns => .cons (.lit (.num n)) (nums ns)

/-- `__HEAD(__TAIL([1, {a: 2}.a, 3]))`. -/
def sample : Inl.Exp Nat := .app (.intrinsic "HEAD") (.cons (.app (.intrinsic "TAIL") (.cons (.node .list
  (.cons (.lit (.num 1)) (.cons (.node (.lookup 20) (.cons (.node (.block [21, 20]) (nums [5, 2])) .nil)) (nums [3])))) .nil)) .nil)

def sampleResult : Bool := match fuse 9 sample with
  | some (.lit (.num 2)) => true
  | _ => false

example : (∃ y, fuse 9 sample = some y ∧ Shows world (mean y) [0] (.native 2)) ∧ Shows world (mean sample) [0] (.native 2) ∧
    Keyed (fun _ => True) sample ∧ sampleResult = true := by
  refine ⟨⟨.lit (.num 2), rfl, look_finds (n := 100) (by decide +kernel)⟩, look_finds (n := 200) (by decide +kernel), ?_,
    by decide +kernel⟩
  simp [sample, Keyed, KeyedL, nums]

/-- A fallback is used where there is nothing else: `{a: 2}.b` is left as it is, `{a: 2}.b ?? 7` is 7. -/
example : fuse 9 (.node (.lookup 21) (.cons (.node (.block [20]) (nums [2])) .nil) : Inl.Exp Nat) =
      some (.node (.lookup 21) (.cons (.node (.block [20]) (nums [2])) .nil)) ∧
    fuse 9 (.node (.lookupOr 21) (.cons (.node (.block [20]) (nums [2])) (nums [7])) : Inl.Exp Nat) = some (.lit (.num 7)) := ⟨rfl, rfl⟩

/-! ## Hoisting -/

/-- A name made for a member comes apart again, if the namespace has no underscore. -/
theorem split_hoisted {ns m : List Char} (h : '_' ∉ ns) (hn : ns ≠ []) (hm : m ≠ []) :
    split ('_' :: '_' :: ns ++ '_' :: m) = some (ns, m) := by
  have ht : (ns ++ '_' :: m).takeWhile (· ≠ '_') = ns := by
    rw [List.takeWhile_append_of_pos (fun a ha => by simpa using fun he : a = '_' => h (he ▸ ha))]
    simp
  simp only [split, List.cons_append, ht, List.drop_left, hn, hm, or_self, ↓reduceIte]

/-- With one it comes apart otherwise: `a_b.c` is taken for `a.b_c`. -/
theorem split_hoisted_false : ¬ ∀ ns m : List Char, ns ≠ [] → m ≠ [] → split ('_' :: '_' :: ns ++ '_' :: m) = some (ns, m) := by
  intro h
  exact absurd (h ['a', '_', 'b'] ['c'] (by simp) (by simp)) (by decide +kernel)

/-- A global with such a name is the member of the namespace: to look the member up in the prelude's namespace comes, whatever
is to be used if there is none, to the same as the global. -/
def Named (P : World K) (key : String → K) (g : String) : Prop :=
  ∀ ns m, split g.toList = some (ns, m) → ∀ d, Fold.Joins P (lookupOr (key (String.ofList m)) (.free (String.ofList ns)) d) (.free g)

/-- The full statement is `∀ x`: what is shown is kept whatever is in the program.  That is false (`hoist_shows_false`).  It is so if
the program itself has no namespace with members to be hoisted. -/
theorem hoist_shows_partial {P : World K} {key : String → K} {globals : List String} (h : ∀ g ∈ globals, Named P key g)
    {n : Nat} {x : Inl.Exp K} (hx : collect n x = []) (p : List Nat) (s : Sem.Seen K) :
    Shows P (mean (hoist key globals n x)) p s ↔ Shows P (mean x) p s := by
  unfold hoist
  simp only [hx, tableOf, List.isEmpty_nil, ↓reduceIte]
  split
  · exact Iff.rfl
  · refine (Fold.shows_same (rewrite_same ?_ x) p s).symm
    intro ns k g hg d
    rcases seed_from hg with hg | ⟨_, hm, m, hs, hk⟩
    · simp [Table.get] at hg
    · have := h g hm _ _ hs d
      rwa [hk, String.ofList_toList] at this

def key (s : String) : Nat := if s = "upper" then 10 else if s = "str" then 11 else 12

omit [DecidableEq K] in
/-- So many steps, by calculation. -/
theorem go_steps {P : World K} {n : Nat} {c c' : Cfg K} (h : go P n c = .next c') : ∃ n, Inl.Steps P n c c' := by
  induction n generalizing c with
  | zero => cases h; exact ⟨0, .zero⟩
  | succ n ih =>
    unfold go at h
    split at h
    · rename_i c1 hc
      obtain ⟨m, hm⟩ := ih h
      exact ⟨_, .succ hc hm⟩
    · rename_i r hr
      exact absurd h (hr _)

theorem world_named : ∀ g ∈ ["__str_upper"], Named world key g := by
  intro g hg ns m hs d
  simp only [List.mem_singleton] at hg
  subst hg
  have : split "__str_upper".toList = some (['s', 't', 'r'], ['u', 'p', 'p', 'e', 'r']) := by decide +kernel
  rw [this] at hs
  cases hs
  have hk : key (String.ofList ['u', 'p', 'p', 'e', 'r']) = 10 := by decide +kernel
  have hn : String.ofList ['s', 't', 'r'] = "str" := by decide +kernel
  rw [hk, hn]
  exact ⟨.const (.clo 1 (.atom (.l 0)) .nil), fun ρ S => go_steps (n := 48) rfl, fun ρ S => go_steps (n := 1) rfl⟩

/-- `[str.upper]`. -/
def uses : Inl.Exp Nat := .node .list (.cons (.node (.lookup 10) (.cons (.var (.free "str")) .nil)) .nil)

example : collect 9 uses = [] ∧ hoist key ["__str_upper"] 9 uses = .node .list (.cons (.var (.free "__str_upper")) .nil) ∧
    Shows world (mean uses) [0] (.function 1) ∧ Shows world (mean (hoist key ["__str_upper"] 9 uses)) [0] (.function 1) := by
  refine ⟨by decide +kernel, ?_, look_finds (n := 200) (by decide +kernel), look_finds (n := 200) (by decide +kernel)⟩
  rfl

/-- `{mine: {str: {upper: __LOOKUPOR}} x: str.upper}`: `x` is the member of the prelude's namespace. -/
def shadow : Inl.Exp Nat :=
  .let_ .defaultBlock
    (.cons "mine" (.let_ .defaultBlock
      (.cons "str" (.let_ .defaultBlock (.cons "upper" (.intrinsic "LOOKUPOR") .nil)
        (.node (.block [10]) (.cons (.var (.bound 0 0 (some "upper"))) .nil))) .nil)
      (.node (.block [11]) (.cons (.var (.bound 0 0 (some "str"))) .nil)))
    (.cons "x" (.node (.lookup 10) (.cons (.var (.free "str")) .nil)) .nil))
    (.node (.block [30, 31]) (.cons (.var (.bound 0 0 (some "mine"))) (.cons (.var (.bound 0 1 (some "x"))) .nil)))

omit [DecidableEq K] in
/-- Only one thing is seen at the end of a path. -/
theorem finds_det {P : World K} {p : List Nat} {v : Val K} {s t : Sem.Seen K} (h : Finds P p v s) (h' : Finds P p v t) : s = t := by
  induction p generalizing v with
  | nil =>
    obtain ⟨_, _, h1, h2⟩ := h
    obtain ⟨_, _, h3, h4⟩ := h'
    cases (h1.det h3).2
    rw [h2] at h4
    exact Option.some.inj h4
  | cons i p ih =>
    obtain ⟨_, _, _, _, _, h1, h2, h3, h4⟩ := h
    obtain ⟨_, _, _, _, _, k1, k2, k3, k4⟩ := h'
    cases (h1.det k1).2
    rw [h2] at k2
    cases k2
    rw [h3] at k3
    cases k3
    exact ih h4 k4

/-- A namespace of the program's own, wherever it is, that has the name of one of the prelude's takes its place. -/
theorem hoist_shows_false : ¬ ∀ (P : World Nat) (key : String → Nat) (globals : List String) (n : Nat) (x : Inl.Exp Nat),
    Std (fun _ => True) P → (∀ g ∈ globals, Named P key g) → Keyed (fun _ => True) x →
    ∀ p s, Shows P (mean (hoist key globals n x)) p s ↔ Shows P (mean x) p s := by
  intro h
  have h1 : Shows world (mean shadow) [0, 1, 0, 1] (.function 1) := look_finds (n := 200) (by decide +kernel)
  have h2 : Shows world (mean (hoist key ["__str_upper"] 9 shadow)) [0, 1, 0, 1] (.function 3) :=
    look_finds (n := 200) (by decide +kernel)
  have h3 := (h world key ["__str_upper"] 9 shadow world_std world_named (by simp [shadow, Keyed, KeyedL, KeyedB]) _ _).1 h2
  exact absurd (finds_det h1 h3) (by simp)

end Verif.Fuse
