import Verif.ImportLoad

/-!
# Imports: properties (C33)

A set of imports is accepted iff no file transitively imports itself, and the
inputs reported for a unit are exactly those transitively imported from it.

Specification, in `ImportLoad`: `Reach rd imps roots` are the inputs reached
from the command line's inputs, `Imports` says that one file imports another,
`Trans R` is one or more steps of `R`.
-/

namespace Verif.Import

variable {L N F D : Type} [DecidableEq L]

/-- A graph with edges between its nodes passes the topological sort exactly if
no node leads to itself; the order lists every node once, before those it points at. -/
theorem toposort_iff_acyclic {n : Nat} {es : Edges} (hr : ∀ a b, (a, b) ∈ es → a < n ∧ b < n) :
    (∃ order, toposort n es = .ok order) ↔ ∀ v, ¬ Trans (fun a b => (a, b) ∈ es) v v := by
  rcases toposort_correct (n := n) (es := es) hr with ⟨h1, o, h2, _⟩ | ⟨h1, v, h2⟩
  · exact ⟨fun _ => h1, fun _ => ⟨o, h2⟩⟩
  · exact ⟨fun ⟨o, ho⟩ => (by rw [ho] at h2; cases h2), fun h => absurd h h1⟩

theorem toposort_order {n : Nat} {es : Edges} (hr : ∀ a b, (a, b) ∈ es → a < n ∧ b < n)
    {order : List Nat} (h : toposort n es = .ok order) :
    order.Nodup ∧ (∀ v, v ∈ order ↔ v < n) ∧
      ∀ before v after, order = before ++ v :: after → ∀ w, (v, w) ∈ es → w ∈ after := by
  rcases toposort_correct (n := n) (es := es) hr with ⟨_, o, h2, h3⟩ | ⟨_, v, h2⟩
  · rw [h] at h2; cases h2; exact h3
  · rw [h] at h2; cases h2

example : toposort 3 [(0, 1), (1, 2), (0, 2)] = .ok [0, 1, 2] := by decide
example : toposort 3 [(0, 1), (1, 2), (2, 0)] = .cycle 2 := by decide

/-- **What is accepted is sound, and complete.**  If loading succeeds, then with
respect to the texts actually read (`s.text`): no file transitively imports
itself, every input reached was read, and the inputs reported for a unit are, by
locator, that unit and all those transitively imported from it, once each, each
of them reached. No assumption on what the loader sees. -/
theorem accepted_is_acyclic_and_complete {w : World L N F D} {fuel : Nat} {lp : List D}
    {roots : List (Inp L N)} {s : Loader L N F D}
    (h : Loader.loadAll w fuel (Loader.new lp) roots = .ok s) :
    (∀ l, ¬ Trans (Imports s.text w.imports roots) l l) ∧
    (∀ i, Reach s.text w.imports roots i → (s.text i.loc).isSome) ∧
    ∀ i, Reach s.text w.imports roots i →
      ∃ out, s.graph.unitInputs i = some out ∧ (out.map Inp.loc).Nodup ∧
        (∀ n ∈ out, Reach s.text w.imports roots n) ∧
        ∀ l, l ∈ out.map Inp.loc ↔ l = i.loc ∨ Trans (Imports s.text w.imports roots) i.loc l := by
  obtain ⟨h1, _, h3⟩ := loadAll_ok (rd := s.text) (roots := roots) roots _ s h
    (fun i hi => .root hi) (fun _ _ h => h) (good_new _ _ _)
  have hreach : ∀ i, Reach s.text w.imports roots i → ∃ r ∈ roots, Reach s.text w.imports [r] i := by
    intro i hi
    induction hi with
    | root hr => exact ⟨_, hr, .root (by simp)⟩
    | step _ a b c ih =>
      obtain ⟨r, hr, h⟩ := ih
      exact ⟨r, hr, .step h a b c⟩
  have hdone : ∀ i, Reach s.text w.imports roots i → i.loc ∈ s.graph.locs ∧
      ∃ f, s.text i.loc = some f ∧ (i.eu = true → ∀ k ∈ w.imports f, s.graph.le i.loc k.loc) := by
    intro i hi
    obtain ⟨r, hr, hri⟩ := hreach i hi
    exact h3 r hr i hri
  have hle : ∀ a b, s.graph.le a b ↔ Imports s.text w.imports roots a b := by
    intro a b
    refine ⟨h1.sound a b, ?_⟩
    rintro ⟨i, f, j, hi, he, rfl, hf, hj, rfl⟩
    obtain ⟨_, f', hf', hk⟩ := hdone i hi
    rw [hf] at hf'
    cases hf'
    exact hk he j hj
  have htr : ∀ a b, Trans s.graph.le a b ↔ Trans (Imports s.text w.imports roots) a b :=
    fun a b => ⟨fun h => h.mono fun x y => (hle x y).1, fun h => h.mono fun x y => (hle x y).2⟩
  refine ⟨fun l hl => h1.acyclic l ((htr l l).2 hl), ?_, ?_⟩
  · intro i hi
    obtain ⟨_, f, hf, _⟩ := hdone i hi
    simp [hf]
  · intro i hi
    obtain ⟨out, o1, o2, o3, o4⟩ := unitInputs_spec h1.wf i (hdone i hi).1
    exact ⟨out, o1, o2, fun n hn => h1.nodes n (o3 n hn), fun l => by rw [o4, htr]⟩

/-- **Accepted iff no file transitively imports itself** (and all can be read).
Partial: assumes that a locator leads to the same text wherever it is met (`hrd`;
false of relative paths, see `same_locator_wrong_file`).  `U` bounds the files
there are, and `fuel` the depth of nested imports; the error for running out of
it never occurs. -/
theorem accepted_iff_acyclic_partial {w : World L N F D} {rd : L → Option F} {lp : List D}
    {roots : List (Inp L N)} {U : List L} {fuel : Nat}
    (hrd : ∀ lp l, w.read lp l = rd l)
    (hU : ∀ i, Reach rd w.imports roots i → i.loc ∈ U) (hf : U.length ≤ fuel) :
    (∃ s, Loader.loadAll w fuel (Loader.new lp) roots = .ok s) ↔
      (∀ l, ¬ Trans (Imports rd w.imports roots) l l) ∧
      ∀ i, Reach rd w.imports roots i → (rd i.loc).isSome := by
  constructor
  · rintro ⟨s, h⟩
    have hsnd : ∀ l f, s.text l = some f → rd l = some f := by
      have : ∀ (is : List (Inp L N)) (t t' : Loader L N F D), Loader.loadAll w fuel t is = .ok t' →
          (∀ l f, t.text l = some f → rd l = some f) → ∀ l f, t'.text l = some f → rd l = some f := by
        intro is
        induction is with
        | nil => intro t t' h; cases h; exact fun h => h
        | cons j js ih =>
          intro t t' h ht
          obtain ⟨t1, h1, h2⟩ := foldlM_ok h
          exact ih t1 t' h2 (text_sound hrd fuel t t1 j h1 ht)
      exact this roots _ s h fun l f hl => by simp [Loader.new, Loader.text] at hl
    obtain ⟨h1, _, h3⟩ := loadAll_ok (rd := rd) (roots := roots) roots _ s h
      (fun i hi => .root hi) hsnd (good_new _ _ _)
    have hdone : ∀ i, Reach rd w.imports roots i → i.loc ∈ s.graph.locs ∧
        ∃ f, rd i.loc = some f ∧ (i.eu = true → ∀ k ∈ w.imports f, s.graph.le i.loc k.loc) := by
      intro i hi
      have : ∃ r ∈ roots, Reach rd w.imports [r] i := by
        induction hi with
        | root hr => exact ⟨_, hr, .root (by simp)⟩
        | step _ a b c ih =>
          obtain ⟨r, hr, h⟩ := ih
          exact ⟨r, hr, .step h a b c⟩
      obtain ⟨r, hr, hri⟩ := this
      exact h3 r hr i hri
    refine ⟨fun l hl => h1.acyclic l (hl.mono ?_), fun i hi => ?_⟩
    · rintro a b ⟨i, f, j, hi, he, rfl, hf, hj, rfl⟩
      obtain ⟨_, f', hf', hk⟩ := hdone i hi
      rw [hf] at hf'
      cases hf'
      exact hk he j hj
    · obtain ⟨_, f, hf, _⟩ := hdone i hi
      simp [hf]
  · rintro ⟨h1, h2⟩
    cases h : Loader.loadAll w fuel (Loader.new lp) roots with
    | ok s => exact ⟨s, rfl⟩
    | error e =>
      exfalso
      have := loadAll_error hrd hU hf roots _ e h (fun i hi => .root hi)
        (fun l f hl => by simp [Loader.new, Loader.text] at hl) (good_new _ _ _)
      cases e with
      | fuel => exact this
      | cycle v => obtain ⟨l, hl⟩ := this; exact h1 l hl
      | unreadable l =>
        obtain ⟨⟨i, hi, rfl⟩, hn⟩ := this
        have := h2 i hi
        rw [hn] at this
        cases this

/-- A cycle is reported only if there is one, and a file is reported unreadable
only if it is and something reached asks for it.  Partial as above. -/
theorem errors_are_justified_partial {w : World L N F D} {rd : L → Option F} {lp : List D}
    {roots : List (Inp L N)} {U : List L} {fuel : Nat}
    (hrd : ∀ lp l, w.read lp l = rd l)
    (hU : ∀ i, Reach rd w.imports roots i → i.loc ∈ U) (hf : U.length ≤ fuel) :
    (∀ v, Loader.loadAll w fuel (Loader.new lp) roots = .error (.cycle v) →
      ∃ l, Trans (Imports rd w.imports roots) l l) ∧
    (∀ l, Loader.loadAll w fuel (Loader.new lp) roots = .error (.unreadable l) →
      (∃ i, Reach rd w.imports roots i ∧ i.loc = l) ∧ rd l = none) := by
  constructor
  · intro v h
    exact loadAll_error hrd hU hf roots _ _ h (fun i hi => .root hi)
      (fun l f hl => by simp [Loader.new, Loader.text] at hl) (good_new _ _ _)
  · intro l h
    exact loadAll_error hrd hU hf roots _ _ h (fun i hi => .root hi)
      (fun l f hl => by simp [Loader.new, Loader.text] at hl) (good_new _ _ _)

/-! ## A world of files in directories -/

/-- Files `(directory, locator) ↦ (directory they are in, what they import)`. A
locator is looked for along the search path, in order (`read_fs_input` and
`find_source_dir`, source.rs:555-575). -/
def fsWorld (files : List ((Nat × Nat) × (Nat × List (Inp Nat Nat)))) :
    World Nat Nat (Nat × List (Inp Nat Nat)) Nat where
  read lp l := lp.findSome? fun d => (files.find? fun e => e.1 = (d, l)).map Prod.snd
  dir lp l := (lp.findSome? fun d => (files.find? fun e => e.1 = (d, l)).map Prod.snd).map Prod.fst
  imports f := f.2

/-- An input read as eucalypt. -/
abbrev inp (l : Nat) : Inp Nat Nat := ⟨l, none, true⟩

/-- `main.eu` (10) imports `a/m.eu` (11) and `b/m.eu` (12); these import `x.eu`
(13), the first `y.eu` (14) too.  Directory 0 is `.`, 1 is `a`, 2 is `b`. -/
def twoDirs : World Nat Nat (Nat × List (Inp Nat Nat)) Nat :=
  fsWorld [((0, 10), (0, [inp 11, inp 12])), ((0, 11), (1, [inp 13, inp 14])), ((0, 12), (2, [inp 13])),
    ((1, 13), (1, [])), ((2, 13), (2, [])), ((1, 14), (1, []))]

/-- Accepted, and the unit's inputs reported. -/
example : (Loader.loadAll twoDirs 9 (Loader.new [0]) [inp 10]).toOption.map
    (fun s => s.graph.unitInputs (inp 10)) =
      some (some [inp 10, inp 12, inp 11, inp 13, inp 14]) := by decide

/-- **The same relative locator in two directories is taken for one file**: the
`x.eu` imported by `b/m.eu` is `b/x.eu` when that is loaded by itself, but the
text of `a/x.eu` is used for it when `a/m.eu` has been loaded before. -/
theorem same_locator_wrong_file :
    (Loader.loadAll twoDirs 9 (Loader.new [0]) [inp 12]).toOption.map (fun s => s.text 13)
      = some (some (2, [])) ∧
    (Loader.loadAll twoDirs 9 (Loader.new [0]) [inp 10]).toOption.map (fun s => s.text 13)
      = some (some (1, [])) := by
  constructor <;> decide

/-- **An input given again under a name loses the name**: with `eu a.eu b=a.eu`
both are loaded, but the inputs reported for `b=a.eu` do not contain it. The
translation looks the input up among them (`translate_unit`, desugarer.rs:221),
so it finds nothing. -/
theorem renamed_input_not_reported :
    (Loader.loadAll twoDirs 9 (Loader.new [0]) [inp 12, ⟨12, some 5, true⟩]).toOption.map
      (fun s => s.graph.unitInputs ⟨12, some 5, true⟩) = some (some [inp 12, inp 13]) := by
  decide

/-- A cycle through three files, and a file importing itself, are rejected; a
diamond is accepted. -/
example : (match Loader.loadAll (fsWorld [((0, 1), (0, [inp 2])), ((0, 2), (0, [inp 3])),
    ((0, 3), (0, [inp 1]))]) 9 (Loader.new [0]) [inp 1] with
      | .error (.cycle _) => true | _ => false) = true := by decide
example : (match Loader.loadAll (fsWorld [((0, 1), (0, [inp 1]))]) 9 (Loader.new [0]) [inp 1] with
      | .error (.cycle _) => true | _ => false) = true := by decide
example : (match Loader.loadAll (fsWorld [((0, 1), (0, [inp 2, inp 3])), ((0, 2), (0, [inp 4])),
    ((0, 3), (0, [inp 4])), ((0, 4), (0, []))]) 9 (Loader.new [0]) [inp 1] with
      | .ok _ => true | _ => false) = true := by decide

/-- The hypotheses of `accepted_iff_acyclic_partial` are met by a world with a cycle and
by one without: here the texts `n ↦ [n+1]` up to `m`, and `m ↦ last`. -/
example (last : List (Inp Nat Nat)) (hl : ∀ i ∈ last, i.loc ≤ 5) :
    let rd : Nat → Option (List (Inp Nat Nat)) := fun n => if n < 5 then some [inp (n + 1)] else some last
    ∀ i, Reach rd id [inp 0] i → i.loc ∈ List.range 6 := by
  intro rd i hi
  have : i.loc ≤ 5 := by
    induction hi with
    | root h => simp at h; simp [h]
    | step _ _ h1 h2 ih =>
      rename_i i j f _ _
      simp only [rd] at h1
      split at h1
      · cases h1; simp at h2; rw [h2]; show i.loc + 1 ≤ 5; omega
      · cases h1; exact hl _ h2
  simp; omega

end Verif.Import
