import Verif.MachHoles

/-!
# The machine gives what the program means

C50, C51, C52.  `Sem.Means P root x`: the program shows `x` by name, with no heap (`SemSpec`).
-/

namespace Verif.Mach
open Verif.Bc Verif.Env Verif.Sem
variable {K : Type}

/-! ## C50 -/

/-- A value the machine ends with is the program's value. -/
theorem machine_value_partial (P : Prog K) (root : Syn K) (fuel n : Nat) (s : State K) (hf : FairRun P fuel (init P root))
    (h : run P fuel n (init P root) = some (.value s)) :
    ∃ x, showOf s.cur = some x ∧ Means P.toWorld root x := by
  obtain ⟨m, w, ht, hs, hsome⟩ := run_sound (init_inv P root) hf h
  obtain ⟨x, hx⟩ := Option.isSome_iff_exists.1 hsome
  obtain ⟨k, hk⟩ := program_complete P.toWorld ht
  exact ⟨x, hx, k, .ok w, hk, by rw [hs, hx]⟩

/-- An error the machine ends with is the program's error, unless it is one of the machine's own limits or a black
hole. -/
theorem machine_error_partial (P : Prog K) (root : Syn K) (fuel n : Nat) (x : Err) (hf : FairRun P fuel (init P root))
    (h : run P fuel n (init P root) = some (.error x)) (hl : Err.limit x = false) (hh : x ≠ .hole) :
    Means P.toWorld root (.error x) := by
  rcases run_sound (init_inv P root) hf h with h | h | ⟨m, ht⟩
  · rw [hl] at h; cases h
  · exact absurd h hh
  · obtain ⟨k, hk⟩ := program_complete P.toWorld ht
    exact ⟨k, .error x, hk, rfl⟩

theorem means_unique {P : World K} {root : Syn K} {x y : Seen K} (h : Means P root x) (h' : Means P root y) : x = y := by
  obtain ⟨n, r, hp, hs⟩ := h
  obtain ⟨n', r', hp', hs'⟩ := h'
  obtain ⟨m, ht⟩ := program_sound P hp
  obtain ⟨m', ht'⟩ := program_sound P hp'
  have := (ht.det ht').2
  subst this
  rw [hs] at hs'
  cases hs'
  rfl

/-- A program that means something makes the machine end, and with that, unless it meets one of its own limits or a black
hole. -/
theorem machine_complete_partial (P : Prog K) (root : Syn K) (fuel : Nat) (x : Seen K)
    (hf : FairRun P fuel (init P root)) (h : Means P.toWorld root x) :
    (∃ n s, run P fuel n (init P root) = some (.value s) ∧ showOf s.cur = some x) ∨
    (∃ n e, run P fuel n (init P root) = some (.error e) ∧ (x = .error e ∨ Err.limit e = true ∨ e = .hole)) := by
  have hI := init_inv P root
  obtain ⟨m, r, hp, _⟩ := h
  obtain ⟨k, ht⟩ := program_sound P.toWorld hp
  obtain ⟨n, o, hr⟩ := run_ends (A := [[], P.globals.map (close · .nil)]) (c := .clo 0 root .nil) (r := r) (m := k) hI hf
    (by simpa [init, frs_nil] using ht)
  cases o with
  | value s =>
    obtain ⟨y, hy, hm⟩ := machine_value_partial P root fuel n s hf hr
    exact .inl ⟨n, s, hr, by rw [hy, means_unique hm ⟨m, r, hp, by assumption⟩]⟩
  | error e =>
    refine .inr ⟨n, e, hr, ?_⟩
    cases hl : Err.limit e with
    | true => exact .inr (.inl rfl)
    | false =>
      by_cases hh : e = .hole
      · exact .inr (.inr hh)
      · exact .inl (means_unique ⟨m, r, hp, by assumption⟩ (machine_error_partial P root fuel n e hf hr hl hh))

/-- Annotations peeled or not, and whatever fuel its intrinsics have, the machine ends with the same value. -/
theorem engines_agree_partial (P P' : Prog K) (hP : P.toWorld = P'.toWorld) (root : Syn K) (fuel fuel' n n' : Nat)
    (s s' : State K) (hf : FairRun P fuel (init P root)) (hf' : FairRun P' fuel' (init P' root))
    (h : run P fuel n (init P root) = some (.value s)) (h' : run P' fuel' n' (init P' root) = some (.value s')) :
    showOf s.cur = showOf s'.cur := by
  obtain ⟨x, hx, hm⟩ := machine_value_partial P root fuel n s hf h
  obtain ⟨y, hy, hm'⟩ := machine_value_partial P' root fuel' n' s' hf' h'
  rw [hP] at hm
  rw [hx, hy, means_unique hm hm']

/-! ### Fuel only ever takes away -/

theorem nativeOf_fuel {P : Prog K} {σ v k} {n m : Nat} (h : nativeOf P σ n v = some k) (hm : n ≤ m) : nativeOf P σ m v = some k := by
  induction n generalizing v m with
  | zero => cases v with
    | native => cases m <;> simpa [nativeOf] using h
    | clo => simp [nativeOf] at h
  | succ n ih =>
    obtain ⟨m, rfl⟩ : ∃ j, m = j + 1 := ⟨m - 1, by omega⟩
    cases v with
    | native => simpa [nativeOf] using h
    | clo u a c e =>
      simp only [nativeOf] at h ⊢
      split at h
      · split at h
        · exact ih h (by omega)
        · cases h
      · cases h

theorem nativeArgs_fuel {P : Prog K} {σ vs ks} {n m : Nat} (h : nativeArgs P σ n vs = some ks) (hm : n ≤ m) :
    nativeArgs P σ m vs = some ks := by
  induction vs generalizing ks with
  | nil => simpa [nativeArgs] using h
  | cons v vs ih =>
    simp only [nativeArgs] at h ⊢
    cases hk : nativeOf P σ n v with
    | none => rw [hk] at h; cases h
    | some k =>
      rw [hk] at h
      rw [nativeOf_fuel hk hm]
      simp only [Option.map_eq_some_iff] at h ⊢
      obtain ⟨ks', hks, rfl⟩ := h
      exact ⟨ks', ih hks, rfl⟩

theorem runPrim_fuel {P : Prog K} {s : State K} {id vs} {n m : Nat} (hm : n ≤ m) :
    runPrim P s n id vs = .error .argShape ∨ runPrim P s m id vs = runPrim P s n id vs := by
  unfold runPrim
  cases hk : nativeArgs P s.store n vs with
  | none => exact .inl rfl
  | some ks => rw [nativeArgs_fuel hk hm]; exact .inr rfl

theorem step_fuel {P : Prog K} {s : State K} {n m : Nat} (hm : n ≤ m) :
    step P n s = .error .argShape ∨ step P m s = step P n s := by
  unfold step
  split
  · unfold returnNative
    split <;> first | exact .inr rfl | exact runPrim_fuel hm
  · unfold returnFun
    split <;> first | exact .inr rfl | exact runPrim_fuel hm
  · unfold handleOp
    split <;> try exact .inr rfl
    · unfold returnData
      split <;> try exact .inr rfl
      split <;> first | exact .inr rfl | exact runPrim_fuel hm
    · split <;> first | exact .inr rfl | exact runPrim_fuel hm

/-- More fuel for the intrinsics changes only runs that stopped for want of an argument. -/
theorem run_fuel (P : Prog K) (s : State K) (n m steps : Nat) (o : Outcome K) (hm : n ≤ m)
    (h : run P n steps s = some o) (ho : o ≠ .error .argShape) : run P m steps s = some o := by
  induction steps generalizing s with
  | zero => simp [run] at h
  | succ k ih =>
    rw [run] at h ⊢
    rcases step_fuel (P := P) (s := s) hm with hs | hs
    · rw [hs] at h
      simp only [Option.some.injEq] at h
      exact absurd h.symm ho
    · rw [hs]
      cases hx : step P n s with
      | next s' => rw [hx] at h; exact ih s' h
      | done s' => rw [hx] at h; exact h
      | error x => rw [hx] at h; exact h

/-! ## C51 -/

theorem reaches_inv {P : Prog K} {V : Val K} {A : Ghost K} {s s' : State K} {c : Val K} {fuel : Nat}
    (hI : Inv P V A s c) (hf : FairRun P fuel s) (h : Reaches P fuel s s') :
    ∃ A' c', Inv P V A' s' c' ∧ FairRun P fuel s' := by
  induction h generalizing A c with
  | refl s => exact ⟨A, c, hI, hf⟩
  | step hs _ ih =>
    have hst := step_ok hI (hf _ (.refl _))
    rw [hs] at hst
    rcases hst with ⟨A', c', hI', _⟩ | ⟨h, _⟩
    · exact ih hI' (hf.next hs)
    · cases h

/-- A black hole is met only by a program without a value, if every black hole in the heap at that point is of a thunk
still under evaluation.  (A program with a `hole` node of its own may show that error.) -/
theorem loop_genuine_partial (P : Prog K) (root : Syn K) (fuel : Nat) (s : State K) (hf : FairRun P fuel (init P root))
    (h : StopsAt P fuel (init P root) s .hole) (hp : HolesPending s) (x : Seen K) (hm : Means P.toWorld root x) :
    x = .error .hole := by
  obtain ⟨A, c, hI, hf'⟩ := reaches_inv (init_inv P root) hf h.1
  obtain ⟨m, r, hpr, hsn⟩ := hm
  obtain ⟨k, ht⟩ := program_sound P.toWorld hpr
  have hst := step_ok hI (hf' _ (.refl _))
  rw [h.2] at hst
  rcases hst with (h' | ⟨n, h'⟩) | ⟨_, ⟨hh, a, p, ha, hc, hcont⟩, hu⟩
  · cases h'
  · obtain ⟨m', r', ht', he⟩ := hI.top.bwd n _ h'
    cases he
    have := (ht.det ht').2
    subst this
    simp only [seen, Option.some.injEq] at hsn
    exact hsn.symm
  · exfalso
    obtain ⟨n, r', _, ht', _⟩ := hI.top.fwd k r ht
    obtain ⟨j, t, _, hj, _⟩ := Term.split (S' := []) ht' rfl
    have hhole : ∃ env, s.cur = .clo false 0 .hole env := by
      unfold isHole at hh
      split at hh
      · rename_i env hcur; exact ⟨env, hcur⟩
      · cases hh
    obtain ⟨env, hcur⟩ := hhole
    obtain ⟨uenv, i, b, hmem, hcell, hb⟩ := hp a.id p env (by rw [← hcur]; exact hcont)
    obtain ⟨acc, hL⟩ := hu.find hmem hcell
    have : ghostAt A b p = c := by rw [hc]; simp [ghostAt, hb]
    rw [this] at hL
    exact no_term_loop hL hj

theorem hp_run {P : Prog K} {fuel : Nat} {s0 s : State K} (hr : Reaches P fuel s0 s) (hp : HP s0.store s0.stack)
    (hn : ∀ s, Reaches P fuel s0 s → ¬ CopiesHole P fuel s) : HP s.store s.stack := by
  induction hr with
  | refl => exact hp
  | @step s1 s2 s3 hs hr ih =>
    refine ih ?_ fun s' h' => hn s' (.step hs h')
    have := hstep P fuel s1
    rw [hs] at this
    exact this hp fun id p env hle hc => hn s1 (.refl s1) ⟨s2, id, p, env, hs, hle, hc⟩

/-- Black holes are of thunks under evaluation as long as no step copies one. -/
theorem holes_pending (P : Prog K) (root : Syn K) (fuel : Nat) (hg : ∀ f ∈ P.globals, f.body ≠ .hole)
    (hn : ∀ s, Reaches P fuel (init P root) s → ¬ CopiesHole P fuel s) (s : State K)
    (h : Reaches P fuel (init P root) s) : HolesPending s := by
  have start : HP (init P root).store (init P root).stack := by
    intro id p env hc
    exfalso
    unfold content init at hc
    match id with
    | 0 => simp at hc
    | 1 =>
      simp only [List.getElem?_cons_succ, List.getElem?_cons_zero, Option.bind_some, List.getElem?_map,
        Option.map_eq_some_iff] at hc
      obtain ⟨f, hf, he⟩ := hc
      have := hg f (List.mem_of_getElem? hf)
      unfold closeForm at he
      split at he <;> simp_all
    | n + 2 => simp at hc
  exact hp_run h start hn

/-- In a run in which no step copies a black hole, one is met only by a program without a value. -/
theorem loop_genuine_uncopied_partial (P : Prog K) (root : Syn K) (fuel : Nat) (s : State K)
    (hg : ∀ f ∈ P.globals, f.body ≠ .hole) (hf : FairRun P fuel (init P root))
    (hn : ∀ s, Reaches P fuel (init P root) s → ¬ CopiesHole P fuel s)
    (h : StopsAt P fuel (init P root) s .hole) (x : Seen K) (hm : Means P.toWorld root x) : x = .error .hole :=
  loop_genuine_partial P root fuel s hf h (holes_pending P root fuel hg hn s h.1) x hm

/-! ## Concrete programs -/

def fairNow (P : Prog K) (fuel : Nat) (s : State K) : Bool :=
  (primArgs P s).all (fun v => !throughFun P s.store fuel v) && !emptyCall s

def fairFor (P : Prog K) (fuel : Nat) : Nat → State K → Bool
  | 0, _ => false
  | n + 1, s => fairNow P fuel s && match step P fuel s with
    | .next s' => fairFor P fuel n s'
    | _ => true

theorem fairFor_run {P : Prog K} {fuel n s} (h : fairFor P fuel n s = true) : FairRun P fuel s := by
  intro s' hr
  induction hr generalizing n with
  | refl s =>
    cases n with
    | zero => simp [fairFor] at h
    | succ n =>
      simp only [fairFor, fairNow, Bool.and_eq_true, List.all_eq_true, Bool.not_eq_true'] at h
      exact ⟨h.1.1, h.1.2⟩
  | step hs _ ih =>
    cases n with
    | zero => simp [fairFor] at h
    | succ n =>
      simp only [fairFor, hs, Bool.and_eq_true] at h
      exact ih h.2

namespace Ex

/-- Intrinsic 0 adds, 1 always fails with 7. Global 0 is `f`. -/
def world (f : Form Nat) : Prog Nat where
  globals := [f]
  merge := 0
  prim id ks := if id = 0 then .ok (.atom (.v ks.sum)) else .error 7
  peel := true

def box (r : Ref Nat) : Syn Nat := .cons 3 [r]

/-- `f x = x + x`, on boxes. -/
def double : Form Nat := ⟨.lambda 1 0, .fused 0 (.l 0) (.l 0)⟩

/-- `let y = f (box 4)` shared: `f y`, with `y` a thunk used twice. -/
def shared : Syn Nat :=
  .let_ (.cons .value (box (.v 4)) .nil)
    (.letrec (.cons .thunk (.ann 9 (.app (.g 0) [.l 1] false)) .nil)
      (.ann 10 (.dapp 0 (.g 0) [.l 0] false)))

theorem shared_fair : FairRun (world double) 5 (init (world double) shared) := fairFor_run (n := 60) (by decide +kernel)

theorem shared_run : (match run (world double) 5 60 (init (world double) shared) with
    | some (.value s) => showOf s.cur
    | _ => none) = some (.native 16) := by decide +kernel

theorem shared_means : Means (world double).toWorld shared (.native 16) := by
  have h := shared_run
  cases hr : run (world double) 5 60 (init (world double) shared) with
  | none => rw [hr] at h; cases h
  | some o =>
    cases o with
    | error x => rw [hr] at h; cases h
    | value s =>
      rw [hr] at h
      obtain ⟨x, hx, hm⟩ := machine_value_partial _ _ _ _ _ shared_fair hr
      dsimp only at h
      rw [h] at hx
      cases hx
      exact hm

/-- Reading a tail where the cell is being made: `f c = case c of Cons(h, t) → Cons(0, t)`. -/
def retail : Form Nat := ⟨.lambda 1 0, .case (.atom (.l 0)) (.cons 10 (.cons 10 [.v 0, .l 1]) .nil) .none⟩

/-- `letrec xs = let c = Cons(1, xs) in f c` in: the head of the tail of `xs`. -/
def knot : Syn Nat :=
  .letrec (.cons .thunk (.let_ (.cons .value (.cons 10 [.v 1, .l 0]) .nil) (.app (.g 0) [.l 0] false)) .nil)
    (.case (.atom (.l 0)) (.cons 10 (.case (.atom (.l 1)) (.cons 10 (.atom (.l 0)) .nil) .none) .nil) .none)

/-- `letrec x = x in x`. -/
def spin : Syn Nat := .letrec (.cons .thunk (.atom (.l 0)) .nil) (.atom (.l 0))

/-- `let k = 5 in let f = \ x -> x in add f 1`. -/
def funArg : Syn Nat :=
  .let_ (.cons .value (.atom (.v 5)) .nil) (.let_ (.cons (.lambda 1 0) (.atom (.l 0)) .nil) (.bif 0 [.l 0, .v 1]))

/-- What a run shows. -/
def out (P : Prog Nat) (root : Syn Nat) : Option (Seen Nat) :=
  match run P 5 60 (init P root) with
  | some (.value s) => showOf s.cur
  | some (.error x) => some (.error x)
  | none => none

/-- What the reference shows. -/
def says (P : Prog Nat) (root : Syn Nat) : Option (Seen Nat) :=
  match program P.toWorld 40 (.clo 0 root .nil) with
  | some r => seen r
  | none => none

theorem says_means {P : Prog Nat} {root x} (h : says P root = some x) : Means P.toWorld root x := by
  unfold says at h
  split at h
  · rename_i r hr; exact ⟨40, r, hr, h⟩
  · cases h

/-- The errors of runs too are met: `shared` with a failing intrinsic. -/
def failing : Syn Nat := .seq (.atom (.v 3)) (.bif 1 [.v 2])

example : FairRun (world double) 5 (init (world double) failing) ∧ out (world double) failing = some (.error (.prim 7)) ∧
    says (world double) failing = some (.error (.prim 7)) :=
  ⟨fairFor_run (n := 60) (by decide +kernel), by decide +kernel, by decide +kernel⟩

end Ex

open Ex in
/-- C52 as stated is false: an intrinsic reads a number out of a function, so the machine ends with a value where the
program is in error. -/
theorem prim_reads_function :
    ¬ ∀ (P : Prog Nat) (root : Syn Nat) (fuel n : Nat) (s : State Nat) (x : Seen Nat),
      run P fuel n (init P root) = some (.value s) → Means P.toWorld root x → showOf s.cur = some x := by
  intro h
  have ho : out (world double) funArg = some (.native 6) := by decide +kernel
  have hm : Means (world double).toWorld funArg (.error .argShape) := says_means (by decide +kernel)
  unfold out at ho
  split at ho
  · rename_i s hr
    have := h _ _ _ _ _ _ hr hm
    rw [ho] at this
    cases this
  · cases ho
  · cases ho

/-- The run's end, as a state. -/
theorem run_stops {P : Prog K} {fuel n s x} (h : run P fuel n s = some (.error x)) : ∃ s', StopsAt P fuel s s' x := by
  induction n generalizing s with
  | zero => simp [run] at h
  | succ n ih =>
    rw [run] at h
    cases hs : step P fuel s with
    | next s1 =>
      rw [hs] at h
      obtain ⟨s', h1, h2⟩ := ih h
      exact ⟨s', .step hs h1, h2⟩
    | done => rw [hs] at h; cases h
    | error y => rw [hs] at h; cases h; exact ⟨s, .refl s, hs⟩

open Ex in
/-- C51 as stated is false: a program with a value, and no intrinsic in it, is stopped as an infinite loop. -/
theorem loop_false :
    ¬ ∀ (P : Prog Nat) (root : Syn Nat) (fuel : Nat) (s : State Nat) (x : Seen Nat), FairRun P fuel (init P root) →
      StopsAt P fuel (init P root) s .hole → Means P.toWorld root x → x = .error .hole := by
  intro h
  have ho : out (world retail) knot = some (.error .hole) := by decide +kernel
  have hm : Means (world retail).toWorld knot (.native 0) := says_means (by decide +kernel)
  have hf : FairRun (world retail) 5 (init (world retail) knot) := fairFor_run (n := 60) (by decide +kernel)
  unfold out at ho
  split at ho
  · rename_i s hr
    unfold showOf at ho
    split at ho <;> cases ho
  · rename_i e hr
    cases ho
    obtain ⟨s, hs⟩ := run_stops hr
    have := h _ _ _ _ _ hf hs hm
    cases this
  · cases ho

/-- No step of the run from `s` copies a black hole, as far as a computation can tell. -/
def copiesNow (P : Prog K) (fuel : Nat) (s : State K) : Bool :=
  match step P fuel s with
  | .next s' => (s'.store.drop s.store.length).any fun r => r.any isHole
  | _ => false

def uncopiedFor (P : Prog K) (fuel : Nat) : Nat → State K → Bool
  | 0, _ => false
  | n + 1, s => !copiesNow P fuel s && match step P fuel s with
    | .next s' => uncopiedFor P fuel n s'
    | _ => true

theorem copies_now {P : Prog K} {fuel s} (h : CopiesHole P fuel s) : copiesNow P fuel s = true := by
  obtain ⟨s', id, p, env, hs, hle, hc⟩ := h
  simp only [copiesNow, hs, List.any_eq_true]
  cases hr : s'.store[id]? with
  | none => rw [hr] at hc; simp at hc
  | some r =>
    rw [hr] at hc
    simp only [Option.bind_some] at hc
    refine ⟨r, ?_, _, List.mem_of_getElem? hc, rfl⟩
    refine List.mem_of_getElem? (i := id - s.store.length) ?_
    rw [List.getElem?_drop, Nat.add_sub_cancel' hle, hr]

theorem uncopied_run {P : Prog K} {fuel n s} (h : uncopiedFor P fuel n s = true) :
    ∀ s', Reaches P fuel s s' → ¬ CopiesHole P fuel s' := by
  intro s' hr
  induction hr generalizing n with
  | refl s =>
    cases n with
    | zero => simp [uncopiedFor] at h
    | succ n =>
      simp only [uncopiedFor, Bool.and_eq_true, Bool.not_eq_true'] at h
      intro hc
      rw [copies_now hc] at h
      cases h.1
  | step hs _ ih =>
    cases n with
    | zero => simp [uncopiedFor] at h
    | succ n =>
      simp only [uncopiedFor, hs, Bool.and_eq_true] at h
      exact ih h.2

namespace Ex

/-- `letrec x = x in x` is stopped, its run copies no black hole, and indeed it means nothing. -/
example : out (world double) spin = some (.error .hole) := by decide +kernel

theorem spin_means_nothing (x : Seen Nat) (hx : x ≠ .error .hole) : ¬ Means (world double).toWorld spin x := by
  intro hm
  have ho : run (world double) 5 60 (init (world double) spin) = some (.error .hole) := by rfl
  obtain ⟨s, hs⟩ := run_stops ho
  exact hx (loop_genuine_uncopied_partial _ _ _ s (by simp [world, double])
    (fairFor_run (n := 60) (by decide +kernel)) (uncopied_run (n := 60) (by decide +kernel)) hs x hm)

/-- The run of `knot` does copy one. -/
example : uncopiedFor (world retail) 5 60 (init (world retail) knot) = false := by decide +kernel

end Ex
end Verif.Mach
