import Verif.ArrOps

/-!
# Proofs only.  Writing out, neighbours and what is made
-/

namespace Verif.Arr

variable (F : Floats)

/-! ## What is made -/

theorem view_transpose {V : Type} {a : Nd V} (h : a.Ok) : ∀ c, InB c a.shape.reverse → ∃ v, a.get c.reverse = some v := by
  intro c hc
  refine get_inB h ?_
  rw [← inB_reverse, List.reverse_reverse]
  exact hc

theorem transpose_ok {V : Type} {a : Nd V} (h : a.Ok) : a.transpose.Ok :=
  view_ok (view_transpose h) fun d hd => h.dims d (List.mem_reverse.mp hd)

theorem slice_ok {V : Type} {a b : Nd V} {axis index : Nat} (h : a.Ok) (hb : a.sliceAlong axis index = some b) :
    ∃ d, a.shape[axis]? = some d ∧ index < d ∧ b.shape = a.shape.eraseIdx axis ∧ b.Ok ∧
      ∀ c, InB c b.shape → b.get c = a.get (c.insertIdx axis index) := by
  unfold Nd.sliceAlong at hb
  cases hd : a.shape[axis]? with
  | none => rw [hd] at hb; cases hb
  | some d =>
    rw [hd] at hb
    dsimp only at hb
    split at hb
    · cases hb
    · rename_i hi
      cases hb
      have hi := Nat.lt_of_not_le hi
      have hv : ∀ c, InB c (a.shape.eraseIdx axis) → ∃ v, a.get (c.insertIdx axis index) = some v :=
        fun c hc => get_inB h (inB_insert hd hi hc)
      exact ⟨d, rfl, hi, rfl, view_ok hv fun e he => h.dims e (List.mem_of_mem_eraseIdx he), fun c hc => view_get hv c hc⟩

theorem toUsizes_max {s : List Int} {n : List Nat} (h : toUsizes s = .ok n) : ∀ d ∈ n, d ≤ usizeMax := by
  by_cases hn : ∃ x ∈ s, x < 0
  · rw [toUsizes_error hn] at h; cases h
  · rw [toUsizes_ok (fun x hx => by by_contra h0; exact hn ⟨x, hx, by omega⟩)] at h
    cases h
    intro d hd
    obtain ⟨x, _, rfl⟩ := List.mem_map.mp hd
    unfold asUsize
    omega

theorem fromFlat_ok {s : List Int} {l : List F.V} {a : Nd F.V} (h : fromFlat F s l = .ok a) :
    a.Ok ∧ toUsizes s = .ok a.shape ∧ a.elems = l := by
  unfold fromFlat at h
  cases hs : toUsizes s with
  | error e => rw [hs] at h; cases h
  | ok n =>
    rw [hs] at h
    replace h : (match fromFlatN n l with | some a => Except.ok a | none => Except.error Err.shape) = Except.ok a := h
    unfold fromFlatN at h
    split at h
    · rename_i heq
      split at heq
      · cases heq; cases h
        rename_i hl
        exact ⟨⟨hl, toUsizes_max hs⟩, rfl, rfl⟩
      · cases heq
    · cases h

theorem fill_ok {s : List Int} {v : F.V} {a : Nd F.V} (h : fill F s v = .ok a) :
    a.Ok ∧ toUsizes s = .ok a.shape ∧ a = filled a.shape v := by
  unfold fill at h
  cases hs : toUsizes s with
  | error e => rw [hs] at h; cases h
  | ok n =>
    rw [hs] at h
    cases h
    exact ⟨⟨by simp [filled], toUsizes_max hs⟩, rfl, rfl⟩

theorem set_ok {c : List Int} {v : F.V} {a b : Nd F.V} (ha : a.Ok) (h : set F c v a = .ok b) : b.Ok := by
  unfold set at h
  cases hs : toUsizes c with
  | error e => rw [hs] at h; cases h
  | ok n =>
    rw [hs] at h
    replace h : (match a.withSet n v with | some a => Except.ok a | none => Except.error Err.bounds) = Except.ok b := h
    unfold Nd.withSet at h
    cases ho : offset a.shape n with
    | none => rw [ho] at h; cases h
    | some i =>
      rw [ho, Option.bind_some] at h
      split at h
      · rename_i heq
        split at heq
        · cases heq; cases h
          exact ⟨by simpa using ha.size, ha.dims⟩
        · cases heq
      · cases h

theorem reshape_ok {s : List Int} {a b : Nd F.V} (h : reshape F s a = .ok b) : fromFlat F s a.elems = .ok b := h

theorem binop_ok {f : F.V → F.V → F.V} {x y : Operand F.V} {b : Nd F.V}
    (hx : ∀ a, x = .array a → a.Ok) (hy : ∀ a, y = .array a → a.Ok) (h : binop F f x y = .ok b) : b.Ok := by
  cases x with
  | array a =>
    have ha := hx a rfl
    cases y with
    | array a' =>
      have ha' := hy a' rfl
      rw [binop, Nd.zipWith] at h
      split at h
      · rename_i heq
        split at heq
        · cases heq
        · rename_i hs
          cases heq; cases h
          have hs := not_not.mp hs
          refine ⟨?_, ha.dims⟩
          have := ha'.size
          rw [← hs] at this
          simp [ha.size, this]
      · cases h
    | number n =>
      cases h
      exact ⟨by simpa [Nd.scalarOp] using ha.size, ha.dims⟩
  | number m =>
    cases y with
    | array a' =>
      have ha' := hy a' rfl
      cases h
      exact ⟨by simpa [Nd.scalarOp] using ha'.size, ha'.dims⟩
    | number n => cases h

theorem slice_api {axis idx : Int} {a b : Nd F.V} (h : slice F axis idx a = .ok b) :
    a.sliceAlong (asUsize axis) (asUsize idx) = some b := by
  unfold slice at h
  split at h
  · rename_i heq; cases h; exact heq
  · cases h

theorem made_ok {a : Nd F.V} (h : Made F a) : a.Ok := by
  refine Made.rec (motive_1 := fun a _ => a.Ok) (motive_2 := fun o _ => ∀ a, o = .array a → a.Ok)
    (fun h => (fromFlat_ok F h).1) (fun h => (fill_ok F h).1) (fun _ h ih => set_ok F ih h)
    (fun _ h _ => (fromFlat_ok F (reshape_ok F h)).1) (fun _ ih => transpose_ok ih) ?_ (fun _ _ h ih1 ih2 => binop_ok F ih1 ih2 h)
    ?_ ?_ h
  · intro x i a b _ hb ih
    obtain ⟨_, _, _, _, hok, _⟩ := slice_ok ih (slice_api F hb)
    exact hok
  · intro a _ ih b hb
    cases hb
    exact ih
  · intro v a ha
    cases ha

/-! ## Writing out -/

/-- A row. -/
theorem row {V : Type} {a : Nd V} (h : a.Ok) {d : Nat} {ds : List Nat} (hs : a.shape = d :: ds) {i : Nat} (hi : i < d) :
    ∃ b, a.sliceAlong 0 i = some b ∧ b.shape = ds ∧ b.Ok ∧ ∀ c, b.get c = a.get (i :: c) := by
  have hd : a.shape[0]? = some d := by rw [hs]; rfl
  have : ∃ b, a.sliceAlong 0 i = some b := by
    unfold Nd.sliceAlong
    rw [hd]
    exact ⟨_, if_neg (by omega)⟩
  obtain ⟨b, hb⟩ := this
  obtain ⟨_, _, _, hsh, hok, hg⟩ := slice_ok h hb
  have hsh' : b.shape = ds := by rw [hsh, hs]; rfl
  refine ⟨b, hb, hsh', hok, fun c => ?_⟩
  by_cases hc : InB c b.shape
  · rw [hg c hc, List.insertIdx_zero]
  · rw [get_none hc, get_none]
    rw [hs]
    intro hh
    cases hh with
    | cons _ hh => exact hc (by rw [hsh']; exact hh)

theorem emitN_dig (depth : Nat) (a : Nd F.V) (h : a.Ok) (hs : a.shape.length = depth) (c : List Nat) :
    dig (emitN F depth a) c = (a.get c).map (read F) := by
  induction depth using Nat.strong_induction_on generalizing a c with
  | _ depth ih =>
  match depth, hs with
  | 0, hs =>
    have h0 := List.length_eq_zero_iff.mp hs
    cases c with
    | nil =>
      obtain ⟨v, hv⟩ := get_inB h (c := []) (by rw [h0]; exact .nil)
      rw [emitN, dig, hv]
      rfl
    | cons x c =>
      rw [emitN, get_none (a := a) (c := x :: c) (by rw [h0]; intro hh; cases hh)]
      rfl
  | 1, hs =>
    obtain ⟨d, hd⟩ := List.length_eq_one_iff.mp hs
    rw [emitN, hd]
    cases c with
    | nil =>
      rw [get_none (by rw [hd]; intro hh; cases hh)]
      rfl
    | cons i c =>
      rw [dig, List.headD_cons, List.getElem?_map]
      by_cases hi : i < d
      · rw [List.getElem?_range hi, Option.map_some, Option.bind_some]
        cases c with
        | nil =>
          obtain ⟨v, hv⟩ := get_inB h (c := [i]) (by rw [hd]; exact .cons hi .nil)
          rw [dig, hv]
          rfl
        | cons x c =>
          rw [get_none (a := a) (c := i :: x :: c) (by rw [hd]; intro hh; cases hh with | cons _ hh => cases hh)]
          rfl
      · rw [List.getElem?_eq_none (by simpa using Nat.le_of_not_lt hi),
          get_none (by rw [hd]; intro hh; cases hh with | cons h1 _ => exact hi h1)]
        rfl
  | depth + 2, hs =>
    obtain ⟨d, ds, hd⟩ := List.exists_cons_of_length_eq_add_one hs
    rw [emitN, hd]
    cases c with
    | nil =>
      rw [get_none (by rw [hd]; intro hh; cases hh)]
      rfl
    | cons i c =>
      rw [dig, List.headD_cons, filterMap_getElem?]
      · by_cases hi : i < d
        · obtain ⟨b, h1, h2, h3, h4⟩ := row h hd hi
          rw [List.getElem?_range hi, Option.bind_some, h1, Option.map_some, Option.bind_some,
            ih (depth + 1) (by omega) b h3 (by rw [h2]; rw [hd] at hs; simpa using hs), h4]
        · rw [List.getElem?_eq_none (by simpa using Nat.le_of_not_lt hi),
            get_none (by rw [hd]; intro hh; cases hh with | cons h1 _ => exact hi h1)]
          rfl
      · intro i hi
        obtain ⟨b, h1, _⟩ := row h hd (List.mem_range.mp hi)
        exact ⟨_, by rw [h1]; rfl⟩

theorem emitN_shaped (depth : Nat) (a : Nd F.V) (h : a.Ok) (hs : a.shape.length = depth) :
    Shaped a.shape (emitN F depth a) := by
  induction depth using Nat.strong_induction_on generalizing a with
  | _ depth ih =>
  match depth, hs with
  | 0, hs =>
    rw [List.length_eq_zero_iff.mp hs]
    trivial
  | 1, hs =>
    obtain ⟨d, hd⟩ := List.length_eq_one_iff.mp hs
    rw [emitN, hd]
    refine ⟨by simp, fun x hx => ?_⟩
    obtain ⟨i, _, rfl⟩ := List.mem_map.mp hx
    trivial
  | depth + 2, hs =>
    obtain ⟨d, ds, hd⟩ := List.exists_cons_of_length_eq_add_one hs
    rw [emitN, hd]
    refine ⟨?_, fun x hx => ?_⟩
    · rw [filterMap_length]
      · simp
      · intro i hi
        obtain ⟨b, h1, _⟩ := row h hd (by simpa using hi)
        exact ⟨_, by rw [h1]; rfl⟩
    · obtain ⟨i, hi, hx⟩ := List.mem_filterMap.mp hx
      obtain ⟨b, h1, h2, h3, _⟩ := row h hd (by simpa using hi)
      rw [h1] at hx
      cases hx
      rw [← h2]
      exact ih (depth + 1) (by omega) b h3 (by rw [h2]; rw [hd] at hs; simpa using hs)

theorem flattenL_eq {V : Type} (xs : List (Out V)) : flattenL xs = xs.flatMap flatten := by
  induction xs with
  | nil => rfl
  | cons x xs ih => rw [flattenL, ih, List.flatMap_cons]

theorem emitN_flatten (depth : Nat) (a : Nd F.V) (h : a.Ok) (hs : a.shape.length = depth) :
    flatten (emitN F depth a) = (positions a.shape).filterMap fun c => (a.get c).map (read F) := by
  induction depth using Nat.strong_induction_on generalizing a with
  | _ depth ih =>
  match depth, hs with
  | 0, hs =>
    have h0 := List.length_eq_zero_iff.mp hs
    obtain ⟨v, hv⟩ := get_inB h (c := []) (by rw [h0]; exact .nil)
    rw [emitN, flatten, h0, positions, hv]
    simp [hv]
  | 1, hs =>
    obtain ⟨d, hd⟩ := List.length_eq_one_iff.mp hs
    rw [emitN, hd, flatten, flattenL_eq, List.flatMap_map, List.headD_cons, positions, List.filterMap_flatMap]
    refine List.flatMap_congr fun i hi => ?_
    obtain ⟨v, hv⟩ := get_inB h (c := [i]) (by rw [hd]; exact .cons (List.mem_range.mp hi) .nil)
    simp [flatten, positions, hv]
  | depth + 2, hs =>
    obtain ⟨d, ds, hd⟩ := List.exists_cons_of_length_eq_add_one hs
    rw [emitN, hd, flatten, flattenL_eq, List.headD_cons, positions, List.filterMap_flatMap]
    have : ∀ (l : List Nat), (∀ i ∈ l, i < d) →
        (l.filterMap fun i => (a.sliceAlong 0 i).map (emitN F (depth + 1))).flatMap flatten =
        l.flatMap fun i => ((positions ds).map (i :: ·)).filterMap fun c => (a.get c).map (read F) := by
      intro l hl
      induction l with
      | nil => rfl
      | cons i l ihl =>
        obtain ⟨b, h1, h2, h3, h4⟩ := row h hd (hl i (by simp))
        rw [List.filterMap_cons_some (b := emitN F (depth + 1) b) (by rw [h1]; rfl), List.flatMap_cons, List.flatMap_cons,
          ihl (fun j hj => hl j (by simp [hj])),
          ih (depth + 1) (by omega) b h3 (by rw [h2]; rw [hd] at hs; simpa using hs), h2, List.filterMap_map]
        congr 1
        refine List.filterMap_congr fun c _ => ?_
        rw [Function.comp_apply, h4]
    exact this _ fun i hi => List.mem_range.mp hi

theorem elems_read {a : Nd F.V} (h : a.Ok) :
    (positions a.shape).filterMap (fun c => (a.get c).map (read F)) = toList F a := by
  have h1 := elems_eq h
  have h2 := congrArg (List.filterMap (Option.map (read F))) h1
  rw [List.filterMap_map, List.filterMap_map] at h2
  unfold toList
  rw [← List.filterMap_eq_map]
  exact h2.symm

/-! ## Neighbours -/

theorem chunks_flatten {n : Nat} (hn : 0 < n) {os : List (List Int)} (h : ∀ o ∈ os, o.length = n) {fuel : Nat}
    (hf : os.flatten.length ≤ fuel) : chunks n fuel os.flatten = os := by
  induction os generalizing fuel with
  | nil => cases fuel <;> rfl
  | cons o os ih =>
    have ho := h o (by simp)
    rw [List.flatten_cons, List.length_append] at hf
    cases fuel with
    | zero => omega
    | succ fuel =>
      cases o with
      | nil => simp at ho; omega
      | cons x o =>
        have hl : ((x :: o) ++ os.flatten).take n = x :: o := by rw [← ho, List.take_left]
        have hr : ((x :: o) ++ os.flatten).drop n = os.flatten := by rw [← ho, List.drop_left]
        rw [List.flatten_cons]
        show ((x :: o) ++ os.flatten).take n :: chunks n fuel (((x :: o) ++ os.flatten).drop n) = _
        rw [hl, hr, ih (fun o' ho' => h o' (by simp [ho'])) (by omega)]

theorem step_eq {c o : Int} {d : Nat} (hc : 0 ≤ c ∧ c < 2 ^ 63) (ho : -2 ^ 63 ≤ o ∧ o < 2 ^ 63) (hs : c + o < 2 ^ 63)
    (hd : d < 2 ^ 63) : step (asUsize c) o d = if 0 ≤ c + o ∧ c + o < d then some (asUsize (c + o)) else none := by
  have h1 : asI64 (asUsize c) = c := by
    unfold asI64 asUsize usizeMax
    split <;> omega
  have h2 : addI64 c o = c + o := by
    unfold addI64
    refine Int.bmod_eq_of_le_mul_two ?_ ?_ <;> omega
  have h3 : asI64 d = d := by unfold asI64; rw [if_pos hd]
  unfold step
  rw [h1, h2, h3]
  by_cases h : 0 ≤ c + o ∧ c + o < d
  · rw [if_neg (by omega), if_pos h]
    unfold asUsize usizeMax
    congr 1
    omega
  · rw [if_pos (by omega), if_neg h]

open Classical in
theorem steps_eq {coords o : List Int} {s : List Nat} (h1 : coords.length = s.length) (h2 : o.length = s.length)
    (hc : ∀ c ∈ coords, 0 ≤ c ∧ c < 2 ^ 63) (ho : ∀ x ∈ o, -2 ^ 63 ≤ x ∧ x < 2 ^ 63)
    (hs : ∀ x ∈ moved coords o, x < 2 ^ 63) (hd : ∀ d ∈ s, d < 2 ^ 63) :
    steps (nats coords) o s = if Inside (moved coords o) (s.map Int.ofNat) then some (nats (moved coords o)) else none := by
  induction s generalizing coords o with
  | nil =>
    have h1 := List.length_eq_zero_iff.mp h1
    have h2 := List.length_eq_zero_iff.mp h2
    subst h1 h2
    rw [if_pos (show Inside (moved [] []) (List.map Int.ofNat []) from .nil)]
    rfl
  | cons d s ih =>
    obtain ⟨c, coords, rfl⟩ := List.exists_cons_of_length_eq_add_one h1
    obtain ⟨x, o, rfl⟩ := List.exists_cons_of_length_eq_add_one h2
    have hm : moved (c :: coords) (x :: o) = (c + x) :: moved coords o := rfl
    rw [hm] at hs ⊢
    show steps (asUsize c :: nats coords) (x :: o) (d :: s) = _
    rw [steps, step_eq (hc c (by simp)) (ho x (by simp)) (hs _ (by simp)) (hd d (by simp)),
      ih (by simpa using h1) (by simpa using h2) (fun y hy => hc y (by simp [hy])) (fun y hy => ho y (by simp [hy]))
        (fun y hy => hs y (by simp [hy])) (fun y hy => hd y (by simp [hy]))]
    by_cases ha : 0 ≤ c + x ∧ c + x < (d : Int)
    · rw [if_pos ha]
      dsimp only
      by_cases hb : Inside (moved coords o) (s.map Int.ofNat)
      · rw [if_pos hb, if_pos (show Inside ((c + x) :: moved coords o) ((d :: s).map Int.ofNat) from .cons ha hb)]
        rfl
      · rw [if_neg hb, if_neg (show ¬Inside ((c + x) :: moved coords o) ((d :: s).map Int.ofNat) from
          fun hh => by cases hh with | cons _ hh => exact hb hh)]
        rfl
    · rw [if_neg ha]
      rw [if_neg (show ¬Inside ((c + x) :: moved coords o) ((d :: s).map Int.ofNat) from
          fun hh => by cases hh with | cons hh _ => exact ha hh)]

end Verif.Arr
