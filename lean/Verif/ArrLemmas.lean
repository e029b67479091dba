import Verif.ArrSpec

/-!
# Proofs only.  Places and coordinates
-/

namespace Verif.Arr

/-- Coordinates inside a shape, for natural numbers. -/
def InB (coords shape : List Nat) : Prop := List.Forall₂ (· < ·) coords shape

/-- The coordinates of a place. -/
def decode : List Nat → Nat → List Nat
  | [], _ => []
  | _ :: ds, i => i / ds.prod :: decode ds (i % ds.prod)

theorem prod_cons (d : Nat) (ds : List Nat) : (d :: ds).prod = d * ds.prod := by simp

theorem positions_eq (s : List Nat) : positions s = (List.range s.prod).map (decode s) := by
  induction s with
  | nil => simp [positions, decode]
  | cons d ds ih =>
    rw [positions, ih, prod_cons]
    induction d with
    | zero => simp
    | succ d ihd =>
      rw [List.range_succ, List.flatMap_append, ihd, Nat.succ_mul, List.range_add, List.map_append]
      congr 1
      rw [List.flatMap_singleton, List.map_map, List.map_map]
      refine List.map_congr_left fun r hr => ?_
      have hr := List.mem_range.mp hr
      have hp : 0 < ds.prod := by omega
      simp only [Function.comp_apply, decode]
      rw [Nat.mul_comm, Nat.mul_add_div hp, Nat.div_eq_of_lt hr, Nat.mul_add_mod, Nat.mod_eq_of_lt hr, Nat.add_zero]

theorem positions_length (s : List Nat) : (positions s).length = s.prod := by
  rw [positions_eq]; simp

theorem offset_some {s c : List Nat} {i : Nat} (h : offset s c = some i) : i < s.prod ∧ decode s i = c ∧ InB c s := by
  induction s generalizing c i with
  | nil =>
    cases c with
    | nil => cases h; exact ⟨by simp, rfl, .nil⟩
    | cons x c => cases h
  | cons d ds ih =>
    cases c with
    | nil => cases h
    | cons x c =>
      rw [offset] at h
      split at h
      · rename_i hx
        cases ho : offset ds c with
        | none => rw [ho] at h; cases h
        | some r =>
          rw [ho] at h
          simp only [Option.map_some, Option.some.injEq] at h
          subst h
          obtain ⟨h1, h2, h3⟩ := ih ho
          have hp : 0 < ds.prod := by omega
          refine ⟨?_, ?_, .cons hx h3⟩
          · rw [prod_cons]
            calc x * ds.prod + r < x * ds.prod + ds.prod := by omega
              _ = (x + 1) * ds.prod := by rw [Nat.succ_mul]
              _ ≤ d * ds.prod := Nat.mul_le_mul_right _ hx
          · rw [decode, Nat.mul_comm, Nat.mul_add_div hp, Nat.div_eq_of_lt h1, Nat.mul_add_mod, Nat.mod_eq_of_lt h1,
              Nat.add_zero, h2]
      · cases h

theorem offset_inB {s c : List Nat} (h : InB c s) : ∃ i, offset s c = some i := by
  induction h with
  | nil => exact ⟨0, rfl⟩
  | cons hx _ ih =>
    obtain ⟨i, hi⟩ := ih
    exact ⟨_, by rw [offset, if_pos hx, hi]; rfl⟩

theorem offset_none {s c : List Nat} (h : ¬InB c s) : offset s c = none := by
  cases ho : offset s c with
  | none => rfl
  | some i => exact absurd (offset_some ho).2.2 h

theorem offset_decode {s : List Nat} {i : Nat} (h : i < s.prod) : offset s (decode s i) = some i := by
  induction s generalizing i with
  | nil =>
    have : i = 0 := by simp at h; omega
    subst this; rfl
  | cons d ds ih =>
    rw [prod_cons] at h
    have hp : 0 < ds.prod := by
      rcases Nat.eq_zero_or_pos ds.prod with h0 | h0
      · rw [h0] at h; omega
      · exact h0
    rw [decode, offset, if_pos (by rw [Nat.div_lt_iff_lt_mul hp]; exact h), ih (Nat.mod_lt _ hp)]
    simp only [Option.map_some, Option.some.injEq]
    have := Nat.div_add_mod i ds.prod
    rw [Nat.mul_comm]
    exact this

theorem positions_get {s c : List Nat} {i : Nat} : offset s c = some i ↔ (positions s)[i]? = some c := by
  rw [positions_eq, List.getElem?_map]
  constructor
  · intro h
    obtain ⟨h1, h2, _⟩ := offset_some h
    rw [List.getElem?_range h1]
    simp [h2]
  · intro h
    by_cases hi : i < s.prod
    · rw [List.getElem?_range hi] at h
      simp only [Option.map_some, Option.some.injEq] at h
      rw [← h]
      exact offset_decode hi
    · rw [List.getElem?_eq_none (by simpa using Nat.le_of_not_lt hi)] at h
      cases h

theorem mem_positions {s c : List Nat} : c ∈ positions s ↔ InB c s := by
  constructor
  · intro h
    obtain ⟨i, hi⟩ := List.mem_iff_getElem?.mp h
    exact (offset_some (positions_get.mpr hi)).2.2
  · intro h
    obtain ⟨i, hi⟩ := offset_inB h
    exact List.mem_of_getElem? (positions_get.mp hi)

/-! ## Order -/

theorem positions_sorted (s : List Nat) : (positions s).Pairwise (List.Lex (· < ·)) := by
  induction s with
  | nil => simp [positions]
  | cons d ds ih =>
    rw [positions, List.pairwise_flatMap]
    refine ⟨fun c _ => ?_, ?_⟩
    · rw [List.pairwise_map]
      exact ih.imp fun h => .cons h
    · refine List.pairwise_lt_range.imp fun {a b} hab => ?_
      intro x hx y hy
      obtain ⟨x', _, rfl⟩ := List.mem_map.mp hx
      obtain ⟨y', _, rfl⟩ := List.mem_map.mp hy
      exact .rel hab

/-! ## Strides -/

theorem strides_eq (d : Nat) (ds : List Nat) : strides (d :: ds) = ds.prod :: strides ds := by
  induction ds generalizing d with
  | nil => simp [strides]
  | cons e ds ih =>
    rw [strides, ih e]
    simp [Nat.mul_comm]

/-- What `indices` computes for a place. -/
def unflat (s : List Nat) (i : Nat) : List Nat := List.zipWith (fun d st => i / st % d) s (strides s)

theorem unflat_cons (d : Nat) (ds : List Nat) (i : Nat) : unflat (d :: ds) i = i / ds.prod % d :: unflat ds i := by
  unfold unflat
  rw [strides_eq, List.zipWith_cons_cons]

theorem unflat_mod (s : List Nat) (i : Nat) : unflat s (i % s.prod) = unflat s i := by
  induction s generalizing i with
  | nil => rfl
  | cons d ds ih =>
    rw [unflat_cons, unflat_cons, prod_cons]
    congr 1
    · rw [Nat.mul_comm d, Nat.mod_mul_right_div_self, Nat.mod_mod]
    · rw [← ih, Nat.mod_mod_of_dvd _ (Nat.dvd_mul_left _ _), ih]

theorem unflat_decode {s : List Nat} {i : Nat} (h : i < s.prod) : unflat s i = decode s i := by
  induction s generalizing i with
  | nil => rfl
  | cons d ds ih =>
    rw [prod_cons] at h
    have hp : 0 < ds.prod := by
      rcases Nat.eq_zero_or_pos ds.prod with h0 | h0
      · rw [h0] at h; omega
      · exact h0
    rw [unflat_cons, decode, Nat.mod_eq_of_lt (by rw [Nat.div_lt_iff_lt_mul hp]; exact h), ← ih (Nat.mod_lt _ hp), unflat_mod]

theorem indices_eq {V : Type} {a : Nd V} (h : a.Ok) : a.indices = positions a.shape := by
  unfold Nd.indices
  by_cases hs : a.shape = []
  · rw [if_pos hs, hs]; rfl
  · rw [if_neg hs, positions_eq, h.size]
    refine List.map_congr_left fun i hi => ?_
    exact unflat_decode (List.mem_range.mp hi)

/-! ## Elements -/

theorem get_inB {V : Type} {a : Nd V} (h : a.Ok) {c : List Nat} (hc : InB c a.shape) : ∃ v, a.get c = some v := by
  obtain ⟨i, hi⟩ := offset_inB hc
  have hl := (offset_some hi).1
  rw [← h.size] at hl
  exact ⟨a.elems[i], by rw [Nd.get, hi]; simp [hl]⟩

theorem get_none {V : Type} {a : Nd V} {c : List Nat} (hc : ¬InB c a.shape) : a.get c = none := by
  rw [Nd.get, offset_none hc]; rfl

theorem get_mem {V : Type} {a : Nd V} {c : List Nat} {v : V} (h : a.get c = some v) : v ∈ a.elems := by
  unfold Nd.get at h
  cases ho : offset a.shape c with
  | none => rw [ho] at h; cases h
  | some i => rw [ho] at h; exact List.mem_of_getElem? h

theorem filterMap_getElem? {α β : Type} {f : α → Option β} {l : List α} (h : ∀ x ∈ l, ∃ y, f x = some y) (i : Nat) :
    (l.filterMap f)[i]? = l[i]?.bind f := by
  induction l generalizing i with
  | nil => rfl
  | cons x l ih =>
    obtain ⟨y, hy⟩ := h x (by simp)
    rw [List.filterMap_cons_some hy]
    cases i with
    | zero => simp [hy]
    | succ i => simpa using ih (fun z hz => h z (by simp [hz])) i

theorem filterMap_length {α β : Type} {f : α → Option β} {l : List α} (h : ∀ x ∈ l, ∃ y, f x = some y) :
    (l.filterMap f).length = l.length := by
  induction l with
  | nil => rfl
  | cons x l ih =>
    obtain ⟨y, hy⟩ := h x (by simp)
    rw [List.filterMap_cons_some hy, List.length_cons, List.length_cons, ih (fun z hz => h z (by simp [hz]))]

theorem view_get {V : Type} {s : List Nat} {f : List Nat → Option V} (h : ∀ c, InB c s → ∃ v, f c = some v) (c : List Nat)
    (hc : InB c s) : (view s f).get c = f c := by
  obtain ⟨i, hi⟩ := offset_inB hc
  unfold Nd.get view
  dsimp only
  rw [hi, Option.bind_some, filterMap_getElem? (fun c hc => h c (mem_positions.mp hc)), positions_get.mp hi]
  rfl

theorem view_ok {V : Type} {s : List Nat} {f : List Nat → Option V} (h : ∀ c, InB c s → ∃ v, f c = some v)
    (hd : ∀ d ∈ s, d ≤ usizeMax) : (view s f).Ok :=
  ⟨by unfold view; dsimp only; rw [filterMap_length (fun c hc => h c (mem_positions.mp hc)), positions_length], hd⟩

/-- Arrays that agree everywhere are the same. -/
theorem nd_ext {V : Type} {a b : Nd V} (ha : a.Ok) (hb : b.Ok) (hs : a.shape = b.shape)
    (h : ∀ c, InB c a.shape → a.get c = b.get c) : a = b := by
  obtain ⟨s, x⟩ := a
  obtain ⟨t, y⟩ := b
  dsimp only at hs
  subst hs
  congr 1
  refine List.ext_getElem? fun i => ?_
  by_cases hi : i < s.prod
  · have hc := (offset_some (offset_decode hi)).2.2
    have := h _ hc
    unfold Nd.get at this
    rw [offset_decode hi] at this
    exact this
  · have h1 := ha.size
    have h2 := hb.size
    dsimp only at h1 h2
    rw [List.getElem?_eq_none (by omega), List.getElem?_eq_none (by omega)]

/-- The elements by row are those at the coordinates in order. -/
theorem elems_eq {V : Type} {a : Nd V} (h : a.Ok) : a.elems.map some = (positions a.shape).map a.get := by
  refine List.ext_getElem? fun i => ?_
  rw [List.getElem?_map, List.getElem?_map]
  by_cases hi : i < a.shape.prod
  · have hd := offset_decode hi
    rw [positions_get.mp hd, Option.map_some, Nd.get, hd, Option.bind_some]
    rw [List.getElem?_eq_getElem (by rw [h.size]; exact hi)]
    rfl
  · rw [List.getElem?_eq_none (by rw [h.size]; omega), List.getElem?_eq_none (by rw [positions_length]; omega)]
    rfl

theorem inB_reverse {c s : List Nat} : InB c.reverse s.reverse ↔ InB c s := List.forall₂_reverse_iff

theorem inB_length {c s : List Nat} (h : InB c s) : c.length = s.length := h.length_eq

theorem inB_insert {s c : List Nat} {axis index d : Nat} (hd : s[axis]? = some d) (hi : index < d) :
    InB c (s.eraseIdx axis) → InB (c.insertIdx axis index) s := by
  induction s generalizing c axis with
  | nil => simp at hd
  | cons e s ih =>
    intro h
    cases axis with
    | zero =>
      simp only [List.getElem?_cons_zero, Option.some.injEq] at hd
      subst hd
      simp only [List.eraseIdx_zero, List.tail_cons] at h
      rw [List.insertIdx_zero]
      exact .cons hi h
    | succ axis =>
      rw [List.eraseIdx_cons_succ] at h
      cases h with
      | cons hx h =>
        rw [List.insertIdx_succ_cons]
        exact .cons hx (ih (by simpa using hd) h)

theorem inB_insert_iff {s c : List Nat} {axis index d : Nat} (hd : s[axis]? = some d) (hi : index < d)
    (hl : c.length + 1 = s.length) : InB (c.insertIdx axis index) s ↔ InB c (s.eraseIdx axis) := by
  refine ⟨?_, inB_insert hd hi⟩
  induction s generalizing c axis with
  | nil => simp at hd
  | cons e s ih =>
    intro h
    cases axis with
    | zero =>
      rw [List.insertIdx_zero] at h
      cases h with
      | cons _ h => exact h
    | succ axis =>
      cases c with
      | nil =>
        simp only [List.length_nil, List.length_cons] at hl
        have : s = [] := List.length_eq_zero_iff.mp (by omega)
        subst this
        simp at hd
      | cons x c =>
        rw [List.insertIdx_succ_cons] at h
        rw [List.eraseIdx_cons_succ]
        cases h with
        | cons hx h => exact .cons hx (ih (by simpa using hd) (by simpa using hl) h)

end Verif.Arr
