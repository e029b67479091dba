import Verif.RandLemmas
/-!
# Properties of random streams (C24), shuffling and sampling (C39), vecs (C40)
-/

namespace Verif.Rand

open Verif.Arith

/-! ## C24: random streams

That a stream is a function of its seed is a matter of the types here: all the operations are
functions of the state word and nothing else. -/

/-- C24: distinct states have distinct successors. -/
theorem advance_injective {s t : Word} (h : streamAdvance s = streamAdvance t) : s = t := by
  rw [streamAdvance_eq, streamAdvance_eq] at h; exact add_inj h

/-- C24: a stream comes back to a state after a multiple of `2^64` steps and not before. -/
theorem period (n : Nat) (s : Word) : advanceN n s = s ↔ n % 2 ^ 64 = 0 := by
  constructor
  · exact advanceN_fixed
  · intro h
    rw [advanceN_eq]
    have : BitVec.ofNat 64 n = 0#64 := by
      apply BitVec.eq_of_toNat_eq; simpa using h
    rw [this]; simp

/-- C24: within one period all the 64-bit outputs are different. -/
theorem outputs_distinct (s : Word) {i j : Nat} (hi : i < 2 ^ 64) (hj : j < 2 ^ 64)
    (h : (splitmix64 (advanceN i s)).2 = (splitmix64 (advanceN j s)).2) : i = j := by
  have key : ∀ {i j : Nat}, i ≤ j → j < 2 ^ 64 → advanceN i s = advanceN j s → i = j := by
    intro i j hij hj e
    have : advanceN (j - i) (advanceN i s) = advanceN i s := by
      rw [← advanceN_add, show i + (j - i) = j by omega, e]
    have := advanceN_fixed this
    rw [Nat.mod_eq_of_lt (by omega)] at this
    omega
  have e := mix_inj h
  rcases Nat.le_total i j with hij | hij
  · exact key hij hj e
  · exact (key hij hi e.symm).symm

/-- C24: every float drawn is a multiple of `2^-53` in `[0, 1)`, computed exactly: there is an
integer `k` below `2^53` with `draw * 2^53 = k`. -/
theorem float_range (s : Word) : ∃ k : Nat, k < 2 ^ 53 ∧ streamValue s * 2 ^ 53 = k * (unit : Int) ∧
    0 ≤ streamValue s ∧ streamValue s < unit := by
  refine ⟨((splitmix64 s).2 >>> 11).toNat, shr_lt _, ?_, ?_, ?_⟩
  · unfold streamValue
    rw [floatOf_eq]
    have := unit_split
    rw [this]
    generalize ((splitmix64 s).2 >>> 11).toNat = k
    generalize (2 : Nat) ^ 1021 = a
    simp only [Int.natCast_mul, Int.natCast_pow]
    rw [Int.mul_assoc, Int.mul_comm (a : Int)]; rfl
  · unfold streamValue
    rw [floatOf_eq]; exact Int.natCast_nonneg _
  · unfold streamValue
    rw [floatOf_eq, unit_split]
    exact Int.ofNat_lt.mpr (Nat.mul_lt_mul_of_pos_right (shr_lt _) (Nat.two_pow_pos _))

/-- The float action gives the value and the advanced stream. -/
theorem streamFloat_eq (s : Word) : streamFloat s = (streamValue s, streamAdvance s) := by
  unfold streamFloat streamValue streamAdvance
  cases splitmix64 s; rfl

/-- C24: an integer drawn below `n` lies in `[0, n)`, for `n` up to `2^63`. -/
theorem int_range_partial {n : Nat} (h0 : 0 < n) (h : n ≤ 2 ^ 63) (s : Word) :
    0 ≤ (streamInt (.pos n) s).1 ∧ (streamInt (.pos n) s).1 < n := by
  obtain ⟨k, hk, e⟩ := streamInt_range h0 h s
  rw [e]; omega

example : (0 : Nat) < 6 ∧ 6 ≤ 2 ^ 63 ∧ (streamInt (.pos 6) 42#64).1 < 6 := by decide +kernel

/-- C24 fails above `2^63`: the draw is cast to a signed integer and comes out negative. -/
theorem int_negative : Ok (.pos (2 ^ 64 - 1)) ∧ (streamInt (.pos (2 ^ 64 - 1)) 0#64).1 < 0 := by decide +kernel

/-- A bound that is not an unsigned integer (a float such as `6.0`, or a negative number) is
treated as 1: every draw is 0. -/
theorem int_float_bound (v : Int) (s : Word) : (streamInt (.float v) s).1 = 0 := by
  unfold streamInt boundOf asI64
  cases splitmix64 s with | mk a b =>
  simp only
  have : b % BitVec.ofNat 64 (max 1 1) = 0#64 := by
    apply BitVec.eq_of_toNat_eq
    rw [BitVec.toNat_umod]
    show b.toNat % 1 = _
    rw [Nat.mod_one]; rfl
  rw [this]; rfl

/-- Both halves of a split, and the advanced stream. -/
theorem split_fst (s : Word) : (streamSplit s).1 = streamAdvance s := by
  unfold streamSplit streamAdvance; cases splitmix64 s; rfl

theorem split_injective {s t : Word} (h : (streamSplit s).2 = (streamSplit t).2) : s = t := by
  apply mix_inj
  unfold streamSplit at h
  revert h
  cases splitmix64 s; cases splitmix64 t; exact id

/-- Non-negative integer seeds give different streams; a negative seed gives the same stream as
the unsigned integer with the same bits. -/
theorem seed_injective_partial (bits : Int → Word) {m n : Nat} (hm : m < 2 ^ 64) (hn : n < 2 ^ 64)
    (h : seedToU64 bits (.pos m) = seedToU64 bits (.pos n)) : m = n := by
  have := congrArg BitVec.toNat h
  simp only [seedToU64, BitVec.toNat_ofNat] at this
  omega

/-! ## C39: shuffling and sampling -/

/-- C39: shuffling a list never fails, gives a permutation of it, and consumes one draw per
element. -/
theorem shuffle_perm {α : Type} (l : List α) (hl : l.length ≤ 2 ^ 63) (s : Word) :
    ∃ out, shuffle l s = some (out, advanceN l.length s) ∧ out.Perm l := by
  have := shuffleImpl_perm (fun n s => streamInt (.pos n) s) streamAdvance l.length l [] s rfl
    (fun m s => streamInt_snd _ s) (fun m s h0 h => streamInt_range h0 (by omega) s)
  simpa [shuffle, advanceN] using this

example : [1, 2, 3, 4, 5].length ≤ 2 ^ 63 := by decide

/-- C39: sampling a list gives the asked number of its elements, without replacement. -/
theorem sample_sub {α : Type} (n : Nat) (l : List α) (hl : l.length ≤ 2 ^ 63) (s : Word) :
    ∃ out s', sample n l s = some (out, s') ∧ out.length = min n l.length ∧ ∃ rest, (out ++ rest).Perm l := by
  obtain ⟨p, hp, hperm⟩ := shuffle_perm l hl s
  refine ⟨p.take n, advanceN l.length s, by simp only [sample, hp, Option.map_some, takeI_eq], by simp [hperm.length_eq], p.drop n, ?_⟩
  rw [List.take_append_drop]; exact hperm

/-- C39: choosing from a non-empty list gives one of its elements. -/
theorem choice_mem {α : Type} (l : List α) (h0 : l ≠ []) (hl : l.length ≤ 2 ^ 63) (s : Word) :
    ∃ x, choice l s = some (x, streamAdvance s) ∧ x ∈ l := by
  obtain ⟨k, hk, e⟩ := streamInt_range (List.length_pos_iff.mpr h0) hl s
  refine ⟨l[k], ?_, List.getElem_mem _⟩
  simp only [choice, e, nthI_eq, List.getElem?_eq_getElem hk, Option.map_some, streamInt_snd]

/-- C39: sampling a vec, whatever the floats: never an index error; as many elements as floats
(at most all), without replacement. -/
theorem vecSample_sub {α : Type} (floats : List Int) (v : Array α) :
    ∃ out, vecSample floats v = some out ∧ out.length = min floats.length v.size ∧
      ∃ rest, (out ++ rest).Perm v.toList := by
  obtain ⟨idx, hi, hp⟩ := sampleLoop_perm v.size (floats.take (min floats.length v.size)) 0 (Array.range v.size)
    (by simp) (by simp; omega)
  have hp' : idx.toList.Perm (List.range v.size) := by
    have := hp.toList; simpa using this
  refine ⟨(idx.toList.take (min floats.length v.size)).filterMap (fun i => v[i]?),
    by simp only [vecSample, hi, Option.map_some], ?_, (idx.toList.drop (min floats.length v.size)).filterMap (fun i => v[i]?), ?_⟩
  · rw [length_filterMap_some]
    · rw [List.length_take, hp'.length_eq]; simp
    · intro i hm
      have := hp'.mem_iff.mp (List.mem_of_mem_take hm)
      simpa using this
  · rw [← List.filterMap_append, List.take_append_drop]
    exact (hp'.filterMap _).trans (by rw [filterMap_range])

/-- C39: shuffling a non-empty vec, whatever the floats: never an index error, and a permutation. -/
theorem vecShuffle_perm {α : Type} (floats : List Int) (v : Array α) (hv : 0 < v.size) :
    ∃ out, vecShuffle floats v = some out ∧ out.Perm v :=
  shuffleLoop_perm v.size floats 0 v rfl hv

example : 0 < (#[1, 2, 3] : Array Nat).size := by decide

/-- C39 fails for the empty vec: given any float the index computation underflows. -/
theorem vecShuffle_empty (f : Int) : vecShuffle [f] (#[] : Array Nat) = none := rfl

/-- C39: the prelude's vec actions. -/
theorem preludeVecShuffle_perm {α : Type} (v : Array α) (hv : 0 < v.size) (s : Word) :
    ∃ out, preludeVecShuffle v s = some (out, advanceN (v.size - 1) s) ∧ out.Perm v := by
  obtain ⟨out, h, hp⟩ := vecShuffle_perm (takeFloats (v.size - 1) s) v hv
  exact ⟨out, by simp [preludeVecShuffle, h], hp⟩

theorem takeFloats_length (n : Nat) (s : Word) : (takeFloats n s).length = n := by
  unfold takeFloats
  have : ∀ (f : Word → Int) (g : Word → Word) s, (takeBy f g n s).length = n := by
    intro f g
    induction n with
    | zero => intro s; rfl
    | succ n ih => intro s; simp [takeBy, ih]
  exact this _ _ _

theorem preludeVecSample_sub {α : Type} (n : Nat) (v : Array α) (s : Word) :
    ∃ out, preludeVecSample n v s = some (out, advanceN n s) ∧ out.length = min n v.size ∧
      ∃ rest, (out ++ rest).Perm v.toList := by
  obtain ⟨out, h, hl, hp⟩ := vecSample_sub (takeFloats n s) v
  rw [takeFloats_length] at hl
  exact ⟨out, by simp [preludeVecSample, h], hl, hp⟩

/-! ## C40: indexing and slicing vecs -/

/-- C40: slicing never fails, and a slice of a vec is the elements with indices in `[from, to)`
that exist. -/
theorem slice_get {α : Type} (v : Array α) (frm to : Nat) : ∃ w, vecSlice (.pos frm) (.pos to) v = some w ∧
    w.size = min to v.size - frm ∧ ∀ i, w[i]? = if frm + i < to then v[frm + i]? else none := by
  unfold vecSlice heapSlice indexOf range
  simp only
  rw [if_pos (by omega)]
  refine ⟨_, rfl, by simp only [Array.size_extract]; omega, fun i => ?_⟩
  simp only [Array.getElem?_extract]
  by_cases h1 : frm ≤ v.size
  · rw [Nat.min_eq_left h1]
    by_cases h2 : frm + i < to
    · rw [if_pos h2]
      by_cases h3 : frm + i < v.size
      · rw [if_pos (by omega)]
      · rw [if_neg (by omega), Array.getElem?_eq_none (by omega)]
    · rw [if_neg h2, if_neg (by omega)]
  · rw [if_neg (by omega), Array.getElem?_eq_none (by omega)]; simp

/-- C40: `nth` of a natural number index is the element there, or the out-of-bounds error. -/
theorem nth_get_partial {α : Type} (v : Array α) (n : Nat) : vecNth (.pos n) v = v[n]? := rfl

/-- Splitting a vec at any point and putting the parts together gives it back. -/
theorem slice_split {α : Type} (v : Array α) (k : Nat) (hk : k ≤ v.size) :
    ∃ a b, vecSlice (.pos 0) (.pos k) v = some a ∧ vecSlice (.pos k) (.pos v.size) v = some b ∧ a ++ b = v := by
  obtain ⟨a, ha, sa, ga⟩ := slice_get v 0 k
  obtain ⟨b, hb, sb, gb⟩ := slice_get v k v.size
  refine ⟨a, b, ha, hb, ?_⟩
  apply Array.ext_getElem?
  intro i
  rw [Array.getElem?_append, sa, ga, gb]
  have : min k v.size - 0 = k := by omega
  rw [this]
  by_cases h : i < k
  · rw [if_pos h, if_pos (by omega)]; simp
  · rw [if_neg h, show k + (i - k) = i by omega]
    by_cases h2 : i < v.size
    · rw [if_pos h2]
    · rw [if_neg h2, Array.getElem?_eq_none (by omega)]

/-- C40 fails for negative indices: they are not out of bounds but mean the first element. -/
theorem nth_negative {α : Type} (v : Array α) (i : Int) (h : i < 0) : vecNth (.neg i) v = v[0]? := by
  unfold vecNth indexOf toUsize asF64
  simp only
  have h1 := rndInt_neg (a := i) (by omega)
  have h2 : (Int.tdiv (rndInt (i * (unit : Int)) 1) (unit : Int)).toNat = 0 := by
    have : Int.tdiv (-(rndInt (i * (unit : Int)) 1)) unit ≥ 0 :=
      Int.tdiv_nonneg (by omega) (Int.natCast_nonneg unit)
    rw [Int.neg_tdiv] at this
    omega
  rw [h2]; rfl

end Verif.Rand
