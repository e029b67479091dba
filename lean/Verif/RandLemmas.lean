import Verif.RandModel
import Verif.ArithLemmas
/-! Helper lemmas for the random streams. -/

namespace Verif.Rand

open Verif.Arith

/-! ### The output mixing is a bijection -/

theorem xorShift_inj (k : Nat) (hk : 0 < k) {x y : Word} (h : x ^^^ (x >>> k) = y ^^^ (y >>> k)) : x = y := by
  have key : ∀ n i, 64 ≤ i + n → x.getLsbD i = y.getLsbD i := by
    intro n
    induction n using Nat.strongRecOn with
    | _ n ih =>
      intro i hi
      by_cases h64 : 64 ≤ i
      · rw [BitVec.getLsbD_of_ge _ _ h64, BitVec.getLsbD_of_ge _ _ h64]
      · have hb := congrArg (fun w : Word => w.getLsbD i) h
        simp only [BitVec.getLsbD_xor, BitVec.getLsbD_ushiftRight] at hb
        have := ih (n - 1) (by omega) (i := k + i) (by omega)
        rw [this] at hb
        revert hb
        cases x.getLsbD i <;> cases y.getLsbD i <;> cases y.getLsbD (k + i) <;> simp
  apply BitVec.eq_of_getLsbD_eq
  intro i _
  exact key 64 i (by omega)

theorem mul_inj {c d : Word} (hcd : c * d = 1#64) {x y : Word} (h : x * c = y * c) : x = y := by
  have := congrArg (· * d) h
  simp only [BitVec.mul_assoc, hcd, BitVec.mul_one] at this
  exact this

theorem c1_inv : (0xbf58476d1ce4e5b9#64 : Word) * 0x96de1b173f119089#64 = 1#64 := by decide
theorem c2_inv : (0x94d049bb133111eb#64 : Word) * 0x319642b2d24d8ec3#64 = 1#64 := by decide

theorem add_inj {c x y : Word} (h : x + c = y + c) : x = y := by
  have := congrArg (· - c) h
  simpa using this

theorem mix_inj {x y : Word} (h : (splitmix64 x).2 = (splitmix64 y).2) : x = y := by
  unfold splitmix64 at h
  have h1 := xorShift_inj 31 (by decide) h
  have h2 := mul_inj c2_inv h1
  have h3 := xorShift_inj 27 (by decide) h2
  have h4 := mul_inj c1_inv h3
  have h5 := xorShift_inj 30 (by decide) h4
  exact add_inj h5

/-! ### Stepping -/

theorem streamAdvance_eq (s : Word) : streamAdvance s = s + golden := by unfold streamAdvance splitmix64; rfl

theorem streamInt_snd (n : Num) (s : Word) : (streamInt n s).2 = streamAdvance s := by
  unfold streamInt streamAdvance
  cases splitmix64 s; rfl

theorem advanceBy_add {σ : Type} (f : σ → σ) (m n : Nat) (s : σ) :
    advanceBy f (m + n) s = advanceBy f n (advanceBy f m s) := by
  induction m generalizing s with
  | zero => simp [advanceBy]
  | succ m ih => rw [Nat.succ_add, advanceBy, ih, advanceBy]

theorem advanceN_eq (n : Nat) (s : Word) : advanceN n s = s + BitVec.ofNat 64 n * golden := by
  unfold advanceN
  induction n generalizing s with
  | zero => simp [advanceBy]
  | succ n ih =>
    rw [advanceBy, ih, streamAdvance_eq, BitVec.ofNat_add, BitVec.add_mul, BitVec.one_mul, BitVec.add_assoc,
      BitVec.add_comm golden]

theorem advanceN_add (m n : Nat) (s : Word) : advanceN (m + n) s = advanceN n (advanceN m s) := by
  unfold advanceN; exact advanceBy_add _ _ _ _

theorem golden_inv : golden * 0xf1de83e19937733d#64 = 1#64 := by decide

theorem advanceN_fixed {n : Nat} {s : Word} (h : advanceN n s = s) : n % 2 ^ 64 = 0 := by
  rw [advanceN_eq] at h
  have h1 : BitVec.ofNat 64 n * golden = 0#64 := by
    have := congrArg (fun w : Word => w - s) h
    simp only [BitVec.sub_self] at this
    rw [BitVec.add_comm, BitVec.add_sub_cancel] at this
    exact this
  have h2 : BitVec.ofNat 64 n = 0#64 := mul_inj golden_inv (by rw [h1]; simp)
  have := congrArg BitVec.toNat h2
  simpa using this

/-! ### Exact division -/

theorem rnd_scale (q d : Nat) (hd : 0 < d) : rnd (q * d) d = rnd q 1 := by
  unfold rnd
  simp only [Nat.mul_div_cancel _ hd, Nat.div_one, Nat.one_mul]
  have hk := Nat.two_pow_pos (q.log2 - 52)
  rw [Nat.mul_comm q d, Nat.mul_div_mul_left _ _ hd, Nat.mul_mod_mul_left]
  have e1 : (d * 2 ^ (q.log2 - 52) < 2 * (d * (q % 2 ^ (q.log2 - 52)))) ↔
      (2 ^ (q.log2 - 52) < 2 * (q % 2 ^ (q.log2 - 52))) := by
    rw [Nat.mul_left_comm]; exact Nat.mul_lt_mul_left hd
  have e2 : (2 * (d * (q % 2 ^ (q.log2 - 52))) = d * 2 ^ (q.log2 - 52)) ↔
      (2 * (q % 2 ^ (q.log2 - 52)) = 2 ^ (q.log2 - 52)) := by
    rw [Nat.mul_left_comm]; exact Nat.mul_right_inj (Nat.ne_of_gt hd)
  simp only [e1, e2]

theorem asF64_small {n : Nat} (h : n ≤ 2 ^ 53) : asF64 (.pos n) = ((n * unit : Nat) : Int) := by
  unfold asF64
  simp only
  rw [rndInt_small (by simpa using h)]; simp

theorem unit_split : unit = 2 ^ 53 * 2 ^ 1021 := by
  unfold unit; rw [← Nat.pow_add]

theorem shr_lt (z : Word) : (z >>> 11).toNat < 2 ^ 53 := by
  rw [BitVec.toNat_ushiftRight, Nat.shiftRight_eq_div_pow]
  have := z.isLt
  omega

theorem fdiv_nonneg (n m : Nat) : fdiv (n : Int) (m : Int) = (rnd (n * unit) m : Int) := by
  unfold fdiv
  rw [if_pos (by
    have h1 : ¬ ((n : Int) < 0) := by omega
    have h2 : ¬ ((m : Int) < 0) := by omega
    simp [h1, h2])]
  rfl

theorem floatOf_eq (z : Word) : floatOf z = (((z >>> 11).toNat * 2 ^ 1021 : Nat) : Int) := by
  have hz := shr_lt z
  unfold floatOf
  rw [asF64_small (Nat.le_of_lt hz), asF64_small (Nat.le_refl _)]
  have hu := unit_pos
  rw [fdiv_nonneg]
  rw [show (z >>> 11).toNat * unit * unit = ((z >>> 11).toNat * 2 ^ 1021) * (2 ^ 53 * unit) by
    conv => lhs; lhs; rhs; rw [unit_split]
    generalize (2 : Nat) ^ 1021 = a
    generalize (2 : Nat) ^ 53 = b
    rw [← Nat.mul_assoc, Nat.mul_right_comm _ b a, Nat.mul_assoc _ b unit]]
  rw [rnd_scale _ _ (Nat.mul_pos (by decide) hu), rnd_small' (Nat.le_of_lt hz)]

/-! ### Taking and dropping -/

variable {α : Type}

theorem dropI_eq (n : Nat) (l : List α) (h : n ≤ l.length) : dropI (n : Int) l = some (l.drop n) := by
  induction l generalizing n with
  | nil => simp at h; subst h; unfold dropI; simp
  | cons x l ih =>
    unfold dropI
    cases n with
    | zero => simp
    | succ n =>
      rw [if_neg (by omega)]
      simp only [List.drop_succ_cons]
      rw [show ((n + 1 : Nat) : Int) - 1 = (n : Int) by omega]
      exact ih n (by simpa using h)

theorem takeI_eq (n : Nat) (l : List α) : takeI (n : Int) l = l.take n := by
  induction l generalizing n with
  | nil => simp [takeI]
  | cons x l ih =>
    cases n with
    | zero => simp [takeI]
    | succ n =>
      rw [takeI, if_neg (by omega), show ((n + 1 : Nat) : Int) - 1 = (n : Int) by omega, ih]
      simp

theorem nthI_eq (n : Nat) (l : List α) : nthI (n : Int) l = l[n]? := by
  induction l generalizing n with
  | nil => simp [nthI]
  | cons x l ih =>
    cases n with
    | zero => simp [nthI]
    | succ n =>
      rw [nthI, if_neg (by omega), show ((n + 1 : Nat) : Int) - 1 = (n : Int) by omega, ih]
      simp

theorem streamInt_range {n : Nat} (h0 : 0 < n) (h : n ≤ 2 ^ 63) (s : Word) :
    ∃ k, k < n ∧ (streamInt (.pos n) s).1 = (k : Int) := by
  refine ⟨((splitmix64 s).2 % BitVec.ofNat 64 n).toNat, ?_, ?_⟩
  · rw [BitVec.toNat_umod, BitVec.toNat_ofNat, Nat.mod_eq_of_lt (by omega : n < 2 ^ 64)]
    exact Nat.mod_lt _ h0
  · unfold streamInt asI64 boundOf
    rw [show max n 1 = n by omega]
    cases splitmix64 s with | mk a b =>
    simp only
    rw [BitVec.toInt_eq_toNat_of_lt]
    rw [BitVec.toNat_umod, BitVec.toNat_ofNat, Nat.mod_eq_of_lt (by omega : n < 2 ^ 64)]
    have := Nat.mod_lt b.toNat h0
    omega

theorem shuffleImpl_perm {σ : Type} (int : Nat → σ → Int × σ) (adv : σ → σ) (n : Nat) (remaining acc : List α) (s : σ)
    (hn : remaining.length = n) (hadv : ∀ m s, (int m s).2 = adv s)
    (hint : ∀ m s, 0 < m → m ≤ n → ∃ k, k < m ∧ (int m s).1 = (k : Int)) :
    ∃ out, shuffleImpl int remaining n acc s = some (out, advanceBy adv n s) ∧ out.Perm (remaining ++ acc) := by
  induction n generalizing remaining acc s with
  | zero =>
    have : remaining = [] := List.eq_nil_of_length_eq_zero hn
    subst this
    exact ⟨acc, rfl, List.Perm.refl _⟩
  | succ n ih =>
    obtain ⟨k, hk, hr⟩ := hint (n + 1) s (Nat.succ_pos n) (Nat.le_refl _)
    have hd : remaining.drop k = remaining[k]'(by omega) :: remaining.drop (k + 1) :=
      List.drop_eq_getElem_cons (by omega)
    obtain ⟨out, ho, hp⟩ := ih (remaining.take k ++ remaining.drop (k + 1)) (remaining[k]'(by omega) :: acc)
      (adv s) (by simp; omega) (fun m s h0 h1 => hint m s h0 (by omega))
    refine ⟨out, ?_, ?_⟩
    · unfold shuffleImpl
      simp only [hr]
      rw [dropI_eq k remaining (by omega), hd]
      simp only
      rw [show (k : Int) + 1 = ((k + 1 : Nat) : Int) by omega, dropI_eq (k + 1) remaining (by omega)]
      simp only [takeI_eq]
      rw [hadv, ho]
      rfl
    · refine hp.trans ?_
      have : remaining ++ acc = remaining.take k ++ (remaining[k]'(by omega) :: remaining.drop (k + 1)) ++ acc := by
        rw [← hd, List.take_append_drop]
      rw [this, List.append_assoc, List.append_assoc]
      refine List.Perm.append_left _ ?_
      exact List.perm_middle

/-! ### Swapping -/

theorem swap_perm {xs ys : Array α} {i j : Nat} (h : swap xs i j = some ys) : ys.Perm xs := by
  unfold swap at h
  split at h
  · injection h with h; subst h; exact Array.swap_perm _ _
  · cases h

theorem swap_some {xs : Array α} {i j : Nat} (hi : i < xs.size) (hj : j < xs.size) : ∃ ys, swap xs i j = some ys := by
  unfold swap; rw [dif_pos ⟨hi, hj⟩]; exact ⟨_, rfl⟩

theorem swap_size {xs ys : Array α} {i j : Nat} (h : swap xs i j = some ys) : ys.size = xs.size := by
  unfold swap at h; split at h
  · injection h with h; subst h; simp
  · cases h

theorem sampleLoop_perm (len : Nat) (fs : List Int) (i : Nat) (idx : Array Nat) (hs : idx.size = len)
    (hf : i + fs.length ≤ len) : ∃ out, sampleLoop len fs i idx = some out ∧ out.Perm idx := by
  induction fs generalizing i idx with
  | nil => exact ⟨idx, rfl, .refl _⟩
  | cons f fs ih =>
    simp only [List.length_cons] at hf
    have hr : 0 < len - i := by omega
    have hj := Nat.mod_lt (toUsize (fmul f (asF64 (.pos (len - i))))) hr
    obtain ⟨ys, hy⟩ := swap_some (xs := idx) (i := i)
      (j := i + toUsize (fmul f (asF64 (.pos (len - i)))) % (len - i)) (by omega) (by omega)
    obtain ⟨out, ho, hp⟩ := ih (i + 1) ys (by rw [swap_size hy, hs]) (by omega)
    exact ⟨out, by rw [sampleLoop]; simp only [hy]; exact ho, hp.trans (swap_perm hy)⟩

theorem shuffleLoop_perm (len : Nat) (fs : List Int) (step : Nat) (xs : Array α) (hs : xs.size = len)
    (hl : step < len) : ∃ out, shuffleLoop len fs step xs = some out ∧ out.Perm xs := by
  induction fs generalizing step xs with
  | nil => exact ⟨xs, rfl, .refl _⟩
  | cons f fs ih =>
    rw [shuffleLoop, if_neg (by omega)]
    simp only
    by_cases h0 : len - 1 - step = 0
    · rw [if_pos h0]; exact ⟨xs, rfl, .refl _⟩
    · rw [if_neg h0]
      have hj := Nat.mod_lt (toUsize (fmul f (asF64 (.pos (len - 1 - step + 1))))) (Nat.succ_pos (len - 1 - step))
      obtain ⟨ys, hy⟩ := swap_some (xs := xs) (i := len - 1 - step)
        (j := toUsize (fmul f (asF64 (.pos (len - 1 - step + 1)))) % (len - 1 - step + 1)) (by omega)
        (by rw [hs]; exact Nat.lt_of_lt_of_le hj (by omega))
      obtain ⟨out, ho, hp⟩ := ih (step + 1) ys (by rw [swap_size hy, hs]) (by omega)
      exact ⟨out, by simp only [hy]; exact ho, hp.trans (swap_perm hy)⟩

theorem filterMap_range (v : Array α) : (List.range v.size).filterMap (fun i => v[i]?) = v.toList := by
  apply List.ext_getElem?
  intro i
  have : ∀ n, n ≤ v.size → (List.range n).filterMap (fun i => v[i]?) = v.toList.take n := by
    intro n hn
    induction n with
    | zero => simp
    | succ n ih =>
      rw [List.range_succ, List.filterMap_append, ih (by omega)]
      have : n < v.toList.length := by simp; omega
      rw [List.take_add_one]
      simp [List.filterMap_cons, Array.getElem?_eq_getElem (show n < v.size by omega),
        List.getElem?_eq_getElem this]
  rw [this _ (Nat.le_refl _)]
  rw [List.take_of_length_le (by simp)]

theorem length_filterMap_some (v : Array α) (l : List Nat) (h : ∀ i ∈ l, i < v.size) :
    (l.filterMap (fun i => v[i]?)).length = l.length := by
  induction l with
  | nil => rfl
  | cons i l ih =>
    have hi : i < v.size := h i (List.mem_cons_self ..)
    rw [List.filterMap_cons, Array.getElem?_eq_getElem hi]
    simp [ih (fun j hj => h j (List.mem_cons_of_mem _ hj))]

end Verif.Rand
