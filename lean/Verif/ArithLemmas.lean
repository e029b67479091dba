import Verif.ArithSpec
/-! Helper lemmas: rounding, representation. -/

namespace Verif.Arith

theorem div_pow_lt {N : Nat} : N / 2 ^ (N.log2 - 52) < 2 ^ 53 := by
  rw [Nat.div_lt_iff_lt_mul (Nat.two_pow_pos _), ← Nat.pow_add]
  have h1 : N < 2 ^ (N.log2 + 1) := Nat.lt_log2_self
  exact Nat.lt_of_lt_of_le h1 (Nat.pow_le_pow_right (by decide) (by omega))

theorem log2_mono {a b : Nat} (h : a ≤ b) : a.log2 ≤ b.log2 := by
  by_cases ha : a = 0
  · subst ha; simp
  · have hb : b ≠ 0 := by omega
    exact (Nat.le_log2 hb).2 (Nat.le_trans (Nat.log2_self_le ha) h)

theorem rnd_mono {n m d : Nat} (hd : 0 < d) (h : n ≤ m) : rnd n d ≤ rnd m d := by
  have hN : n / d ≤ m / d := Nat.div_le_div_right h
  have hk := log2_mono hN
  have hle : (n / d).log2 - 52 ≤ (m / d).log2 - 52 := by omega
  rcases Nat.lt_or_ge ((n / d).log2 - 52) ((m / d).log2 - 52) with hlt | hge
  · -- different binades
    have hm : 2 ^ (m / d).log2 ≤ m / d := by
      apply Nat.log2_self_le
      intro h0; rw [h0] at hlt; simp at hlt
    have h1 : 2 ^ (m / d).log2 ≤ rnd m d := by
      unfold rnd
      simp only
      have e : (m / d).log2 = 52 + ((m / d).log2 - 52) := by omega
      have hq : 2 ^ 52 ≤ m / (d * 2 ^ ((m / d).log2 - 52)) := by
        rw [← Nat.div_div_eq_div_mul, Nat.le_div_iff_mul_le (Nat.two_pow_pos _), ← Nat.pow_add, ← e]
        exact hm
      have : 2 ^ (m / d).log2 = 2 ^ 52 * 2 ^ ((m / d).log2 - 52) := by rw [← Nat.pow_add, ← e]
      rw [this]
      apply Nat.mul_le_mul_right
      split <;> omega
    have h2 : rnd n d ≤ 2 ^ (53 + ((n / d).log2 - 52)) := by
      unfold rnd
      simp only
      have hq : n / (d * 2 ^ ((n / d).log2 - 52)) < 2 ^ 53 := by
        rw [← Nat.div_div_eq_div_mul]; exact div_pow_lt
      rw [Nat.pow_add]
      apply Nat.mul_le_mul_right
      split <;> omega
    refine Nat.le_trans h2 (Nat.le_trans (Nat.pow_le_pow_right (by decide) ?_) h1)
    omega
  · have e : (n / d).log2 - 52 = (m / d).log2 - 52 := by omega
    unfold rnd
    simp only [e]
    generalize (m / d).log2 - 52 = k
    have hD : 0 < d * 2 ^ k := Nat.mul_pos hd (Nat.two_pow_pos _)
    generalize d * 2 ^ k = D at hD
    apply Nat.mul_le_mul_right
    have hq : n / D ≤ m / D := Nat.div_le_div_right h
    rcases Nat.lt_or_ge (n / D) (m / D) with hl | hg
    · split <;> split <;> omega
    · have hqe : n / D = m / D := by omega
      have hr : n % D ≤ m % D := by
        have h1 := Nat.div_add_mod n D
        have h2 := Nat.div_add_mod m D
        rw [hqe] at h1; omega
      rw [hqe]
      split <;> split <;> omega

theorem rndInt_mono {a b : Int} {d : Nat} (hd : 0 < d) (h : a ≤ b) : rndInt a d ≤ rndInt b d := by
  unfold rndInt
  split <;> split
  · have := @rnd_mono b.natAbs a.natAbs d hd (by omega); omega
  · omega
  · omega
  · have := @rnd_mono a.natAbs b.natAbs d hd (by omega); omega

theorem rnd_exact {n : Nat} (h : 2 ^ (n.log2 - 52) ∣ n) : rnd n 1 = n := by
  unfold rnd
  simp only [Nat.div_one, Nat.one_mul]
  have hr : n % 2 ^ (n.log2 - 52) = 0 := Nat.mod_eq_zero_of_dvd h
  have hp := Nat.two_pow_pos (n.log2 - 52)
  rw [hr]
  have : ¬ (2 ^ (n.log2 - 52) < 2 * 0 ∨ (2 * 0 = 2 ^ (n.log2 - 52) ∧ n / 2 ^ (n.log2 - 52) % 2 = 1)) := by omega
  rw [if_neg this]
  exact Nat.div_mul_cancel h

theorem rnd_zero (d : Nat) : rnd 0 d = 0 := by
  unfold rnd
  simp only [Nat.zero_div, Nat.zero_mod]
  have hp := Nat.two_pow_pos (Nat.log2 0 - 52)
  have : ¬ (d * 2 ^ (Nat.log2 0 - 52) < 2 * 0 ∨ (2 * 0 = d * 2 ^ (Nat.log2 0 - 52) ∧ 0 % 2 = 1)) := by omega
  rw [if_neg this]; simp

theorem unit_pos : 0 < unit := Nat.two_pow_pos _

theorem rnd_small' {n u : Nat} (h : n ≤ 2 ^ 53) : rnd (n * 2 ^ u) 1 = n * 2 ^ u := by
  apply rnd_exact
  have hu := Nat.two_pow_pos u
  rcases Nat.lt_or_ge n (2 ^ 53) with hl | hg
  · rcases Nat.eq_zero_or_pos n with rfl | hn
    · simp
    · have hlog : (n * 2 ^ u).log2 < 53 + u := by
        rw [Nat.log2_lt (Nat.ne_of_gt (Nat.mul_pos hn hu)), Nat.pow_add]
        exact Nat.mul_lt_mul_of_pos_right hl hu
      exact Nat.dvd_trans (Nat.pow_dvd_pow 2 (by omega)) (Nat.dvd_mul_left _ _)
  · have : n = 2 ^ 53 := by omega
    subst this
    rw [← Nat.pow_add, Nat.log2_two_pow]
    exact Nat.pow_dvd_pow 2 (by omega)

theorem rnd_small {n : Nat} (h : n ≤ 2 ^ 53) : rnd (n * unit) 1 = n * unit := rnd_small' h

theorem asF64_int_mono {a b : Int} (h : a ≤ b) : rndInt (a * unit) 1 ≤ rndInt (b * unit) 1 :=
  rndInt_mono (by decide) (Int.mul_le_mul_of_nonneg_right h (Int.natCast_nonneg _))

theorem natAbs_mul_unit (a : Int) : (a * (unit : Int)).natAbs = a.natAbs * unit := by
  rw [Int.natAbs_mul, Int.natAbs_natCast]

theorem rndInt_small {a : Int} (h : a.natAbs ≤ 2 ^ 53) : rndInt (a * unit) 1 = a * unit := by
  unfold rndInt
  rw [natAbs_mul_unit, rnd_small h, ← natAbs_mul_unit]
  split <;> omega

theorem rndInt_zero (d : Nat) : rndInt 0 d = 0 := by simp [rndInt, rnd_zero]

theorem rndInt_pos {a : Int} (h : 1 ≤ a) : 0 < rndInt (a * unit) 1 := by
  have h1 := asF64_int_mono h
  rw [rndInt_small (a := 1) (by decide)] at h1
  have := unit_pos; omega

theorem rndInt_neg {a : Int} (h : a ≤ -1) : rndInt (a * unit) 1 < 0 := by
  have h1 := asF64_int_mono h
  rw [rndInt_small (a := -1) (by decide)] at h1
  have := unit_pos; omega

/-- Integer values, and how they are seen through the representations. -/
theorem ofInt_intVal (i : Int) : intVal (ofInt i) = some i := by
  unfold ofInt; split <;> simp [intVal]; omega

theorem asF64_of_intVal {x a} (h : intVal x = some a) : asF64 x = rndInt (a * unit) 1 := by
  cases x <;> simp [intVal] at h <;> subst h <;> rfl

theorem asI64_of_intVal {x a} (hx : Ok x) (h : intVal x = some a) :
    asI64 x = if minI64 ≤ a ∧ a ≤ maxI64 then some a else none := by
  cases x with
  | pos n =>
    simp [intVal] at h; subst h
    have : minI64 ≤ (n : Int) := by unfold minI64; omega
    simp [asI64, this]
  | neg i =>
    simp [intVal] at h; subst h
    have : i ≤ maxI64 := by unfold maxI64; have := hx.2; omega
    simp [asI64, this, hx.1]
  | float v => simp [intVal] at h

theorem asU64_of_intVal {x a} (hx : Ok x) (h : intVal x = some a) : asU64 x = if 0 ≤ a then some a else none := by
  cases x with
  | pos n => simp [intVal] at h; subst h; simp [asU64]
  | neg i =>
    simp [intVal] at h; subst h
    have := hx.2
    simp [asU64]; omega
  | float v => simp [intVal] at h

theorem intVal_bounds {x a} (hx : Ok x) (h : intVal x = some a) : minI64 ≤ a ∧ a < 2 ^ 64 := by
  cases x with
  | pos n => simp [intVal] at h; subst h; simp [Ok] at hx; unfold minI64; omega
  | neg i => simp [intVal] at h; subst h; simp [Ok] at hx; omega
  | float v => simp [intVal] at h

theorem chain_int {si ui fl x y a b} (hx : Ok x) (hy : Ok y) (ha : intVal x = some a) (hb : intVal y = some b)
    (hs : SameType a b) :
    (BothI64 a b ∧ chain si ui fl x y = okOr .range ((si a b).map ofInt)) ∨
    (¬ BothI64 a b ∧ 0 ≤ a ∧ 0 ≤ b ∧ chain si ui fl x y = okOr .range ((ui a b).map ofInt)) := by
  unfold chain
  rw [asI64_of_intVal hx ha, asI64_of_intVal hy hb, asU64_of_intVal hx ha, asU64_of_intVal hy hb]
  by_cases h : BothI64 a b
  · left
    refine ⟨h, ?_⟩
    rw [if_pos h.1, if_pos h.2]
  · right
    have hn := hs.resolve_left h
    refine ⟨h, hn.1, hn.2, ?_⟩
    rw [if_pos hn.1, if_pos hn.2]
    by_cases h1 : minI64 ≤ a ∧ a ≤ maxI64
    · have h2 : ¬ (minI64 ≤ b ∧ b ≤ maxI64) := fun h2 => h ⟨h1, h2⟩
      rw [if_neg h2]
      split
      · simp_all
      · rfl
    · rw [if_neg h1]

theorem isZero_int {y b} (hy : Ok y) (hb : intVal y = some b) : isZero y = true ↔ b = 0 := by
  unfold isZero
  rw [asI64_of_intVal hy hb, asU64_of_intVal hy hb, asF64_of_intVal hb]
  constructor
  · intro h
    simp only [Bool.or_eq_true, beq_iff_eq] at h
    rcases h with (h | h) | h
    · split at h <;> simp at h; exact h
    · split at h <;> simp at h; exact h
    · have : b ≤ -1 ∨ 1 ≤ b ∨ b = 0 := by omega
      rcases this with hb | hb | hb
      · have := rndInt_neg hb; omega
      · have := rndInt_pos hb; omega
      · exact hb
  · intro h; subst h
    simp [minI64, maxI64]

theorem xorNeg_iff {r b : Int} (hr : minI64 ≤ r ∧ r ≤ maxI64) (hb : minI64 ≤ b ∧ b ≤ maxI64) :
    xorNeg r b = true ↔ ((r < 0) ↔ ¬ (b < 0)) := by
  have key : ∀ i : Int, minI64 ≤ i ∧ i ≤ maxI64 → ((BitVec.ofInt 64 i).msb = true ↔ i < 0) := by
    intro i hi
    rw [BitVec.msb_eq_toInt, BitVec.toInt_ofInt]
    unfold minI64 maxI64 at hi
    rw [Int.bmod_eq_of_le (by omega) (by omega)]
    simp
  unfold xorNeg
  have h1 : decide ((BitVec.ofInt 64 r ^^^ BitVec.ofInt 64 b).toInt < 0) = (BitVec.ofInt 64 r ^^^ BitVec.ofInt 64 b).msb := by
    rw [BitVec.msb_eq_toInt]
  rw [h1, BitVec.msb_xor]
  have k1 := key r hr
  have k2 := key b hb
  cases h3 : (BitVec.ofInt 64 r).msb <;> cases h4 : (BitVec.ofInt 64 b).msb <;> simp_all <;> omega

end Verif.Arith
