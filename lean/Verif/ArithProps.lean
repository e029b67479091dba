import Verif.ArithLemmas
/-!
# C21 floor division, C22 no silent wrap, C23 order and equality of numbers
-/

namespace Verif.Arith

/-! ## C21 -/

/-- `q` and `r` are floor quotient and remainder of `a` by `b`. -/
def FloorLaws (a b q r : Int) : Prop := a = b * q + r ∧ ((0 ≤ r ∧ r < b) ∨ (b < r ∧ r ≤ 0))

/-- `q` and `r` are truncating quotient and remainder: `r` has the sign of `a`. -/
def TruncLaws (a b q r : Int) : Prop := a = b * q + r ∧ r.natAbs < b.natAbs ∧ (0 ≤ a → 0 ≤ r) ∧ (a ≤ 0 → r ≤ 0)

theorem trunc_laws {a b : Int} (hb : b ≠ 0) : TruncLaws a b (Int.tdiv a b) (Int.tmod a b) := by
  refine ⟨(Int.mul_tdiv_add_tmod a b).symm, ?_, Int.tmod_nonneg b, ?_⟩
  · rw [Int.natAbs_tmod]; exact Nat.mod_lt _ (by omega)
  · intro h
    have := Int.tmod_nonneg (a := -a) b (by omega)
    rw [Int.neg_tmod] at this; omega

/-- A quotient of signed 64-bit integers is one, but for the single exception. -/
theorem quot_fits {a b q r : Int} (h : BothI64 a b) (hex : ¬ (a = minI64 ∧ b = -1)) (hb : b ≠ 0)
    (h1 : a = b * q + r) (h2 : (0 ≤ r ∧ r < b) ∨ (b < r ∧ r ≤ 0)) : minI64 ≤ q ∧ q ≤ maxI64 := by
  obtain ⟨⟨ha1, ha2⟩, hb1, hb2⟩ := h
  unfold minI64 maxI64 at *
  have cases_b : b = 1 ∨ b = -1 ∨ 2 ≤ b ∨ b ≤ -2 := by omega
  rcases cases_b with rfl | rfl | hb | hb
  · omega
  · omega
  · constructor
    · apply Classical.byContradiction; intro hn
      have : b * q ≤ b * (-(2 ^ 63) - 1) := Int.mul_le_mul_of_nonneg_left (by omega) (by omega)
      have h3 : b * (-(2 ^ 63) - 1) ≤ 2 * (-(2 ^ 63) - 1) := by
        have := Int.mul_le_mul_of_nonneg_right (show (2 : Int) ≤ b by omega) (show (0 : Int) ≤ 2 ^ 63 + 1 by omega)
        omega
      have h4 : r < b := by omega
      have h5 : b * q + r < b * q + b := by omega
      have h6 : b * q + b = b * (q + 1) := by rw [Int.mul_add]; omega
      have h7 : b * (q + 1) ≤ b * (-(2 ^ 63)) := Int.mul_le_mul_of_nonneg_left (by omega) (by omega)
      omega
    · apply Classical.byContradiction; intro hn
      have : b * (2 ^ 63) ≤ b * q := Int.mul_le_mul_of_nonneg_left (by omega) (by omega)
      omega
  · have e : b * q = (-b) * (-q) := by rw [Int.neg_mul_neg]
    have hb0 : 0 ≤ -b := by omega
    constructor
    · apply Classical.byContradiction; intro hn
      have : (-b) * (2 ^ 63 + 1) ≤ (-b) * (-q) := Int.mul_le_mul_of_nonneg_left (by omega) hb0
      omega
    · apply Classical.byContradiction; intro hn
      have h6 : (-b) * (-q) ≤ (-b) * (-(2 ^ 63)) := Int.mul_le_mul_of_nonneg_left (by omega) hb0
      omega

theorem floorDivMod {a b : Int} (h : BothI64 a b) (hex : ¬ (a = minI64 ∧ b = -1)) (hb : b ≠ 0) :
    ∃ q r, floorDiv a b = some q ∧ floorMod a b = some r ∧ FloorLaws a b q r := by
  obtain ⟨h1, h2, h3, h4⟩ := trunc_laws (a := a) hb
  have hg : ¬ (b = 0 ∨ (a = minI64 ∧ b = -1)) := by rintro (h | h); exact hb h; exact hex h
  have hr : minI64 ≤ Int.tmod a b ∧ Int.tmod a b ≤ maxI64 := by
    have := h.2; unfold minI64 maxI64 at *; omega
  have hx := xorNeg_iff hr h.2
  unfold floorDiv floorMod checkedDiv checkedRem
  simp only [if_neg hg, Option.bind_eq_bind, Option.bind_some]
  by_cases hc : Int.tmod a b ≠ 0 ∧ xorNeg (Int.tmod a b) b = true
  · rw [if_pos hc, if_pos hc]
    refine ⟨_, _, rfl, rfl, ?_, ?_⟩
    · rw [Int.mul_sub]; omega
    · have := hx.1 hc.2; have := hc.1; omega
  · rw [if_neg hc, if_neg hc]
    refine ⟨_, _, rfl, rfl, h1, ?_⟩
    by_cases h0 : Int.tmod a b = 0
    · omega
    · have : ¬ ((Int.tmod a b < 0) ↔ ¬ (b < 0)) := fun h' => hc ⟨h0, hx.2 h'⟩
      omega

/-- **C21**, for pairs in a common 64-bit type: division and modulo return the floor quotient
and remainder, and these fit the type. -/
theorem div_mod_floor_partial {x y : Num} {a b : Int} (hx : Ok x) (hy : Ok y) (ha : intVal x = some a) (hb : intVal y = some b)
    (hs : SameType a b) (h0 : b ≠ 0) (hex : ¬ (a = minI64 ∧ b = -1)) :
    ∃ q r, div x y = .ok (ofInt q) ∧ mod x y = .ok (ofInt r) ∧ FloorLaws a b q r ∧ Fits a b q ∧ Fits a b r := by
  have hz : ¬ isZero y = true := fun h => h0 ((isZero_int hy hb).1 h)
  unfold div mod
  rw [if_neg hz, if_neg hz]
  rcases chain_int (si := floorDiv) (ui := checkedDivU) (fl := fun l r => numFromFloored (ffloor (fdiv l r))) hx hy ha hb hs with
    ⟨h, e1⟩ | ⟨h, hpa, hpb, e1⟩ <;>
  rcases chain_int (si := floorMod) (ui := checkedRemU) (fl := fun l r => fromF64 (fsub l (fmul r (ffloor (fdiv l r))))) hx hy ha hb hs with
    ⟨h', e2⟩ | ⟨h', _, _, e2⟩
  · obtain ⟨q, r, hq, hr, hl⟩ := floorDivMod h hex h0
    rw [e1, e2, hq, hr]
    refine ⟨q, r, rfl, rfl, hl, .inl ⟨h, quot_fits h hex h0 hl.1 hl.2⟩, .inl ⟨h, ?_⟩⟩
    have := hl.2; have := h.2; unfold minI64 maxI64 at *; omega
  · exact absurd h h'
  · exact absurd h' h
  · rw [e1, e2]
    simp only [checkedDivU, checkedRemU, if_neg h0]
    have h1 : 0 ≤ a % b := Int.emod_nonneg a h0
    have h2 : a % b < b := Int.emod_lt_of_pos a (by omega)
    have hq0 : 0 ≤ a / b := Int.ediv_nonneg hpa hpb
    have hq1 : a / b ≤ a := Int.ediv_le_self b hpa
    have ha2 := (intVal_bounds hx ha).2
    have hb2 := (intVal_bounds hy hb).2
    exact ⟨_, _, rfl, rfl, ⟨(Int.mul_ediv_add_emod a b).symm, .inl ⟨h1, h2⟩⟩, .inr ⟨h, hq0, by omega⟩, .inr ⟨h, h1, by omega⟩⟩

/-- The only integer failures are division by zero and the one unrepresentable quotient, and
both are reported. -/
theorem div_mod_errors {x y : Num} {a b : Int} (hx : Ok x) (hy : Ok y) (ha : intVal x = some a) (hb : intVal y = some b) :
    (b = 0 → div x y = .err .divByZero ∧ mod x y = .err .divByZero ∧ quot x y = .err .divByZero ∧ rem x y = .err .divByZero) ∧
    (a = minI64 ∧ b = -1 → div x y = .err .range ∧ mod x y = .err .range ∧ quot x y = .err .range ∧ rem x y = .err .range) := by
  constructor
  · intro h
    have := (isZero_int hy hb).2 h
    simp [div, mod, quot, rem, this]
  · rintro ⟨h1, h2⟩
    have hz : isZero y = false := by
      cases h : isZero y
      · rfl
      · have := (isZero_int hy hb).1 h; omega
    subst h1; subst h2
    have e1 := asI64_of_intVal hx ha
    have e2 := asI64_of_intVal hy hb
    rw [if_pos (by decide)] at e1 e2
    simp [div, mod, quot, rem, hz, chain, e1, e2, floorDiv, floorMod, checkedDiv, checkedRem, okOr]

/-- `quot` and `rem` truncate: the remainder has the sign of the dividend. -/
theorem quot_rem_trunc_partial {x y : Num} {a b : Int} (hx : Ok x) (hy : Ok y) (ha : intVal x = some a) (hb : intVal y = some b)
    (hs : SameType a b) (h0 : b ≠ 0) (hex : ¬ (a = minI64 ∧ b = -1)) :
    ∃ q r, quot x y = .ok (ofInt q) ∧ rem x y = .ok (ofInt r) ∧ TruncLaws a b q r := by
  have hz : ¬ isZero y = true := fun h => h0 ((isZero_int hy hb).1 h)
  have hg : ¬ (b = 0 ∨ (a = minI64 ∧ b = -1)) := by rintro (h | h); exact h0 h; exact hex h
  unfold quot rem
  rw [if_neg hz, if_neg hz]
  rcases chain_int (si := checkedDiv) (ui := checkedDivU) (fl := fun l r => numFromFloored (ftrunc (fdiv l r))) hx hy ha hb hs with
    ⟨h, e1⟩ | ⟨h, hpa, hpb, e1⟩ <;>
  rcases chain_int (si := checkedRem) (ui := checkedRemU) (fl := fun l r => fromF64 (frem l r)) hx hy ha hb hs with
    ⟨h', e2⟩ | ⟨h', _, _, e2⟩
  · rw [e1, e2]
    simp only [checkedDiv, checkedRem, if_neg hg]
    exact ⟨_, _, rfl, rfl, trunc_laws h0⟩
  · exact absurd h h'
  · exact absurd h' h
  · rw [e1, e2]
    simp only [checkedDivU, checkedRemU, if_neg h0]
    have h1 : 0 ≤ a % b := Int.emod_nonneg a h0
    have h2 : a % b < b := Int.emod_lt_of_pos a (by omega)
    have h3 : a ≤ 0 → a % b ≤ 0 := by intro h; have : a = 0 := by omega
                                      subst this; simp
    exact ⟨_, _, rfl, rfl, (Int.mul_ediv_add_emod a b).symm, by omega, fun _ => h1, h3⟩

example : div (ofInt (-7)) (ofInt 2) = .ok (ofInt (-4)) ∧ mod (ofInt (-7)) (ofInt 2) = .ok (ofInt 1) := by decide +kernel
example : Ok (ofInt (-7)) ∧ Ok (ofInt 2) ∧ intVal (ofInt (-7)) = some (-7) ∧ SameType (-7) 2 := by
  refine ⟨?_, ?_, by decide, .inl ?_⟩ <;> simp [ofInt, Ok, BothI64, minI64, maxI64]
example : div (ofInt (2 ^ 64 - 1)) (ofInt 10) = .ok (ofInt 1844674407370955161) := by decide +kernel

/-- What is missing from C21: an integer above the signed range divided by a negative integer
goes through doubles, and the laws fail: `9223372036854775813 / -2` gives
`-4611686018427387904`, and the remainder `0` (should be `-4611686018427387907` and `-1`). -/
theorem mixed_division_inexact : ∃ x y a b q r, Ok x ∧ Ok y ∧ intVal x = some a ∧ intVal y = some b ∧ b ≠ 0 ∧
    div x y = .ok (ofInt q) ∧ mod x y = .ok (.float r) ∧ ¬ (a * unit = b * q * unit + r) := by
  refine ⟨.pos (2 ^ 63 + 5), .neg (-2), 2 ^ 63 + 5, -2, -(2 ^ 62), 0, by decide, by decide, by decide, by decide, by decide,
    by decide +kernel, by decide +kernel, by decide +kernel⟩

/-- A second defect of the double path: a quotient equal to `2^63` is converted with a
saturating cast, and the check for exactness compares doubles, so `9223372036854775808.0 / 1`
gives the integer `9223372036854775807`. -/
theorem floored_saturates : div (.float (2 ^ 63 * unit)) (.pos 1) = .ok (.pos (2 ^ 63 - 1)) ∧
    Ok (.float (2 ^ 63 * unit)) := by
  refine ⟨by decide +kernel, by decide +kernel, by decide +kernel⟩

/-! ## C22 -/

theorem chk_fits {a b c : Int} (h : BothI64 a b) : (∃ d, chkI c = some d) → Fits a b c := by
  rintro ⟨d, hd⟩
  unfold chkI at hd
  split at hd
  · exact .inl ⟨h, by assumption⟩
  · simp at hd

/-- An operation on two integers given by an exact function `g` either returns its exact
value or reports a range error, the latter exactly if the value does not fit. -/
def Exact (op : Num → Num → Res) (g : Int → Int → Int) : Prop :=
  ∀ x y a b, Ok x → Ok y → intVal x = some a → intVal y = some b → SameType a b →
    (Fits a b (g a b) → op x y = .ok (ofInt (g a b))) ∧ (¬ Fits a b (g a b) → op x y = .err .range)

theorem chain_exact {fl g} : Exact (chain (fun l r => chkI (g l r)) (fun l r => chkU (g l r)) fl) g := by
  intro x y a b hx hy ha hb hs
  rcases chain_int (si := fun l r => chkI (g l r)) (ui := fun l r => chkU (g l r)) (fl := fl) hx hy ha hb hs with
    ⟨h, e⟩ | ⟨h, _, _, e⟩
  · rw [e]
    constructor
    · rintro (hf | hf)
      · simp only [chkI, if_pos hf.2]; rfl
      · exact absurd h hf.1
    · intro hf
      have : ¬ (minI64 ≤ g a b ∧ g a b ≤ maxI64) := fun h' => hf (.inl ⟨h, h'⟩)
      simp only [chkI, if_neg this]; rfl
  · rw [e]
    constructor
    · rintro (hf | hf)
      · exact absurd hf.1 h
      · simp only [chkU, if_pos hf.2]; rfl
    · intro hf
      have : ¬ (0 ≤ g a b ∧ g a b < 2 ^ 64) := fun h' => hf (.inr ⟨h, h'⟩)
      simp only [chkU, if_neg this]; rfl

/-- **C22** (partial: for pairs in a common 64-bit type). -/
theorem add_exact_partial : Exact add (· + ·) := by
  intro x y a b
  unfold add
  exact chain_exact (g := fun l r => l + r) x y a b
theorem sub_exact_partial : Exact sub (· - ·) := by
  intro x y a b
  unfold sub
  exact chain_exact (g := fun l r => l - r) x y a b
theorem mul_exact_partial : Exact mul (· * ·) := by
  intro x y a b
  unfold mul
  exact chain_exact (g := fun l r => l * r) x y a b

/-- Results stay within the representable numbers. -/
theorem ofInt_ok {a b c : Int} (h : Fits a b c) : Ok (ofInt c) := by
  unfold Fits at h
  unfold minI64 maxI64 at *
  unfold ofInt
  rcases h with ⟨_, h⟩ | ⟨_, h⟩ <;> split <;> simp only [Ok, minI64] <;> omega

/-- Raising to a power: the exact value if it fits. -/
theorem pow_exact_partial (powf : Int → Int → Option Int) {x y : Num} {a e : Int} (hx : Ok x) (hy : Ok y)
    (ha : intVal x = some a) (he : intVal y = some e) (h0 : 0 ≤ e) (hn : e < 2 ^ 32)
    (hf : (minI64 ≤ a ∧ a ≤ maxI64 ∧ minI64 ≤ a ^ e.toNat ∧ a ^ e.toNat ≤ maxI64) ∨ (maxI64 < a ∧ a ^ e.toNat < 2 ^ 64)) :
    pow powf x y = .ok (ofInt (a ^ e.toNat)) := by
  unfold pow
  rw [asI64_of_intVal hx ha, asU64_of_intVal hx ha, asU64_of_intVal hy he, if_pos h0]
  rcases hf with ⟨h1, h2, h3⟩ | ⟨h1, h2⟩
  · rw [if_pos ⟨h1, h2⟩]
    have : ¬ e > 2 ^ 32 - 1 := by omega
    simp only [checkedIntPow, if_neg this, chkI, if_pos h3]
  · have : ¬ (minI64 ≤ a ∧ a ≤ maxI64) := by omega
    have h0a : 0 ≤ a := by unfold maxI64 at h1; omega
    rw [if_neg this, if_pos h0a]
    have hm : min e (2 ^ 32 - 1) = e := by omega
    have hp : 0 ≤ a ^ e.toNat := Int.pow_nonneg h0a
    simp only [checkedPowU, hm, chkU, if_pos (And.intro hp h2)]

/-- What the code does instead of reporting an error, 1: adding a negative integer to one
above the signed range is done in doubles and silently rounded. -/
theorem mixed_add_inexact : ∃ x y a b v, Ok x ∧ Ok y ∧ intVal x = some a ∧ intVal y = some b ∧
    add x y = .ok (.float v) ∧ v ≠ (a + b) * unit := by
  refine ⟨.pos (2 ^ 63 + 5), .neg (-2), 2 ^ 63 + 5, -2, 2 ^ 63 * unit, by decide, by decide, by decide, by decide,
    by decide +kernel, by decide +kernel⟩

/-- 2: a power that does not fit falls back to `powf`, so never reports a range error. -/
theorem pow_falls_back (powf : Int → Int → Option Int) {x y : Num} {a e : Int} (hx : Ok x) (hy : Ok y)
    (ha : intVal x = some a) (he : intVal y = some e) (hI : minI64 ≤ a ∧ a ≤ maxI64) (h0 : 0 ≤ e)
    (hf : ¬ (minI64 ≤ a ^ e.toNat ∧ a ^ e.toNat ≤ maxI64)) :
    pow powf x y = okOr .domain ((powf (asF64 x) (asF64 y)).map .float) := by
  unfold pow
  rw [asI64_of_intVal hx ha, asU64_of_intVal hy he, if_pos h0, if_pos hI]
  have : checkedIntPow a e = none := by
    unfold checkedIntPow chkI
    split <;> first | rfl | rw [if_neg hf]
  simp [this]

example : add (ofInt maxI64) (ofInt 1) = .err .range ∧ add (ofInt (2 ^ 63)) (ofInt 1) = .ok (ofInt (2 ^ 63 + 1)) := by
  decide +kernel
example : mul (ofInt (-3)) (ofInt 4) = .ok (ofInt (-12)) := by decide +kernel
example : pow (fun _ _ => none) (ofInt (-3)) (ofInt 39) = .ok (ofInt (-4052555153018976267)) := by decide +kernel
example : ¬ Fits maxI64 1 (maxI64 + 1) ∧ SameType maxI64 1 := by
  refine ⟨?_, .inl ?_⟩ <;> simp [Fits, BothI64, maxI64, minI64]

/-! ## C23 -/

/-- How `num_ord` compares: exactly if both are integers, else as doubles. -/
theorem numOrd_eq {x y : Num} (hx : Ok x) (hy : Ok y) : numOrd x y =
    match intVal x, intVal y with
    | some a, some b => compare a b
    | _, _ => compare (asF64 x) (asF64 y) := by
  cases hxa : intVal x with
  | none =>
    cases x with
    | float v => simp [numOrd, asI64, asU64]
    | _ => simp [intVal] at hxa
  | some a =>
    cases hyb : intVal y with
    | none =>
      cases y with
      | float v => simp only [numOrd, asI64, asU64]; split <;> first | simp_all | (split <;> simp_all)
      | _ => simp [intVal] at hyb
    | some b =>
      simp only
      unfold numOrd
      rw [asI64_of_intVal hx hxa, asI64_of_intVal hy hyb, asU64_of_intVal hx hxa, asU64_of_intVal hy hyb,
        asF64_of_intVal hxa, asF64_of_intVal hyb]
      have ba := intVal_bounds hx hxa
      have bb := intVal_bounds hy hyb
      by_cases h1 : minI64 ≤ a ∧ a ≤ maxI64
      · by_cases h2 : minI64 ≤ b ∧ b ≤ maxI64
        · rw [if_pos h1, if_pos h2]
        · rw [if_pos h1, if_neg h2]
          have hb : 0 ≤ b := by unfold maxI64 at *; omega
          rw [if_pos hb]
          by_cases h3 : 0 ≤ a
          · rw [if_pos h3]
          · rw [if_neg h3]
            have e1 := rndInt_neg (a := a) (by omega)
            have e2 := rndInt_pos (a := b) (by unfold maxI64 at *; omega)
            simp only [compare, compareOfLessAndEq]
            rw [if_pos (by omega), if_pos (by unfold maxI64 at *; omega)]
      · rw [if_neg h1]
        have ha : 0 ≤ a := by unfold maxI64 at *; omega
        rw [if_pos ha]
        by_cases h3 : 0 ≤ b
        · rw [if_pos h3]
        · rw [if_neg h3]
          have e1 := rndInt_neg (a := b) (by omega)
          have e2 := rndInt_pos (a := a) (by unfold maxI64 at *; omega)
          simp only [compare, compareOfLessAndEq]
          rw [if_neg (by omega), if_neg (by omega), if_neg (by unfold maxI64 at *; omega), if_neg (by unfold maxI64 at *; omega)]

theorem numEq_iff (x y : Num) : numEq x y = true ↔ numOrd x y = .eq := by
  unfold numEq numOrd
  split
  · simp [compare, compareOfLessAndEq]
    grind
  · split
    · simp [compare, compareOfLessAndEq]
      grind
    · simp [compare, compareOfLessAndEq]
      grind

theorem numOrd_swap (x y : Num) (hx : Ok x) (hy : Ok y) : numOrd y x = (numOrd x y).swap := by
  rw [numOrd_eq hx hy, numOrd_eq hy hx]
  have key : ∀ a b : Int, compare b a = (compare a b).swap := by
    intro a b
    simp only [compare, compareOfLessAndEq]
    grind [Ordering.swap]
  cases intVal x <;> cases intVal y <;> exact key _ _

/-- Exactly one of `<`, `=`, `>` holds; `<=` and `>=` are what they should be; `>` is `<`
reversed. -/
theorem trichotomy {x y : Num} (hx : Ok x) (hy : Ok y) :
    ((lt x y ∧ ¬ numEq x y ∧ ¬ gt x y) ∨ (¬ lt x y ∧ numEq x y ∧ ¬ gt x y) ∨ (¬ lt x y ∧ ¬ numEq x y ∧ gt x y)) ∧
    (lte x y ↔ lt x y ∨ numEq x y) ∧ (gte x y ↔ gt x y ∨ numEq x y) ∧ (gt x y ↔ lt y x) := by
  have h1 := numEq_iff x y
  have h2 := numOrd_swap x y hx hy
  unfold lt gt lte gte
  rw [h2]
  cases h : numOrd x y <;> simp_all [Ordering.isLT, Ordering.isGT, Ordering.isLE, Ordering.isGE, Ordering.swap]

theorem lt_iff {x y : Num} (hx : Ok x) (hy : Ok y) : lt x y = true ↔
    match intVal x, intVal y with
    | some a, some b => a < b
    | _, _ => asF64 x < asF64 y := by
  have key : ∀ a b : Int, (compare a b).isLT = true ↔ a < b := by
    intro a b; simp only [compare, compareOfLessAndEq]; grind [Ordering.isLT]
  unfold lt
  rw [numOrd_eq hx hy]
  cases intVal x <;> cases intVal y <;> exact key _ _

theorem asF64_eq_rnd {x : Num} (hx : Ok x) : asF64 x = rndInt (value x) 1 := by
  cases x with
  | float v => exact hx.1.symm
  | _ => rfl

theorem asF64_mono {x y : Num} (hx : Ok x) (hy : Ok y) (h : value x ≤ value y) : asF64 x ≤ asF64 y := by
  rw [asF64_eq_rnd hx, asF64_eq_rnd hy]; exact rndInt_mono (by decide) h

theorem value_of_intVal {x a} (h : intVal x = some a) : value x = a * unit := by
  cases x <;> simp [intVal] at h <;> subst h <;> rfl

/-- A comparison is never wrong: `x < y` only if the value of `x` is below that of `y`. -/
theorem lt_sound {x y : Num} (hx : Ok x) (hy : Ok y) (h : lt x y = true) : value x < value y := by
  have h := (lt_iff hx hy).1 h
  cases hxa : intVal x with
  | none =>
    simp only [hxa] at h
    apply Classical.byContradiction; intro hn
    have := asF64_mono hy hx (by omega); omega
  | some a =>
    cases hyb : intVal y with
    | none =>
      simp only [hxa, hyb] at h
      apply Classical.byContradiction; intro hn
      have := asF64_mono hy hx (by omega); omega
    | some b =>
      simp only [hxa, hyb] at h
      rw [value_of_intVal hxa, value_of_intVal hyb]
      exact Int.mul_lt_mul_of_pos_right h (Int.natCast_pos.2 unit_pos)

/-- Conversely for two integers, two doubles, or integers up to `2^53`. -/
theorem lt_complete {x y : Num} (hx : Ok x) (hy : Ok y)
    (hc : (∃ a b, intVal x = some a ∧ intVal y = some b) ∨
      ((∀ a, intVal x = some a → a.natAbs ≤ 2 ^ 53) ∧ (∀ b, intVal y = some b → b.natAbs ≤ 2 ^ 53)))
    (h : value x < value y) : lt x y = true := by
  rw [lt_iff hx hy]
  have exact : ∀ z : Num, (∀ a, intVal z = some a → a.natAbs ≤ 2 ^ 53) → asF64 z = value z := by
    intro z hz
    cases hzv : intVal z with
    | none => cases z with | float v => rfl | _ => simp [intVal] at hzv
    | some a => rw [asF64_of_intVal hzv, value_of_intVal hzv, rndInt_small (hz a hzv)]
  rcases hc with ⟨a, b, ha, hb⟩ | ⟨h1, h2⟩
  · rw [value_of_intVal ha, value_of_intVal hb] at h
    simp only [ha, hb]
    exact Int.lt_of_mul_lt_mul_right h (Int.natCast_nonneg _)
  · have e1 := exact x h1
    have e2 := exact y h2
    cases hxa : intVal x with
    | none => simp only; omega
    | some a =>
      cases hyb : intVal y with
      | none => simp only; omega
      | some b =>
        rw [value_of_intVal hxa, value_of_intVal hyb] at h
        exact Int.lt_of_mul_lt_mul_right h (Int.natCast_nonneg _)

/-- `<` is transitive on all numbers. -/
theorem lt_trans {x y z : Num} (hx : Ok x) (hy : Ok y) (hz : Ok z) (h1 : lt x y = true) (h2 : lt y z = true) : lt x z = true := by
  have v1 := lt_sound hx hy h1
  have v2 := lt_sound hy hz h2
  have m1 := asF64_mono hx hy (by omega)
  have m2 := asF64_mono hy hz (by omega)
  cases hxa : intVal x with
  | some a =>
    cases hzc : intVal z with
    | some c => exact lt_complete hx hz (.inl ⟨a, c, hxa, hzc⟩) (by omega)
    | none =>
      rw [lt_iff hx hz]
      rw [lt_iff hy hz] at h2
      simp only [hxa, hzc] at h2 ⊢
      cases hyb : intVal y <;> simp only [hyb] at h2 <;> omega
  | none =>
    rw [lt_iff hx hz]
    rw [lt_iff hx hy] at h1
    simp only [hxa] at h1 ⊢
    omega

/-- Equality is reflexive and symmetric. -/
theorem numEq_refl {x : Num} (hx : Ok x) : numEq x x = true := by
  rw [numEq_iff, numOrd_eq hx hx]
  cases intVal x <;> simp [compare, compareOfLessAndEq]

theorem numEq_symm {x y : Num} (hx : Ok x) (hy : Ok y) (h : numEq x y = true) : numEq y x = true := by
  rw [numEq_iff] at *
  rw [numOrd_swap x y hx hy, h]; rfl

/-- **C23** fails: equality is not transitive.  The double `2^53` equals both of the integers
`2^53` and `2^53 + 1`, which differ. -/
theorem numEq_not_transitive : ∃ x y z, Ok x ∧ Ok y ∧ Ok z ∧ numEq x y = true ∧ numEq y z = true ∧ lt x z = true := by
  refine ⟨.pos (2 ^ 53), .float (2 ^ 53 * unit), .pos (2 ^ 53 + 1), by decide, ?_, by decide, by decide +kernel, by decide +kernel, by decide +kernel⟩
  exact ⟨by decide +kernel, by decide +kernel⟩

/-- **C23** as far as it holds: total order by exact value on integers and doubles, as long as
integers compared with doubles are at most `2^53` in size. -/
theorem order_by_value_partial {x y : Num} (hx : Ok x) (hy : Ok y)
    (hc : (∃ a b, intVal x = some a ∧ intVal y = some b) ∨
      ((∀ a, intVal x = some a → a.natAbs ≤ 2 ^ 53) ∧ (∀ b, intVal y = some b → b.natAbs ≤ 2 ^ 53))) :
    (lt x y ↔ value x < value y) ∧ (numEq x y ↔ value x = value y) ∧ (gt x y ↔ value y < value x) := by
  have hc' : (∃ a b, intVal y = some a ∧ intVal x = some b) ∨
      ((∀ a, intVal y = some a → a.natAbs ≤ 2 ^ 53) ∧ (∀ b, intVal x = some b → b.natAbs ≤ 2 ^ 53)) := by
    rcases hc with ⟨a, b, h1, h2⟩ | ⟨h1, h2⟩
    · exact .inl ⟨b, a, h2, h1⟩
    · exact .inr ⟨h2, h1⟩
  have t := trichotomy hx hy
  have l1 : lt x y ↔ value x < value y := ⟨lt_sound hx hy, lt_complete hx hy hc⟩
  have l2 : lt y x ↔ value y < value x := ⟨lt_sound hy hx, lt_complete hy hx hc'⟩
  have g := t.2.2.2
  refine ⟨l1, ?_, g.trans l2⟩
  rcases t.1 with ⟨h1, h2, h3⟩ | ⟨h1, h2, h3⟩ | ⟨h1, h2, h3⟩
  · have := l1.1 h1; simp [h2]; omega
  · have a1 := mt l1.2 h1
    have a2 := mt l2.2 (mt g.2 h3)
    simp [h2]; omega
  · have := l2.1 (g.1 h3); simp [h2]; omega

example : lt (.neg (-3)) (.float 1) = true ∧ lt (.float 1) (.pos (2 ^ 64 - 1)) = true ∧ Ok (.float 1) := by
  refine ⟨by decide +kernel, by decide +kernel, by decide +kernel, by decide +kernel⟩

end Verif.Arith
