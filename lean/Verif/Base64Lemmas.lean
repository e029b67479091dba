import Verif.PrintfSpec
import Mathlib.Tactic.Ring

/-!
Proofs only.
-/

namespace Verif.Printf

theorem symbol_value {n : Nat} (h : n < 64) : valueOf (symbol n) = some n := by
  revert n; decide +kernel

theorem symbol_ne {n : Nat} (h : n < 64) : symbol n ≠ '=' := by
  revert n; decide +kernel

theorem symbol_std {n : Nat} (h : n < 64) : symbol n = sixBits n := by
  revert n; decide +kernel

theorem value_symbol {c : Char} {n : Nat} (h : valueOf c = some n) : n < 64 ∧ symbol n = c := by
  unfold valueOf at h
  obtain ⟨hn, hc, _⟩ := List.findIdx?_eq_some_iff_getElem.1 h
  have hl : alphabet.length = 64 := by decide +kernel
  refine ⟨by omega, ?_⟩
  unfold symbol
  rw [List.getD_eq_getElem?_getD, List.getElem?_eq_getElem hn]
  simpa using hc

theorem valueOf_eq : valueOf '=' = none := by decide +kernel

theorem decode_encode {bs : List Nat} (h : ∀ b ∈ bs, b < 256) : decode (encode bs) = some bs := by
  induction bs using encode.induct with
  | case1 a b c r ih =>
    have ha := h a (by simp)
    have hb := h b (by simp)
    have hc := h c (by simp)
    have ih := ih (fun x hx => h x (by simp [hx]))
    rw [encode]
    have n1 := symbol_ne (n := b % 16 * 4 + c / 64) (by omega)
    have n2 := symbol_ne (n := c % 64) (by omega)
    rw [decode]
    · rw [symbol_value (by omega), symbol_value (by omega), symbol_value (by omega), symbol_value (by omega), ih]
      simp only [Option.some.injEq, List.cons.injEq, and_true]
      refine ⟨by omega, by omega, by omega⟩
    · intro h1 h2; exact absurd h2 n2
    · intro h2; exact absurd h2 n2
  | case2 a b =>
    have ha := h a (by simp)
    have hb := h b (by simp)
    rw [encode]
    have n1 := symbol_ne (n := b % 16 * 4) (by omega)
    rw [decode]
    · rw [symbol_value (by omega), symbol_value (by omega), symbol_value (by omega)]
      simp only []
      rw [if_pos (by omega)]
      simp only [Option.some.injEq, List.cons.injEq, and_true]
      refine ⟨by omega, by omega⟩
    · intro h1; exact absurd h1 n1
  | case3 a =>
    have ha := h a (by simp)
    rw [encode]
    rw [decode]
    rw [symbol_value (by omega), symbol_value (by omega)]
    simp only []
    rw [if_pos (by omega)]
    simp only [Option.some.injEq, List.cons.injEq, and_true]
    omega
  | case4 => rfl

theorem encode_decode_le (n : Nat) {t : Str} {bs : List Nat} (hn : t.length ≤ n) (h : decode t = some bs) :
    encode bs = t ∧ ∀ b ∈ bs, b < 256 := by
  induction n generalizing t bs with
  | zero =>
    have : t = [] := by cases t; rfl; simp at hn
    subst this; cases h; simp [encode]
  | succ n ih =>
    unfold decode at h
    split at h
    · cases h; simp [encode]
    · rename_i w x
      split at h
      · rename_i w' x' hw hx
        obtain ⟨lw, ew⟩ := value_symbol hw
        obtain ⟨lx, ex⟩ := value_symbol hx
        split at h
        · rename_i h0
          cases h
          refine ⟨?_, by simp; omega⟩
          rw [encode, ← ew, ← ex]
          have e1 : (w' * 4 + x' / 16) / 4 = w' := by omega
          have e2 : (w' * 4 + x' / 16) % 4 * 16 = x' := by omega
          rw [e1, e2]
        · cases h
      · cases h
    · rename_i w x y hy
      split at h
      · rename_i w' x' y' hw hx hyv
        obtain ⟨lw, ew⟩ := value_symbol hw
        obtain ⟨lx, ex⟩ := value_symbol hx
        obtain ⟨ly, ey⟩ := value_symbol hyv
        split at h
        · rename_i h0
          cases h
          refine ⟨?_, by simp; omega⟩
          rw [encode, ← ew, ← ex, ← ey]
          have e1 : (w' * 4 + x' / 16) / 4 = w' := by omega
          have e2 : (w' * 4 + x' / 16) % 4 * 16 + (x' % 16 * 16 + y' / 4) / 16 = x' := by omega
          have e3 : (x' % 16 * 16 + y' / 4) % 16 * 4 = y' := by omega
          rw [e1, e2, e3]
        · cases h
      · cases h
    · rename_i w x y z r _ _
      split at h
      · rename_i w' x' y' z' r' hw hx hyv hz hr
        obtain ⟨lw, ew⟩ := value_symbol hw
        obtain ⟨lx, ex⟩ := value_symbol hx
        obtain ⟨ly, ey⟩ := value_symbol hyv
        obtain ⟨lz, ez⟩ := value_symbol hz
        cases h
        obtain ⟨er, lr⟩ := ih (by simp at hn; omega) hr
        refine ⟨?_, ?_⟩
        · rw [encode, ← ew, ← ex, ← ey, ← ez, er]
          have e1 : (w' * 4 + x' / 16) / 4 = w' := by omega
          have e2 : (w' * 4 + x' / 16) % 4 * 16 + (x' % 16 * 16 + y' / 4) / 16 = x' := by omega
          have e3 : (x' % 16 * 16 + y' / 4) % 16 * 4 + (y' % 4 * 64 + z') / 64 = y' := by omega
          have e4 : (y' % 4 * 64 + z') % 64 = z' := by omega
          rw [e1, e2, e3, e4]
        · intro b hb
          simp only [List.mem_cons] at hb
          rcases hb with rfl | rfl | rfl | hb
          · omega
          · omega
          · omega
          · exact lr b hb
      · cases h
    · cases h

theorem encode_decode {t : Str} {bs : List Nat} (h : decode t = some bs) :
    encode bs = t ∧ ∀ b ∈ bs, b < 256 := encode_decode_le _ (Nat.le_refl _) h

/-! ## Bits -/

theorem bits_append (j k : Nat) {x y : Nat} (hy : y < 2 ^ k) :
    bits (j + k) (x * 2 ^ k + y) = bits j x ++ bits k y := by
  induction k generalizing y with
  | zero =>
    have : y = 0 := by simpa using hy
    subst this; simp [bits]
  | succ k ih =>
    have e1 : (x * 2 ^ (k + 1) + y) / 2 = x * 2 ^ k + y / 2 := by
      rw [Nat.pow_succ, ← Nat.mul_assoc]; omega
    have e2 : (x * 2 ^ (k + 1) + y) % 2 = y % 2 := by
      rw [Nat.pow_succ, ← Nat.mul_assoc]; omega
    rw [← Nat.add_assoc, bits, e1, e2, ih (by rw [Nat.pow_succ] at hy; omega), bits, List.append_assoc]

theorem bits_zero (k : Nat) : bits k 0 = List.replicate k false := by
  induction k with
  | zero => rfl
  | succ k ih => rw [bits, Nat.zero_div, ih, List.replicate_succ']; rfl

theorem bits_8_6 (a : Nat) : bits 8 a = bits 6 (a / 4) ++ bits 2 (a % 4) := by
  rw [← bits_append 6 2 (by omega)]; congr 1; omega

theorem bits_8_4 (a : Nat) : bits 8 a = bits 4 (a / 16) ++ bits 4 (a % 16) := by
  rw [← bits_append 4 4 (by omega)]; congr 1; omega

theorem bits_8_2 (a : Nat) : bits 8 a = bits 2 (a / 64) ++ bits 6 (a % 64) := by
  rw [← bits_append 2 6 (by omega)]; congr 1; omega

theorem bits_6_4 {x y : Nat} (hy : y < 16) : bits 6 (x * 16 + y) = bits 2 x ++ bits 4 y :=
  bits_append 2 4 hy

theorem bits_6_2 {x y : Nat} (hy : y < 4) : bits 6 (x * 4 + y) = bits 4 x ++ bits 2 y :=
  bits_append 4 2 hy

theorem encode_is {bs : List Nat} (h : ∀ b ∈ bs, b < 256) : IsBase64 bs (encode bs) := by
  induction bs using encode.induct with
  | case1 a b c r ih =>
    have ha := h a (by simp)
    have hb := h b (by simp)
    have hc := h c (by simp)
    obtain ⟨vs, k, e, hv, hk, he, hbits, ht, hlen⟩ := ih (fun x hx => h x (by simp [hx]))
    refine ⟨a / 4 :: (a % 4 * 16 + b / 16) :: (b % 16 * 4 + c / 64) :: c % 64 :: vs, k, e, ?_, hk, he, ?_, ?_, ?_⟩
    · intro v hv'
      simp only [List.mem_cons] at hv'
      rcases hv' with rfl | rfl | rfl | rfl | hv' <;> first | omega | exact hv v hv'
    · simp only [List.flatMap_cons, hbits]
      rw [bits_6_4 (by omega), bits_6_2 (by omega), bits_8_6 a, bits_8_4 b, bits_8_2 c]
      simp only [List.append_assoc]
    · rw [encode, ht, symbol_std (by omega), symbol_std (by omega), symbol_std (by omega), symbol_std (by omega)]
      rfl
    · rw [encode]; simp only [List.length_cons]; omega
  | case2 a b =>
    have ha := h a (by simp)
    have hb := h b (by simp)
    refine ⟨[a / 4, a % 4 * 16 + b / 16, b % 16 * 4], 2, 1, ?_, by decide, by decide, ?_, ?_, ?_⟩
    · intro v hv'
      simp only [List.mem_cons, List.not_mem_nil, or_false] at hv'
      rcases hv' with rfl | rfl | rfl <;> omega
    · simp only [List.flatMap_cons, List.flatMap_nil]
      have := bits_6_2 (x := b % 16) (y := 0) (by omega)
      rw [Nat.add_zero] at this
      rw [bits_6_4 (by omega), this, bits_8_6 a, bits_8_4 b, bits_zero]
      simp only [List.append_assoc, List.append_nil]
    · rw [encode, symbol_std (by omega), symbol_std (by omega), symbol_std (by omega)]; rfl
    · rw [encode]; simp
  | case3 a =>
    have ha := h a (by simp)
    refine ⟨[a / 4, a % 4 * 16], 4, 2, ?_, by decide, by decide, ?_, ?_, ?_⟩
    · intro v hv'
      simp only [List.mem_cons, List.not_mem_nil, or_false] at hv'
      rcases hv' with rfl | rfl <;> omega
    · simp only [List.flatMap_cons, List.flatMap_nil]
      have := bits_6_4 (x := a % 4) (y := 0) (by omega)
      rw [Nat.add_zero] at this
      rw [this, bits_8_6 a, bits_zero]
      simp only [List.append_assoc, List.append_nil]
    · rw [encode, symbol_std (by omega), symbol_std (by omega)]; rfl
    · rw [encode]; simp
  | case4 => exact ⟨[], 0, 0, by simp, by decide, by decide, by simp, by simp [encode], by simp [encode]⟩

theorem bits_length (k n : Nat) : (bits k n).length = k := by
  induction k generalizing n with
  | zero => rfl
  | succ k ih => simp [bits, ih]

theorem bits_inj {k : Nat} {m n : Nat} (hm : m < 2 ^ k) (hn : n < 2 ^ k) (h : bits k m = bits k n) : m = n := by
  induction k generalizing m n with
  | zero => simp at hm hn; omega
  | succ k ih =>
    rw [bits, bits] at h
    obtain ⟨h1, h2⟩ := List.append_inj' h rfl
    rw [Nat.pow_succ] at hm hn
    have := ih (by omega) (by omega) h1
    simp only [List.cons.injEq, and_true] at h2
    have h3 : (m % 2 = 1) ↔ (n % 2 = 1) := by
      rw [← beq_iff_eq, h2, beq_iff_eq]
    omega

theorem flatMap_bits_length (k : Nat) (l : List Nat) : (l.flatMap (bits k)).length = k * l.length := by
  induction l with
  | nil => simp
  | cons a l ih => simp [List.flatMap_cons, bits_length, ih]; ring

theorem flatMap_bits_inj {l m : List Nat} (hl : ∀ v ∈ l, v < 64) (hm : ∀ v ∈ m, v < 64)
    (h : l.flatMap (bits 6) = m.flatMap (bits 6)) : l = m := by
  induction l generalizing m with
  | nil =>
    have := congrArg List.length h
    rw [flatMap_bits_length, flatMap_bits_length] at this
    cases m with
    | nil => rfl
    | cons _ _ => simp at this
  | cons a l ih =>
    cases m with
    | nil =>
      have := congrArg List.length h
      rw [flatMap_bits_length, flatMap_bits_length] at this
      simp at this
    | cons b m =>
      rw [List.flatMap_cons, List.flatMap_cons] at h
      obtain ⟨h1, h2⟩ := List.append_inj h (by rw [bits_length, bits_length])
      rw [bits_inj (hl a (by simp)) (hm b (by simp)) h1,
        ih (fun v hv => hl v (by simp [hv])) (fun v hv => hm v (by simp [hv])) h2]

/-- There is one base64 for bytes. -/
theorem base64_unique {bs : List Nat} {t u : Str} (ht : IsBase64 bs t) (hu : IsBase64 bs u) : t = u := by
  obtain ⟨vs, k, e, h1, h2, h3, h4, h5, h6⟩ := ht
  obtain ⟨vs', k', e', h1', h2', h3', h4', h5', h6'⟩ := hu
  have l := congrArg List.length h4
  have l' := congrArg List.length h4'
  simp only [List.length_append, flatMap_bits_length, List.length_replicate] at l l'
  have hk : k = k' := by omega
  subst hk
  have hv : vs = vs' := flatMap_bits_inj h1 h1' (h4.trans h4'.symm)
  subst hv
  have a := congrArg List.length h5
  have a' := congrArg List.length h5'
  simp only [List.length_append, List.length_map, List.length_replicate] at a a'
  have he : e = e' := by omega
  subst he
  rw [h5, h5']

/-! ## Texts -/

theorem bytesOf_lt (s : Str) : ∀ b ∈ bytesOf s, b < 256 := by
  intro b hb
  obtain ⟨x, _, rfl⟩ := List.mem_map.1 hb
  exact x.toNat_lt

theorem map_ofNat_toNat (l : List UInt8) : (l.map UInt8.toNat).map UInt8.ofNat = l := by
  induction l with
  | nil => rfl
  | cons a l ih => simp only [List.map_cons, ih, UInt8.ofNat_toNat]

theorem map_toNat_ofNat {l : List Nat} (h : ∀ b ∈ l, b < 256) : (l.map UInt8.ofNat).map UInt8.toNat = l := by
  induction l with
  | nil => rfl
  | cons a l ih =>
    simp only [List.map_cons, ih (fun b hb => h b (by simp [hb])), List.cons.injEq, and_true]
    simpa using h a (by simp)

theorem textOf_bytesOf (s : Str) : textOf (bytesOf s) = some s := by
  unfold textOf bytesOf
  rw [map_ofNat_toNat]
  have : (ByteArray.mk s.utf8Encode.data.toList.toArray) = s.utf8Encode := by simp
  rw [this, List.utf8Decode?_utf8Encode]
  simp

theorem bytesOf_textOf {l : List Nat} {s : Str} (hl : ∀ b ∈ l, b < 256) (h : textOf l = some s) :
    bytesOf s = l := by
  unfold textOf at h
  cases hd : (ByteArray.mk (l.map UInt8.ofNat).toArray).utf8Decode? with
  | none => rw [hd] at h; cases h
  | some a =>
    rw [hd] at h; cases h
    have h2 : (ByteArray.mk (l.map UInt8.ofNat).toArray).utf8Decode?.isSome = true := by rw [hd]; rfl
    have h3 := ByteArray.utf8Encode_get_utf8Decode? (h := h2)
    simp only [hd, Option.get_some] at h3
    unfold bytesOf
    rw [h3]
    simp only []
    exact map_toNat_ofNat hl

end Verif.Printf
