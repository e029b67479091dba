import Verif.PrintfSpec
import Verif.ArithLemmas
import Mathlib.Tactic.Tauto
import Mathlib.Tactic.Ring
import Mathlib.Tactic.Set

/-!
Proofs only.
-/

namespace Verif.Printf

open Verif.Arith

/-! ## Reading a format -/

theorem addFlag_none {f : Flags} {c : Char} : addFlag f c = none ↔ c ∉ flagChars := by
  unfold addFlag flagChars
  repeat' split
  all_goals simp_all

/-- The flags with those of `s` added. -/
def withFlags (f : Flags) (s : Str) : Flags :=
  { left := f.left || decide ('-' ∈ s), plus := f.plus || decide ('+' ∈ s),
    space := f.space || decide (' ' ∈ s), zero := f.zero || decide ('0' ∈ s),
    group := f.group || decide ('\'' ∈ s), alt := f.alt || decide ('#' ∈ s) }

theorem addFlag_some {f f' : Flags} {c : Char} (h : addFlag f c = some f') (s : Str) :
    withFlags f' s = withFlags f (c :: s) := by
  unfold addFlag at h
  repeat' split at h
  all_goals first
    | (subst_vars; cases h; simp [withFlags])
    | cases h

theorem parseFlags_append {fs s : Str} (hf : ∀ c ∈ fs, c ∈ flagChars)
    (hs : ∀ c, s.head? = some c → c ∉ flagChars) (f : Flags) :
    parseFlags f (fs ++ s) = (withFlags f fs, s) := by
  induction fs generalizing f with
  | nil =>
    cases s with
    | nil => simp [parseFlags, withFlags]
    | cons c s =>
      have : addFlag f c = none := addFlag_none.2 (hs c rfl)
      simp [parseFlags, this, withFlags]
  | cons c fs ih =>
    have hc := hf c (by simp)
    cases h : addFlag f c with
    | none => exact absurd hc (addFlag_none.1 h)
    | some f' =>
      simp only [List.cons_append, parseFlags, h]
      rw [ih (fun x hx => hf x (by simp [hx])), addFlag_some h]

theorem parseFlags_split (f : Flags) (s : Str) : ∃ fs r, s = fs ++ r ∧ (∀ c ∈ fs, c ∈ flagChars) ∧
    (∀ c, r.head? = some c → c ∉ flagChars) := by
  induction s generalizing f with
  | nil => exact ⟨[], [], rfl, by simp, by simp⟩
  | cons c s ih =>
    by_cases h : c ∈ flagChars
    · obtain ⟨fs, r, rfl, h1, h2⟩ := ih f
      refine ⟨c :: fs, r, rfl, ?_, h2⟩
      intro x hx
      rcases List.mem_cons.1 hx with rfl | hx
      · exact h
      · exact h1 x hx
    · refine ⟨[], c :: s, rfl, by simp, ?_⟩
      intro x hx
      cases hx; exact h

theorem digit_of_isDigit {c : Char} (h : c.isDigit = true) : digit c = c.toNat - 48 := by
  simp [digit, h]

theorem parseWidth_append {ds s : Str} (hd : ∀ c ∈ ds, c.isDigit = true)
    (hs : ∀ c, s.head? = some c → c.isDigit = false) (w : Nat) :
    parseWidth w (ds ++ s) = (w * 10 ^ ds.length + valueIn 10 ds, s) := by
  induction ds generalizing w with
  | nil =>
    cases s with
    | nil => simp [parseWidth, valueIn]
    | cons c s => simp [parseWidth, hs c rfl, valueIn]
  | cons c ds ih =>
    have hc := hd c (by simp)
    simp only [List.cons_append, parseWidth, hc, if_true]
    rw [ih (fun x hx => hd x (by simp [hx]))]
    simp only [valueIn, digit_of_isDigit hc, List.length_cons, Nat.pow_succ]
    congr 1
    rw [Nat.add_mul, Nat.mul_assoc, Nat.mul_comm 10, Nat.add_assoc]

theorem digits_split (s : Str) : ∃ ds r, s = ds ++ r ∧ (∀ c ∈ ds, c.isDigit = true) ∧
    (∀ c, r.head? = some c → c.isDigit = false) := by
  induction s with
  | nil => exact ⟨[], [], rfl, by simp, by simp⟩
  | cons c s ih =>
    by_cases h : c.isDigit = true
    · obtain ⟨fs, r, rfl, h1, h2⟩ := ih
      refine ⟨c :: fs, r, rfl, ?_, h2⟩
      intro x hx
      rcases List.mem_cons.1 hx with rfl | hx
      · exact h
      · exact h1 x hx
    · refine ⟨[], c :: s, rfl, by simp, ?_⟩
      intro x hx
      cases hx; simpa using h

theorem specOf_iff {c : Char} {k : Spec} : specOf c = some k ↔ (c, k) ∈ specChars := by
  unfold specOf specChars
  constructor
  · intro h
    repeat' split at h
    all_goals first
      | (cases h; done)
      | (rename_i hc; cases h; simp at hc ⊢; tauto)
  · intro h
    simp only [List.mem_cons, List.not_mem_nil, or_false, Prod.mk.injEq] at h
    rcases h with ⟨rfl, rfl⟩ | ⟨rfl, rfl⟩ | ⟨rfl, rfl⟩ | ⟨rfl, rfl⟩ | ⟨rfl, rfl⟩ | ⟨rfl, rfl⟩ |
      ⟨rfl, rfl⟩ | ⟨rfl, rfl⟩ | ⟨rfl, rfl⟩ | ⟨rfl, rfl⟩ | ⟨rfl, rfl⟩ | ⟨rfl, rfl⟩ | ⟨rfl, rfl⟩ |
      ⟨rfl, rfl⟩ | ⟨rfl, rfl⟩ | ⟨rfl, rfl⟩ <;> rfl

/-- A specifier is not a flag, a digit, a dot or the first letter of a length. -/
theorem spec_char {c : Char} {k : Spec} (h : (c, k) ∈ specChars) :
    c ∉ flagChars ∧ c.isDigit = false ∧ c ≠ '.' ∧ c ≠ 'h' ∧ c ≠ 'l' ∧ c ≠ 'z' ∧ c ≠ 't' := by
  simp only [specChars, List.mem_cons, List.not_mem_nil, or_false, Prod.mk.injEq] at h
  rcases h with ⟨rfl, rfl⟩ | ⟨rfl, rfl⟩ | ⟨rfl, rfl⟩ | ⟨rfl, rfl⟩ | ⟨rfl, rfl⟩ | ⟨rfl, rfl⟩ |
    ⟨rfl, rfl⟩ | ⟨rfl, rfl⟩ | ⟨rfl, rfl⟩ | ⟨rfl, rfl⟩ | ⟨rfl, rfl⟩ | ⟨rfl, rfl⟩ | ⟨rfl, rfl⟩ |
    ⟨rfl, rfl⟩ | ⟨rfl, rfl⟩ | ⟨rfl, rfl⟩ <;> decide

theorem parseLength_append {l : Str} (hl : l ∈ lengths) {c : Char} (r : Str)
    (hc : c ≠ 'h' ∧ c ≠ 'l' ∧ c ≠ 'z' ∧ c ≠ 't') : parseLength (l ++ c :: r) = c :: r := by
  obtain ⟨h1, h2, h3, h4⟩ := hc
  simp only [lengths, List.mem_cons, List.not_mem_nil, or_false] at hl
  rcases hl with rfl | rfl | rfl | rfl | rfl | rfl | rfl
  · simp only [List.nil_append]
    unfold parseLength
    split <;> simp_all
  · simp only [List.cons_append, List.nil_append]
    unfold parseLength
    split <;> simp_all
  · rfl
  · simp only [List.cons_append, List.nil_append]
    unfold parseLength
    split <;> simp_all
  · rfl
  · rfl
  · rfl

theorem parseLength_split (s : Str) : ∃ l ∈ lengths, s = l ++ parseLength s := by
  unfold parseLength
  split
  · exact ⟨['h', 'h'], by decide, rfl⟩
  · exact ⟨['h'], by decide, rfl⟩
  · exact ⟨['l', 'l'], by decide, rfl⟩
  · exact ⟨['l'], by decide, rfl⟩
  · exact ⟨['z'], by decide, rfl⟩
  · exact ⟨['t'], by decide, rfl⟩
  · exact ⟨[], by decide, rfl⟩

theorem length_head {l : Str} (hl : l ∈ lengths) {c : Char} (hc : l.head? = some c) :
    c ∉ flagChars ∧ c.isDigit = false ∧ c ≠ '.' := by
  simp only [lengths, List.mem_cons, List.not_mem_nil, or_false] at hl
  rcases hl with rfl | rfl | rfl | rfl | rfl | rfl | rfl <;> cases hc <;> decide

theorem flag_or_digit {c : Char} (h : c.isDigit = true) (h0 : c ≠ '0') : c ∉ flagChars := by
  simp only [flagChars]
  intro hm
  have : c = '-' ∨ c = '+' ∨ c = ' ' ∨ c = '0' ∨ c = '\'' ∨ c = '#' := by simpa using hm
  rcases this with rfl | rfl | rfl | rfl | rfl | rfl <;> first | exact h0 rfl | (revert h; decide)

/-- A directive is read as what it asks for, whatever comes after it. -/
theorem parse_text {d : Directive} {k : Spec} (hd : d.Ok) (hk : (d.spec, k) ∈ specChars) (r : Str) :
    parseFormat (d.text ++ r) = some (d.asks k) := by
  obtain ⟨s1, s2, s3, s4, s5, s6, s7⟩ := spec_char hk
  -- the heads of what comes after each part
  have h4 : ∀ c, (d.length ++ d.spec :: r).head? = some c → c ∉ flagChars ∧ c.isDigit = false ∧ c ≠ '.' := by
    intro c hc
    cases hl : d.length with
    | nil => rw [hl] at hc; cases hc; exact ⟨s1, s2, s3⟩
    | cons a l => rw [hl] at hc; cases hc; exact length_head hd.length (by rw [hl]; rfl)
  have h3 : ∀ c, (dotted d.precision ++
      (d.length ++ d.spec :: r)).head? = some c → c ∉ flagChars ∧ c.isDigit = false := by
    intro c hc
    cases hp : d.precision with
    | none => rw [hp] at hc; exact ⟨(h4 c hc).1, (h4 c hc).2.1⟩
    | some p => rw [hp] at hc; simp only [dotted, List.cons_append, List.head?_cons, Option.some.injEq] at hc; subst hc; decide
  have h2 : ∀ c, (d.width ++ (dotted d.precision ++
      (d.length ++ d.spec :: r))).head? = some c → c ∉ flagChars := by
    intro c hc
    cases hw : d.width with
    | nil => rw [hw] at hc; exact (h3 c hc).1
    | cons a w =>
      rw [hw] at hc; cases hc
      refine flag_or_digit (hd.width _ (by simp [hw])) ?_
      rintro rfl
      exact hd.nonzero (by simp [hw])
  have e : d.text ++ r = '%' :: (d.flags ++ (d.width ++
      (dotted d.precision ++ (d.length ++ d.spec :: r)))) := by
    simp [Directive.text]
  rw [e]
  simp only [parseFormat]
  rw [parseFlags_append hd.flags h2]
  simp only []
  rw [parseWidth_append hd.width (fun c hc => (h3 c hc).2)]
  simp only []
  have hp : parsePrecision (dotted d.precision ++
      (d.length ++ d.spec :: r)) = (d.precision.map (valueIn 10), d.length ++ d.spec :: r) := by
    cases hp : d.precision with
    | none =>
      simp only [dotted, List.nil_append, Option.map_none]
      cases hl : d.length ++ d.spec :: r with
      | nil => simp at hl
      | cons a l =>
        have := (h4 a (by rw [hl]; rfl)).2.2
        unfold parsePrecision
        split
        · rename_i heq; cases heq; exact absurd rfl this
        · rfl
    | some p =>
      simp only [dotted, List.cons_append, parsePrecision, Option.map_some]
      rw [parseWidth_append (hd.precision p hp) (fun c hc => (h4 c hc).2.1)]
      simp
  rw [hp]
  simp only [parseLength_append hd.length r ⟨s4, s5, s6, s7⟩, specOf_iff.2 hk]
  simp [Directive.asks, withFlags]

/-- Every format that is read is a directive with some text after it. -/
theorem parse_sound {s : Str} {g : Arg} (h : parseFormat s = some g) : ∃ (d : Directive) (k : Spec) (r : Str),
    d.Ok ∧ (d.spec, k) ∈ specChars ∧ s = d.text ++ r ∧ g = d.asks k := by
  have hs : ∃ t, s = '%' :: t := by
    unfold parseFormat at h
    split at h
    · exact ⟨_, rfl⟩
    · cases h
  obtain ⟨t, rfl⟩ := hs
  obtain ⟨fs, r1, rfl, hf, hr1⟩ := parseFlags_split {} t
  obtain ⟨ws, r2, rfl, hw, hr2⟩ := digits_split r1
  have hsplit : ∃ (p : Option Str) (r3 : Str), r2 = dotted p ++ r3 ∧
      (∀ q, p = some q → ∀ c ∈ q, c.isDigit = true) ∧ (parsePrecision r2).2 = r3 := by
    by_cases hdot : ∃ r, r2 = '.' :: r
    · obtain ⟨r, rfl⟩ := hdot
      obtain ⟨ps, r3, rfl, hp, hr3⟩ := digits_split r
      refine ⟨some ps, r3, by simp [dotted], ?_, ?_⟩
      · rintro q hq; cases hq; exact hp
      · simp only [parsePrecision]; rw [parseWidth_append hp hr3]
    · refine ⟨none, r2, rfl, by simp, ?_⟩
      unfold parsePrecision
      split
      · exact absurd ⟨_, rfl⟩ hdot
      · rfl
  obtain ⟨p, r3, rfl, hp, e3⟩ := hsplit
  obtain ⟨l, hl, hl'⟩ := parseLength_split r3
  have hh := h
  simp only [parseFormat] at h
  rw [parseFlags_append hf hr1] at h
  simp only [] at h
  rw [parseWidth_append hw hr2] at h
  simp only [] at h
  rw [e3] at h
  split at h
  case h_2 => cases h
  rename_i c r hc
  cases hk : specOf c with
  | none => rw [hk] at h; cases h
  | some k =>
    have hk' := specOf_iff.1 hk
    refine ⟨⟨fs, ws, p, l, c⟩, k, r, ?_, hk', ?_, ?_⟩
    · refine ⟨hf, hw, ?_, hp, hl⟩
      show ws.head? ≠ some '0'
      intro h0
      refine hr1 '0' ?_ (by decide)
      cases ws with
      | nil => cases h0
      | cons a ws => simpa using h0
    · conv_lhs => rw [hl', hc]
      simp [Directive.text]
    · have hd : (⟨fs, ws, p, l, c⟩ : Directive).Ok := by
        refine ⟨hf, hw, ?_, hp, hl⟩
        show ws.head? ≠ some '0'
        intro h0
        refine hr1 '0' ?_ (by decide)
        cases ws with
        | nil => cases h0
        | cons a ws => simpa using h0
      have := parse_text (k := k) hd hk' r
      have e : '%' :: (fs ++ (ws ++ (dotted p ++ r3))) =
          (⟨fs, ws, p, l, c⟩ : Directive).text ++ r := by
        conv_lhs => rw [hl', hc]
        simp [Directive.text]
      rw [e] at hh
      rw [this] at hh
      exact (Option.some.inj hh).symm

/-! ## Digits -/

theorem valueIn_append (b : Nat) (s t : Str) :
    valueIn b (s ++ t) = valueIn b s * b ^ t.length + valueIn b t := by
  induction s with
  | nil => simp [valueIn]
  | cons c s ih => simp only [List.cons_append, valueIn, ih, List.length_append, Nat.pow_add]; ring

theorem digit_digitChar {n : Nat} (h : n < 16) : digit n.digitChar = n := by
  revert n; decide

theorem digit_upper {n : Nat} (h : n < 16) : digit n.digitChar.toUpper = n := by
  revert n; decide

theorem valueIn_toDigits {b : Nat} (h1 : 1 < b) (h2 : b ≤ 16) (n : Nat) :
    valueIn b (Nat.toDigits b n) = n := by
  induction n using Nat.strongRecOn with
  | _ n ih =>
    rw [Nat.toDigits_eq_if h1]
    split
    · rename_i h
      simp [valueIn, digit_digitChar (by omega : n < 16)]
    · rename_i h
      have hlt : n / b < n := Nat.div_lt_self (by omega) h1
      rw [valueIn_append, ih _ hlt]
      have := Nat.mod_lt n (by omega : b > 0)
      simp only [valueIn, digit_digitChar (by omega : n % b < 16), List.length_cons, List.length_nil]
      have := Nat.div_add_mod n b
      simp; rw [Nat.mul_comm]; exact this

theorem valueIn_upper {b : Nat} (h1 : 1 < b) (h2 : b ≤ 16) (n : Nat) :
    valueIn b ((Nat.toDigits b n).map Char.toUpper) = n := by
  induction n using Nat.strongRecOn with
  | _ n ih =>
    rw [Nat.toDigits_eq_if h1]
    split
    · rename_i h
      simp [valueIn, digit_upper (by omega : n < 16)]
    · rename_i h
      have hlt : n / b < n := Nat.div_lt_self (by omega) h1
      rw [List.map_append, valueIn_append, ih _ hlt]
      have := Nat.mod_lt n (by omega : b > 0)
      simp only [List.map_cons, List.map_nil, valueIn, digit_upper (by omega : n % b < 16),
        List.length_cons, List.length_nil]
      have := Nat.div_add_mod n b
      simp; rw [Nat.mul_comm]; exact this

theorem valueIn_zeros (b n : Nat) (s : Str) : valueIn b (List.replicate n '0' ++ s) = valueIn b s := by
  induction n with
  | zero => simp
  | succ n ih =>
    rw [List.replicate_succ, List.cons_append, valueIn, ih]
    have : digit '0' = 0 := by decide
    simp [this]

theorem toDigits_ne (b n : Nat) : Nat.toDigits b n ≠ [] := by
  intro e
  have := Nat.length_toDigits_pos (b := b) (n := n)
  rw [e] at this; cases this

theorem toDigits_length_le {p n : Nat} (hp : 0 < p) (h : n < 10 ^ p) : (Nat.toDigits 10 n).length ≤ p := by
  induction p generalizing n with
  | zero => omega
  | succ p ih =>
    rw [Nat.toDigits_eq_if (by decide)]
    split
    · simp
    · rename_i h'
      rcases Nat.eq_zero_or_pos p with rfl | hp'
      · simp at h; omega
      · have := ih hp' (n := n / 10) (by rw [Nat.div_lt_iff_lt_mul (by decide)]; rw [Nat.pow_succ] at h; exact h)
        simp; omega

theorem nearest_half (num : Nat) {den : Nat} (hd : 0 < den) :
    2 * (nearest num den * den) ≤ 2 * num + den ∧ 2 * num ≤ 2 * (nearest num den * den) + den := by
  have h := Nat.div_add_mod num den
  have hm := Nat.mod_lt num hd
  have hc : den * (num / den) = num / den * den := Nat.mul_comm _ _
  unfold nearest
  dsimp only
  split
  · rename_i hr
    have : (num / den + 1) * den = num / den * den + den := by ring
    rw [this]
    rcases hr with hr | ⟨hr, _⟩ <;> omega
  · rename_i hr
    rw [not_or] at hr
    omega

theorem fixed_decimal (p a : Nat) : Decimal p (nearest (a * 10 ^ p) unit) (fixed p a) := by
  have hpos : 0 < 10 ^ p := Nat.pow_pos (by decide)
  set m := nearest (a * 10 ^ p) unit with hm
  have hdig : ∀ n, ∀ c ∈ Nat.toDigits 10 n, c.isDigit = true :=
    fun n c hc => Nat.isDigit_of_mem_toDigits (by decide) (by decide) hc
  rcases Nat.eq_zero_or_pos p with rfl | hp
  · refine ⟨Nat.toDigits 10 m, [], toDigits_ne _ _, hdig _, by simp, rfl, ?_, ?_⟩
    · rw [hm]; simp [fixed]
    · simp [valueIn, valueIn_toDigits]
  · refine ⟨Nat.toDigits 10 (m / 10 ^ p), fill p (Nat.toDigits 10 (m % 10 ^ p)), toDigits_ne _ _, hdig _,
      ?_, ?_, ?_, ?_⟩
    · intro c hc
      simp only [fill, List.mem_append, List.mem_replicate] at hc
      rcases hc with ⟨_, rfl⟩ | hc
      · decide
      · exact hdig _ c hc
    · have := toDigits_length_le hp (Nat.mod_lt m hpos)
      simp [fill]; omega
    · simp [fixed, ← hm, Nat.pos_iff_ne_zero.1 hp]
    · simp only [fill]
      rw [valueIn_zeros, valueIn_toDigits (by decide) (by decide), valueIn_toDigits (by decide) (by decide)]
      rw [Nat.mul_comm]; exact (Nat.div_add_mod m (10 ^ p)).symm

theorem pad_ok (f : Flags) (w : Nat) (sign body : Str) : PaddedNum f w sign body (pad f w sign body) := by
  unfold PaddedNum pad
  refine ⟨?_, ?_⟩
  · dsimp only
    split
    · simp; omega
    · split <;> (simp; omega)
  · cases hl : f.left <;> cases hz : f.zero
    · exact ⟨List.replicate (w - (sign.length + body.length)) ' ',
        fun c hc => (List.mem_replicate.1 hc).2, by simp⟩
    · exact ⟨List.replicate (w - (sign.length + body.length)) '0',
        fun c hc => (List.mem_replicate.1 hc).2, by simp⟩
    · exact ⟨List.replicate (w - (sign.length + body.length)) ' ',
        fun c hc => (List.mem_replicate.1 hc).2, by simp⟩
    · exact ⟨List.replicate (w - (sign.length + body.length)) ' ',
        fun c hc => (List.mem_replicate.1 hc).2, by simp⟩

end Verif.Printf
