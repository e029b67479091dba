import Verif.PrintfLemmas
import Verif.Base64Lemmas

/-!
# Formatting values, and base64: what holds

`fmt d x s` is `str.fmt(x, s)`, and `{x:s}` in a text with interpolations. `d` is what Rust writes for
the digits of doubles.
-/

namespace Verif.Printf

open Verif.Arith

/-! ## Formats -/

/-- A value that is not a boolean or null, and can be written. -/
def Value.Plain : Value → Prop
  | .text _ | .num _ | .date _ => True
  | _ => False

/-- Formats are refused just when they do not begin with a directive. -/
theorem format_iff (d : Digits) {x : Value} (hx : x.Plain) (s : Str) :
    fmt d x s = .error .badFormat ↔
      ¬ ∃ (g : Directive) (k : Spec) (r : Str), g.Ok ∧ (g.spec, k) ∈ specChars ∧ s = g.text ++ r := by
  have hp : parseFormat s = none ↔
      ¬ ∃ (g : Directive) (k : Spec) (r : Str), g.Ok ∧ (g.spec, k) ∈ specChars ∧ s = g.text ++ r := by
    constructor
    · rintro h ⟨g, k, r, hg, hk, rfl⟩
      rw [parse_text hg hk] at h; cases h
    · intro h
      cases hs : parseFormat s with
      | none => rfl
      | some a =>
        obtain ⟨g, k, r, hg, hk, rfl, _⟩ := parse_sound hs
        exact absurd ⟨g, k, r, hg, hk, rfl⟩ h
  rw [← hp]
  cases x with
  | bool b => exact hx.elim
  | unit => exact hx.elim
  | other => exact hx.elim
  | text t =>
    simp only [fmt]
    cases hs : parseFormat s <;> simp
  | date t =>
    simp only [fmt]
    cases hs : parseFormat s <;> simp
  | num n =>
    simp only [fmt]
    cases hs : parseFormat s with
    | none => simp
    | some a => cases hw : writeNum d a n <;> simp [hw]

/-- What comes after a directive counts for nothing. -/
theorem rest_ignored (d : Digits) (x : Value) {g : Directive} {k : Spec} (hg : g.Ok)
    (hk : (g.spec, k) ∈ specChars) (r : Str) : fmt d x (g.text ++ r) = fmt d x g.text := by
  have e : parseFormat g.text = parseFormat (g.text ++ r) := by
    rw [parse_text hg hk]
    have := parse_text hg hk []
    rw [List.append_nil] at this
    exact this
  unfold fmt
  rw [e]

/-- So it is not so that a format is refused if it is not a directive: `%d apples` is read as `%d`.
(Full statement: for all values and formats that are not a directive from beginning to end, `fmt`
gives an error. It is false of the code.) -/
theorem refused_false : ¬ ∀ (d : Digits) (x : Value) (s : Str), x.Plain →
    (¬ ∃ (g : Directive) (k : Spec), g.Ok ∧ (g.spec, k) ∈ specChars ∧ s = g.text) →
    fmt d x s = .error .badFormat := by
  intro h
  have := h ⟨fun _ => [], fun _ _ _ => []⟩ (.text "x".toList) "%sx".toList trivial (by
    rintro ⟨⟨fs, ws, p, l, c⟩, k, hg, hk, e⟩
    have hlast := congrArg List.getLast? e
    simp only [Directive.text] at hlast
    have e1 : (("%sx".toList).getLast?) = some 'x' := by decide
    rw [e1] at hlast
    have e2 : ('%' :: (fs ++ (ws ++ (dotted p ++ (l ++ [c]))))).getLast? = some c := by
      rw [show '%' :: (fs ++ (ws ++ (dotted p ++ (l ++ [c])))) = ('%' :: (fs ++ (ws ++ (dotted p ++ l)))) ++ [c] by
        simp]
      exact List.getLast?_concat
    rw [e2] at hlast
    cases hlast
    have hx : 's' ∈ "%sx".toList.dropLast := by decide
    have hd := congrArg List.dropLast e
    simp only [Directive.text] at hd
    rw [show '%' :: (fs ++ (ws ++ (dotted p ++ (l ++ ['x'])))) = ('%' :: (fs ++ (ws ++ (dotted p ++ l)))) ++ ['x'] by
        simp, List.dropLast_concat] at hd
    rw [hd] at hx
    simp only [List.mem_cons, List.mem_append] at hx
    rcases hx with hx | hx | hx | hx | hx
    · revert hx; decide
    · exact absurd (hg.flags _ hx) (by decide)
    · exact absurd (hg.width _ hx) (by decide)
    · cases p with
      | none => cases hx
      | some q =>
        simp only [dotted, List.mem_cons] at hx
        rcases hx with hx | hx
        · revert hx; decide
        · exact absurd (hg.precision q rfl _ hx) (by decide)
    · have hl := hg.length
      simp only [lengths, List.mem_cons, List.not_mem_nil, or_false] at hl
      rcases hl with rfl | rfl | rfl | rfl | rfl | rfl | rfl <;> (revert hx; decide))
  have e : parseFormat "%sx".toList = some ⟨{}, 0, none, .str⟩ := by decide
  simp only [fmt, e] at this
  cases this

/-- Formats for booleans and null are not read at all. -/
theorem bool_any (d : Digits) (b : Bool) (s : Str) :
    fmt d (.bool b) s = .ok (if b then "true".toList else "false".toList) ∧
      fmt d .unit s = .ok "null".toList := ⟨rfl, rfl⟩

/-- The parts of a directive that are used. -/
def writeNum_args (g : Arg) : Bool × Bool × Bool × Nat × Option Nat × Spec :=
  (g.flags.left, g.flags.plus, g.flags.zero, g.width, g.precision, g.spec)

theorem writeNum_congr (d : Digits) {g g' : Arg} (h : writeNum_args g = writeNum_args g') (n : Num) :
    writeNum d g n = writeNum d g' n := by
  simp only [writeNum_args, Prod.mk.injEq] at h
  obtain ⟨h1, h2, h3, h4, h5, h6⟩ := h
  simp only [writeNum, pad, signOf, h1, h2, h3, h4, h5, h6]

theorem writeStr_congr {g g' : Arg} (h : writeNum_args g = writeNum_args g') (s : Str) :
    writeStr g.flags g.width g.precision s = writeStr g'.flags g'.width g'.precision s := by
  simp only [writeNum_args, Prod.mk.injEq] at h
  obtain ⟨h1, h2, h3, h4, h5, h6⟩ := h
  simp only [writeStr, h1, h4, h5]

/-- Only three flags have an effect: `-`, `+` and `0`. Blanks, grouping and the other forms are read
and not done. -/
theorem flags_unused (d : Digits) (x : Value) {g : Directive} {k : Spec} (hg : g.Ok)
    (hk : (g.spec, k) ∈ specChars) :
    fmt d x g.text = fmt d x { g with flags := g.flags.filter fun c => c = '-' ∨ c = '+' ∨ c = '0' }.text := by
  have hg' : ({ g with flags := g.flags.filter fun c => c = '-' ∨ c = '+' ∨ c = '0' } : Directive).Ok :=
    ⟨fun c hc => hg.flags c (List.mem_filter.1 hc).1, hg.width, hg.nonzero, hg.precision, hg.length⟩
  have e1 := parse_text hg hk []
  have e2 := parse_text (d := { g with flags := g.flags.filter fun c => c = '-' ∨ c = '+' ∨ c = '0' }) hg' hk []
  rw [List.append_nil] at e1 e2
  have m : ∀ c : Char, (c = '-' ∨ c = '+' ∨ c = '0') →
      decide (c ∈ g.flags.filter fun c => c = '-' ∨ c = '+' ∨ c = '0') = decide (c ∈ g.flags) := by
    intro c hc
    simp only [List.mem_filter, decide_eq_true_eq, hc, and_true]
  have a : writeNum_args (g.asks k) = writeNum_args
      (({ g with flags := g.flags.filter fun c => c = '-' ∨ c = '+' ∨ c = '0' } : Directive).asks k) := by
    simp only [writeNum_args, Directive.asks, m '-' (by simp), m '+' (by simp), m '0' (by simp)]
  cases x <;> simp only [fmt, e1, e2]
  · rw [writeStr_congr a]
  · rw [writeNum_congr d a]

/-! ## Text -/

/-- Text is cut to the precision if there is one, and made up to the width with blanks. -/
theorem text_written (d : Digits) {g : Directive} {k : Spec} (hg : g.Ok)
    (hk : (g.spec, k) ∈ specChars) (r s : Str) :
    ∃ o, fmt d (.text s) (g.text ++ r) = .ok o ∧
      Padded (decide ('-' ∈ g.flags)) (valueIn 10 g.width)
        (match g.precision with | some p => s.take (valueIn 10 p) | none => s) o := by
  refine ⟨writeStr (g.asks k).flags (g.asks k).width (g.asks k).precision s,
    by simp only [fmt, parse_text hg hk], ?_⟩
  have e : (match g.precision with | some p => s.take (valueIn 10 p) | none => s) =
      cut (g.asks k).precision s := by
    cases hp : g.precision <;> simp [Directive.asks, cut, hp]
  rw [e]
  unfold Padded writeStr
  refine ⟨?_, List.replicate (valueIn 10 g.width - (cut (g.asks k).precision s).length) ' ',
    fun c hc => (List.mem_replicate.1 hc).2, ?_⟩
  · show _ = max (g.asks k).width _
    dsimp only
    split <;> (simp only [List.length_append, List.length_replicate]; omega)
  · by_cases hl : '-' ∈ g.flags <;> simp [Directive.asks, hl]

/-! ## Whole numbers -/

/-- The number is the whole number `i`. -/
def Whole (x : Num) (i : Int) : Prop := (∃ n : Nat, x = .pos n ∧ i = n) ∨ x = .neg i

/-- The sign to be written. -/
def signFor (fs : Str) (negative : Bool) : Str :=
  if negative = true then ['-'] else if '+' ∈ fs then ['+'] else []

/-- The specifiers for which doubles are not in the scientific notation and not in base 8 or 16. -/
def Plainly (k : Spec) : Prop := k = .int ∨ k = .uint ∨ k = .double ∨ k = .str ∨ k = .chr

theorem writeNum_plain (d : Digits) {g : Arg} (hk : Plainly g.spec) (x : Num) :
    writeNum d g x = some (pad g.flags g.width (signOf g.flags (asF64 x))
      (plainBody d g.precision (asF64 x).natAbs)) := by
  unfold writeNum
  rcases hk with h | h | h | h | h <;> simp only [h]

theorem signOf_asks (g : Directive) (k : Spec) (v : Int) :
    signOf (g.asks k).flags v = signFor g.flags (decide (v < 0)) := by
  simp [signOf, signFor, Directive.asks]

/-- `%d`, as do all of those specifiers, writes whole numbers to 2 to the power of 53 in decimal, if
Rust writes the doubles that are such numbers so. (Full statement: for all whole numbers that can be
held, which is false of the code: see `int_false`.) -/
theorem int_written_partial (d : Digits) (hd : ∀ m ≤ 2 ^ 53, d.short (m * unit) = Nat.toDigits 10 m)
    {g : Directive} {k : Spec} (hg : g.Ok) (hk : (g.spec, k) ∈ specChars) (hp : Plainly k)
    (hpr : g.precision = none) (r : Str) {x : Num} {i : Int} (hx : Whole x i) (hi : i.natAbs ≤ 2 ^ 53) :
    ∃ o body, fmt d (.num x) (g.text ++ r) = .ok o ∧
      PaddedNum (g.asks k).flags (valueIn 10 g.width) (signFor g.flags (decide (i < 0))) body o ∧
      (∀ c ∈ body, c.isDigit = true) ∧ valueIn 10 body = i.natAbs := by
  have hv : asF64 x = i * unit := by
    rcases hx with ⟨n, rfl, rfl⟩ | rfl
    · exact rndInt_small hi
    · exact rndInt_small hi
  have hw := writeNum_plain d (g := g.asks k) hp x
  have hpos : (0 : Int) < unit := by
    have : 0 < unit := by unfold unit; exact Nat.two_pow_pos _
    exact_mod_cast this
  refine ⟨pad (g.asks k).flags (g.asks k).width (signOf (g.asks k).flags (asF64 x))
      (plainBody d (g.asks k).precision (asF64 x).natAbs), Nat.toDigits 10 i.natAbs,
    by simp only [fmt, parse_text hg hk, hw], ?_, ?_,
    valueIn_toDigits (by decide) (by decide) _⟩
  · have e : (g.asks k).precision = none := by simp [Directive.asks, hpr]
    simp only [plainBody, e, hv, natAbs_mul_unit, hd _ hi, signOf_asks]
    have hs : decide (i * (unit : Int) < 0) = decide (i < 0) := by
      congr 1
      apply propext
      constructor
      · intro h
        by_contra hn
        have := Int.mul_nonneg (by omega : 0 ≤ i) (Int.le_of_lt hpos)
        omega
      · intro h
        exact Int.mul_neg_of_neg_of_pos h hpos
    rw [hs]
    exact pad_ok _ _ _ _
  · intro c hc
    exact Nat.isDigit_of_mem_toDigits (by decide) (by decide) hc

/-- Above it, numbers are not kept apart: they go through a double, and whatever Rust writes is wrong
for one of them. -/
theorem int_false : ¬ ∃ d : Digits, ∀ n < 2 ^ 64,
    fmt d (.num (.pos n)) "%d".toList = .ok (Nat.toDigits 10 n) := by
  rintro ⟨d, h⟩
  have h1 := h (2 ^ 53) (by decide)
  have h2 := h (2 ^ 53 + 1) (by decide)
  have e : parseFormat "%d".toList = some ⟨{}, 0, none, .int⟩ := by decide
  have ea : asF64 (.pos (2 ^ 53)) = asF64 (.pos (2 ^ 53 + 1)) := by decide +kernel
  have : fmt d (.num (.pos (2 ^ 53))) "%d".toList = fmt d (.num (.pos (2 ^ 53 + 1))) "%d".toList := by
    simp only [fmt, e, writeNum, ea]
  rw [h1, h2] at this
  have := Except.ok.inj this
  revert this
  decide +kernel

/-- The base of a specifier. -/
def base : Spec → Option Nat
  | .octal => some 8
  | .hex | .upperHex => some 16
  | _ => none

/-- `%x`, `%X` and `%o` write the whole numbers from `-2^63` up to `2^63`, by their 64 bits: the digits
read as the number, or for negative numbers as 2 to the power of 64 more. -/
theorem based_written (d : Digits) {g : Directive} {k : Spec} {b : Nat} (hg : g.Ok)
    (hk : (g.spec, k) ∈ specChars) (hb : base k = some b) (r : Str) {x : Num} {i : Int} (hx : Whole x i)
    (hlo : -2 ^ 63 ≤ i) (hhi : i < 2 ^ 63) :
    ∃ o body, fmt d (.num x) (g.text ++ r) = .ok o ∧
      PaddedNum (g.asks k).flags (valueIn 10 g.width) (signFor g.flags false) body o ∧
      (valueIn b body : Int) = if i < 0 then i + 2 ^ 64 else i := by
  have hv : asI64 x = some i := by
    rcases hx with ⟨n, rfl, rfl⟩ | rfl
    · simp only [asI64]; rw [if_pos (by simp only [maxI64]; omega)]
    · rfl
  have hwd : (word i : Int) = if i < 0 then i + 2 ^ 64 else i := by
    unfold word; split <;> omega
  have hs : (if (g.asks k).flags.plus = true then ['+'] else []) = signFor g.flags false := by
    simp [signFor, Directive.asks]
  have hsk : (g.asks k).spec = k := rfl
  cases k <;> simp only [base, reduceCtorEq, Option.some.injEq] at hb <;> subst hb
  · refine ⟨pad (g.asks .octal).flags (g.asks .octal).width (if (g.asks .octal).flags.plus = true then ['+'] else [])
      (Nat.toDigits 8 (word i)), Nat.toDigits 8 (word i), by
      simp only [fmt, parse_text hg hk, writeNum, hsk, hv, Option.map_some]; rfl, ?_, ?_⟩
    · rw [hs]; exact pad_ok _ _ _ _
    · rw [valueIn_toDigits (by decide) (by decide)]; exact hwd
  · refine ⟨pad (g.asks .hex).flags (g.asks .hex).width (if (g.asks .hex).flags.plus = true then ['+'] else [])
      (Nat.toDigits 16 (word i)), Nat.toDigits 16 (word i), by
      simp only [fmt, parse_text hg hk, writeNum, hsk, hv, Option.map_some]; rfl, ?_, ?_⟩
    · rw [hs]; exact pad_ok _ _ _ _
    · rw [valueIn_toDigits (by decide) (by decide)]; exact hwd
  · refine ⟨pad (g.asks .upperHex).flags (g.asks .upperHex).width (if (g.asks .upperHex).flags.plus = true then ['+'] else [])
      ((Nat.toDigits 16 (word i)).map Char.toUpper), (Nat.toDigits 16 (word i)).map Char.toUpper, by
      simp only [fmt, parse_text hg hk, writeNum, hsk, hv, Option.map_some]; rfl, ?_, ?_⟩
    · rw [hs]; exact pad_ok _ _ _ _
    · rw [valueIn_upper (by decide) (by decide)]; exact hwd

/-- Others are refused: fractions, doubles that are whole, and numbers from `2^63`. -/
theorem based_refused (d : Digits) {g : Directive} {k : Spec} {b : Nat} (hg : g.Ok)
    (hk : (g.spec, k) ∈ specChars) (hb : base k = some b) (r : Str) {x : Num}
    (hx : (∃ v, x = .float v) ∨ ∃ n, x = .pos n ∧ 2 ^ 63 ≤ n) :
    fmt d (.num x) (g.text ++ r) = .error .badNumber := by
  have hv : asI64 x = none := by
    rcases hx with ⟨v, rfl⟩ | ⟨n, rfl, hn⟩
    · rfl
    · simp only [asI64]; rw [if_neg (by simp only [maxI64]; omega)]
  have hsk : (g.asks k).spec = k := rfl
  cases k <;> simp only [base, reduceCtorEq] at hb <;>
    simp only [fmt, parse_text hg hk, writeNum, hsk, hv, Option.map_none]

/-! ## Doubles -/

/-- `%.2f`, as do all of those specifiers with a precision, writes the sign and a decimal with so many
digits after the point, which is no more than half of the last place from the double. -/
theorem fixed_written (d : Digits) {g : Directive} {k : Spec} {q : Str} (hg : g.Ok)
    (hk : (g.spec, k) ∈ specChars) (hp : Plainly k) (hpr : g.precision = some q) (r : Str) (x : Num) :
    ∃ o body m, fmt d (.num x) (g.text ++ r) = .ok o ∧
      PaddedNum (g.asks k).flags (valueIn 10 g.width) (signFor g.flags (decide (asF64 x < 0))) body o ∧
      Decimal (valueIn 10 q) m body ∧
      2 * (m * unit) ≤ 2 * ((asF64 x).natAbs * 10 ^ valueIn 10 q) + unit ∧
      2 * ((asF64 x).natAbs * 10 ^ valueIn 10 q) ≤ 2 * (m * unit) + unit := by
  have hw := writeNum_plain d (g := g.asks k) hp x
  have hpos : 0 < unit := by unfold unit; exact Nat.two_pow_pos _
  have e : (g.asks k).precision = some (valueIn 10 q) := by simp [Directive.asks, hpr]
  have hh := nearest_half ((asF64 x).natAbs * 10 ^ valueIn 10 q) hpos
  refine ⟨pad (g.asks k).flags (g.asks k).width (signOf (g.asks k).flags (asF64 x))
      (plainBody d (g.asks k).precision (asF64 x).natAbs), fixed (valueIn 10 q) (asF64 x).natAbs, _,
    by simp only [fmt, parse_text hg hk, hw], ?_, fixed_decimal _ _, hh.1, hh.2⟩
  simp only [plainBody, e, signOf_asks]
  exact pad_ok _ _ _ _

/-! ## Base64 -/

/-- What is written is the base64 of the UTF-8 of the text. -/
theorem base64_written (s : Str) : IsBase64 (bytesOf s) (encodeText s) := encode_is (bytesOf_lt s)

/-- What is written is read back. -/
theorem base64_back (s : Str) : decodeText (encodeText s) = .ok s := by
  unfold decodeText encodeText
  rw [decode_encode (bytesOf_lt s)]
  simp only [textOf_bytesOf]

/-- A text that is read is the base64 of what it is read as, and there is no other. -/
theorem base64_iff (t s : Str) : decodeText t = .ok s ↔ IsBase64 (bytesOf s) t := by
  constructor
  · intro h
    unfold decodeText at h
    split at h
    · cases h
    · rename_i l hl
      split at h
      · cases h
      · rename_i s' hs
        cases h
        obtain ⟨e, hlt⟩ := encode_decode hl
        rw [bytesOf_textOf hlt hs, ← e]
        exact encode_is hlt
  · intro h
    rw [base64_unique h (base64_written s)]
    exact base64_back s

/-- Errors for bytes that are no text are for what is base64 of some bytes; other errors are not. -/
theorem base64_error (t : Str) : decodeText t = .error .notBase64 ↔
    ¬ ∃ bs : List Nat, (∀ b ∈ bs, b < 256) ∧ IsBase64 bs t := by
  unfold decodeText
  constructor
  · rintro h ⟨bs, hb, ht⟩
    rw [base64_unique ht (encode_is hb), decode_encode hb] at h
    simp only [] at h
    split at h <;> cases h
  · intro h
    cases hd : decode t with
    | none => rfl
    | some l =>
      obtain ⟨e, hlt⟩ := encode_decode hd
      exact absurd ⟨l, hlt, e ▸ encode_is hlt⟩ h

/-! ## The hypotheses hold of programs -/

/-- `%-08.3lf`. -/
def sampleDirective : Directive := ⟨['-', '0'], ['8'], some ['3'], ['l'], 'f'⟩

theorem sample_ok : sampleDirective.Ok :=
  ⟨by decide, by decide, by decide, by rintro p hp; cases hp; decide, by decide⟩

example : (sampleDirective.spec, Spec.double) ∈ specChars ∧ sampleDirective.text = "%-08.3lf".toList ∧
    Plainly .double := ⟨by decide, by decide, by simp [Plainly]⟩

example : (Value.text ['a']).Plain := trivial

/-- `%04x` of 42 is `002a`. -/
example : fmt ⟨fun _ => [], fun _ _ _ => []⟩ (.num (.pos 42)) "%04x".toList = .ok "002a".toList := by
  have e : parseFormat "%04x".toList = some ⟨{ zero := true }, 4, none, .hex⟩ := by decide
  have e2 : asI64 (.pos 42) = some 42 := by decide
  simp only [fmt, e, writeNum, e2, Option.map_some]
  have : pad { zero := true } 4 [] (Nat.toDigits 16 (word 42)) = "002a".toList := by decide +kernel
  simpa using this

example : Whole (.neg (-5)) (-5) ∧ Whole (.pos 7) 7 := ⟨.inr rfl, .inl ⟨7, rfl, rfl⟩⟩

example : ∃ d : Digits, ∀ m ≤ 2 ^ 53, d.short (m * unit) = Nat.toDigits 10 m := by
  refine ⟨⟨fun a => Nat.toDigits 10 (a / unit), fun _ _ _ => []⟩, fun m _ => ?_⟩
  have : 0 < unit := by unfold unit; exact Nat.two_pow_pos _
  simp only [Nat.mul_div_cancel _ this]

/-- 2.5 to no digits is 2, and to two digits 2.50. -/
example : fixed 0 (5 * 2 ^ 1073) = "2".toList ∧ fixed 2 (5 * 2 ^ 1073) = "2.50".toList := by decide +kernel

example : encode [77, 97, 110] = "TWFu".toList ∧ encode [77, 97] = "TWE=".toList ∧ encode [77] = "TQ==".toList ∧
    decode "TR==".toList = none ∧ decode "TQ".toList = none := by decide +kernel

end Verif.Printf
