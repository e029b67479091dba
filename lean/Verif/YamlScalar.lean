import Mathlib.Tactic.Tauto
import Verif.YamlSpec

/-!
# Proofs only.

What the patterns for plain scalars match.
-/

namespace Verif.Yaml

/-- The expression matches without regard to what is around. -/
def Free (r : Rx) (L : Text → Prop) : Prop := ∀ pre mid post, r.Match pre mid post ↔ L mid

/-- The expression matches at the end of the text only. -/
def Tail (r : Rx) (L : Text → Prop) : Prop := ∀ pre mid post, r.Match pre mid post ↔ post = [] ∧ L mid

theorem free_cls (p) : Free (.cls p) (fun s => ∃ c, s = [c] ∧ p c = true) := fun _ _ _ => Iff.rfl
theorem free_many (p) : Free (.many p) (fun s => ∀ c ∈ s, p c = true) := fun _ _ _ => Iff.rfl
theorem free_word (w) : Free (.word w) (· = w) := fun _ _ _ => Iff.rfl
theorem free_eps : Free .eps (· = []) := fun _ _ _ => Iff.rfl

theorem free_cat {a b A B} (ha : Free a A) (hb : Free b B) :
    Free (a ⬝ b) (fun s => ∃ m n, s = m ++ n ∧ A m ∧ B n) := by
  intro pre mid post
  simp only [Rx.Match, ha _ _ _, hb _ _ _]

theorem free_alt {a b A B} (ha : Free a A) (hb : Free b B) : Free (.alt a b) (fun s => A s ∨ B s) := by
  intro pre mid post
  simp only [Rx.Match, ha _ _ _, hb _ _ _]

theorem free_opt {a A} (ha : Free a A) : Free (.opt a) (fun s => A s ∨ s = []) := free_alt ha free_eps

theorem free_some (p) : Free (.some p) (fun s => s ≠ [] ∧ ∀ c ∈ s, p c = true) := by
  intro pre mid post
  rw [Rx.some, free_cat (free_cls p) (free_many p)]
  constructor
  · rintro ⟨m, n, rfl, ⟨c, rfl, hc⟩, hn⟩
    refine ⟨by simp, ?_⟩
    intro d hd
    rcases List.mem_append.1 hd with h | h
    · rw [List.mem_singleton.1 h]; exact hc
    · exact hn d h
  · rintro ⟨hne, hall⟩
    cases mid with
    | nil => exact absurd rfl hne
    | cons c cs =>
      exact ⟨[c], cs, rfl, ⟨c, rfl, hall c (by simp)⟩, fun d hd => hall d (by simp [hd])⟩

theorem tail_stop : Tail .stop (· = []) := by
  intro pre mid post
  simp only [Rx.Match]; exact And.comm

theorem tail_cat {a b A B} (ha : Free a A) (hb : Tail b B) :
    Tail (a ⬝ b) (fun s => ∃ m n, s = m ++ n ∧ A m ∧ B n) := by
  intro pre mid post
  simp only [Rx.Match, ha _ _ _, hb _ _ _]
  constructor
  · rintro ⟨m, n, h, hm, hp, hn⟩; exact ⟨hp, m, n, h, hm, hn⟩
  · rintro ⟨hp, m, n, h, hm, hn⟩; exact ⟨m, n, h, hm, hp, hn⟩

theorem tail_end {a A} (ha : Free a A) : Tail (a ⬝ .stop) A := by
  intro pre mid post
  rw [tail_cat ha tail_stop]
  constructor
  · rintro ⟨hp, m, n, rfl, hm, rfl⟩; exact ⟨hp, by simpa using hm⟩
  · rintro ⟨hp, h⟩; exact ⟨hp, mid, [], by simp, h, rfl⟩

theorem found_start {b B} (hb : Tail b B) (s : Text) : (Rx.start ⬝ b).Found s ↔ B s := by
  simp only [Rx.Found, Rx.Match, hb _ _ _]
  constructor
  · rintro ⟨pre, mid, post, rfl, m, n, rfl, ⟨rfl, rfl⟩, rfl, h⟩
    simpa using h
  · intro h
    exact ⟨[], s, [], by simp, [], s, rfl, ⟨rfl, rfl⟩, rfl, h⟩

theorem found_alt (a b : Rx) (s : Text) : (Rx.alt a b).Found s ↔ a.Found s ∨ b.Found s := by
  simp only [Rx.Found, Rx.Match]
  constructor
  · rintro ⟨p, m, q, h, hm | hm⟩
    · exact Or.inl ⟨p, m, q, h, hm⟩
    · exact Or.inr ⟨p, m, q, h, hm⟩
  · rintro (⟨p, m, q, h, hm⟩ | ⟨p, m, q, h, hm⟩)
    · exact ⟨p, m, q, h, Or.inl hm⟩
    · exact ⟨p, m, q, h, Or.inr hm⟩

theorem found_prefix (w s : Text) : (Rx.start ⬝ .word w).Found s ↔ w <+: s := by
  simp only [Rx.Found, Rx.Match]
  constructor
  · rintro ⟨pre, mid, post, rfl, m, n, rfl, ⟨rfl, rfl⟩, rfl⟩
    exact ⟨post, by simp⟩
  · rintro ⟨post, rfl⟩
    exact ⟨[], w, post, by simp, [], w, rfl, ⟨rfl, rfl⟩, rfl⟩

theorem found_suffix (w s : Text) : (Rx.word w ⬝ .stop).Found s ↔ w <:+ s := by
  simp only [Rx.Found, Rx.Match]
  constructor
  · rintro ⟨pre, mid, post, rfl, m, n, rfl, rfl, rfl, rfl⟩
    exact ⟨pre, by simp⟩
  · rintro ⟨pre, rfl⟩
    exact ⟨pre, w, [], by simp, w, [], by simp, rfl, rfl, rfl⟩

theorem found_infix (w s : Text) : (Rx.word w).Found s ↔ w <:+: s := by
  simp only [Rx.Found, Rx.Match]
  constructor
  · rintro ⟨pre, mid, post, rfl, rfl⟩; exact ⟨pre, post, rfl⟩
  · rintro ⟨pre, post, h⟩; exact ⟨pre, w, post, h.symm, rfl⟩

theorem digit_iff (c) : digit c = true ↔ Dec c := by simp [digit, Dec]
theorem octal_iff (c) : octal c = true ↔ Oct c := by simp [octal, Oct]
theorem hex_iff (c) : hex c = true ↔ Hex c := by simp [hex, Hex]

theorem some_digit (s : Text) : (s ≠ [] ∧ ∀ c ∈ s, digit c = true) ↔ Digits Dec s := by
  simp only [digit_iff, Digits]

theorem opt_sign (s : Text) : ((∃ c, s = [c] ∧ sign c = true) ∨ s = []) ↔ Sign s := by
  constructor
  · rintro (⟨c, rfl, h⟩ | rfl)
    · simp only [sign, decide_eq_true_eq] at h
      rcases h with rfl | rfl
      · exact Or.inr (Or.inl rfl)
      · exact Or.inr (Or.inr rfl)
    · exact Or.inl rfl
  · rintro (rfl | rfl | rfl)
    · exact Or.inr rfl
    · exact Or.inl ⟨'-', rfl, rfl⟩
    · exact Or.inl ⟨'+', rfl, rfl⟩

theorem opt_exp (s : Text) :
    ((∃ m n, s = m ++ n ∧ (∃ c, m = [c] ∧ isE c = true) ∧
      ∃ m' n', n = m' ++ n' ∧ ((∃ c, m' = [c] ∧ sign c = true) ∨ m' = []) ∧
        (n' ≠ [] ∧ ∀ c ∈ n', digit c = true)) ∨ s = []) ↔ Exponent s := by
  simp only [opt_sign, some_digit]
  constructor
  · rintro (⟨m, n, rfl, ⟨c, rfl, hc⟩, sg, ds, rfl, hs, hd⟩ | rfl)
    · simp only [isE, decide_eq_true_eq] at hc
      exact Or.inr ⟨c, sg, ds, rfl, hc, hs, hd⟩
    · exact Or.inl rfl
  · rintro (rfl | ⟨e, sg, ds, rfl, he, hs, hd⟩)
    · exact Or.inr rfl
    · exact Or.inl ⟨[e], sg ++ ds, rfl, ⟨e, rfl, by simpa [isE] using he⟩, sg, ds, rfl, hs, hd⟩

theorem cls_is (a : Char) (s : Text) : (∃ c, s = [c] ∧ is a c = true) ↔ s = [a] := by
  constructor
  · rintro ⟨c, rfl, h⟩; simp only [is, decide_eq_true_eq] at h; rw [h]
  · rintro rfl; exact ⟨a, rfl, by simp [is]⟩

theorem mantissa_iff (s : Text) :
    ((∃ m n, s = m ++ n ∧ (∃ c, m = [c] ∧ is '.' c = true) ∧ (n ≠ [] ∧ ∀ c ∈ n, digit c = true)) ∨
     (∃ m n, s = m ++ n ∧ (m ≠ [] ∧ ∀ c ∈ m, digit c = true) ∧
        ((∃ m' n', n = m' ++ n' ∧ (∃ c, m' = [c] ∧ is '.' c = true) ∧ ∀ c ∈ n', digit c = true) ∨ n = [])))
    ↔ Mantissa s := by
  simp only [cls_is, digit_iff]
  constructor
  · rintro (⟨m, n, rfl, rfl, h⟩ | ⟨m, n, rfl, hm, ⟨m', n', rfl, rfl, h⟩ | rfl⟩)
    · exact Or.inl ⟨n, rfl, h⟩
    · exact Or.inr (Or.inr ⟨m, n', by simp, hm, h⟩)
    · exact Or.inr (Or.inl (by rw [List.append_nil]; exact hm))
  · rintro (⟨ds, rfl, h⟩ | h | ⟨ds, fs, rfl, hd, hf⟩)
    · exact Or.inl ⟨['.'], ds, rfl, rfl, h⟩
    · exact Or.inr ⟨s, [], by simp, h, Or.inr rfl⟩
    · exact Or.inr ⟨ds, '.' :: fs, rfl, hd, Or.inl ⟨['.'], fs, rfl, rfl, hf⟩⟩

theorem Free.congr {r L L'} (h : Free r L) (e : ∀ s, L s ↔ L' s) : Free r L' :=
  fun p m q => (h p m q).trans (e m)

theorem free_sign : Free (.opt (.cls sign)) Sign := (free_opt (free_cls _)).congr opt_sign
theorem free_digits : Free (.some digit) (Digits Dec) := (free_some _).congr some_digit
theorem free_exp : Free (.opt (.cls isE ⬝ .opt (.cls sign) ⬝ .some digit)) Exponent :=
  (free_opt (free_cat (free_cls _) (free_cat (free_opt (free_cls _)) (free_some _)))).congr opt_exp
theorem free_mant : Free (.alt (.cls (is '.') ⬝ .some digit)
    (.some digit ⬝ .opt (.cls (is '.') ⬝ .many digit))) Mantissa :=
  (free_alt (free_cat (free_cls _) (free_some _))
    (free_cat (free_some _) (free_opt (free_cat (free_cls _) (free_many _))))).congr mantissa_iff
theorem free_is (a) : Free (.cls (is a)) (· = [a]) := (free_cls _).congr (cls_is a)

/-! ## The thirteen patterns -/

theorem pat_null (a b : Char) (w s : Text) (p : Char → Bool) (hp : ∀ c, p c = true ↔ c = a ∨ c = b) :
    (Rx.start ⬝ .cls p ⬝ .word w ⬝ .stop).Found s ↔ s = a :: w ∨ s = b :: w := by
  rw [found_start (tail_cat (free_cls _) (tail_end (free_word _)))]
  simp only [hp]
  constructor
  · rintro ⟨m, n, rfl, ⟨c, rfl, hc⟩, rfl⟩
    rcases hc with rfl | rfl
    · exact Or.inl rfl
    · exact Or.inr rfl
  · rintro (rfl | rfl)
    · exact ⟨[a], w, rfl, ⟨a, rfl, Or.inl rfl⟩, rfl⟩
    · exact ⟨[b], w, rfl, ⟨b, rfl, Or.inr rfl⟩, rfl⟩

theorem pat_word (w s : Text) : (Rx.start ⬝ .word w ⬝ .stop).Found s ↔ s = w :=
  found_start (tail_end (free_word _)) s

theorem pat_empty (s : Text) : (Rx.start ⬝ .stop).Found s ↔ s = [] := found_start tail_stop s

theorem pat_int (s : Text) : (Rx.start ⬝ .opt (.cls sign) ⬝ .some digit ⬝ .stop).Found s ↔
    ∃ sg ds, s = sg ++ ds ∧ Sign sg ∧ Digits Dec ds := by
  rw [found_start (tail_cat (free_opt (free_cls _)) (tail_end (free_some _)))]
  simp only [opt_sign, some_digit]

theorem pat_radix (w s : Text) (p : Char → Bool) (P : Char → Prop) (hp : ∀ c, p c = true ↔ P c) :
    (Rx.start ⬝ .word w ⬝ .some p ⬝ .stop).Found s ↔ ∃ ds, s = w ++ ds ∧ Digits P ds := by
  rw [found_start (tail_cat (free_word _) (tail_end (free_some _)))]
  simp only [hp, Digits]
  constructor
  · rintro ⟨m, n, rfl, rfl, h⟩; exact ⟨n, rfl, h⟩
  · rintro ⟨ds, rfl, h⟩; exact ⟨w, ds, rfl, rfl, h⟩

theorem pat_float (s : Text) :
    (Rx.start ⬝ .opt (.cls sign)
      ⬝ .alt (.cls (is '.') ⬝ .some digit) (.some digit ⬝ .opt (.cls (is '.') ⬝ .many digit))
      ⬝ .opt (.cls isE ⬝ .opt (.cls sign) ⬝ .some digit) ⬝ .stop).Found s ↔
    ∃ sg m e, s = sg ++ (m ++ e) ∧ Sign sg ∧ Mantissa m ∧ Exponent e := by
  rw [found_start (tail_cat free_sign (tail_cat free_mant (tail_end free_exp)))]
  constructor
  · rintro ⟨sg, r, rfl, hs, m, e, rfl, hm, he⟩; exact ⟨sg, m, e, rfl, hs, hm, he⟩
  · rintro ⟨sg, m, e, rfl, hs, hm, he⟩; exact ⟨sg, m ++ e, rfl, hs, m, e, rfl, hm, he⟩

theorem pat_inf (s : Text) :
    (Rx.start ⬝ .opt (.cls sign)
      ⬝ .alt (.word ['.', 'i', 'n', 'f']) (.alt (.word ['.', 'I', 'n', 'f']) (.word ['.', 'I', 'N', 'F']))
      ⬝ .stop).Found s ↔
    ∃ sg, Sign sg ∧ (s = sg ++ ['.', 'i', 'n', 'f'] ∨ s = sg ++ ['.', 'I', 'n', 'f'] ∨
      s = sg ++ ['.', 'I', 'N', 'F']) := by
  rw [found_start (tail_cat (free_opt (free_cls _)) (tail_end
    (free_alt (free_word _) (free_alt (free_word _) (free_word _)))))]
  simp only [opt_sign]
  constructor
  · rintro ⟨sg, r, rfl, hs, h⟩
    refine ⟨sg, hs, ?_⟩
    rcases h with rfl | rfl | rfl <;> simp
  · rintro ⟨sg, hs, h⟩
    rcases h with rfl | rfl | rfl
    · exact ⟨sg, _, rfl, hs, Or.inl rfl⟩
    · exact ⟨sg, _, rfl, hs, Or.inr (Or.inl rfl)⟩
    · exact ⟨sg, _, rfl, hs, Or.inr (Or.inr rfl)⟩

theorem pat_json (s : Text) : jsonNumber.Found s ↔ JsonNumber s := by
  unfold jsonNumber
  rw [found_start (tail_cat (free_opt (free_is '-')) (tail_cat
    (free_alt (free_word _) (free_cat (free_cls _) (free_many _)))
    (tail_cat (free_opt (free_cat (free_is '.') free_digits)) (tail_end free_exp))))]
  simp only [digit_iff]
  constructor
  · rintro ⟨sg, r, rfl, hs, i, r', rfl, hi, f, e, rfl, hf, he⟩
    refine ⟨sg, i, f, e, rfl, Or.comm.1 hs, ?_, ?_, he⟩
    · rcases hi with rfl | ⟨m, n, rfl, ⟨c, rfl, hc⟩, hn⟩
      · exact Or.inl rfl
      · rw [Bool.and_eq_true, digit_iff] at hc
        exact Or.inr ⟨c, n, rfl, hc.1, by simpa [is] using hc.2, hn⟩
    · rcases hf with ⟨m, n, rfl, rfl, h⟩ | rfl
      · exact Or.inr ⟨n, rfl, h⟩
      · exact Or.inl rfl
  · rintro ⟨sg, i, f, e, rfl, hs, hi, hf, he⟩
    refine ⟨sg, _, rfl, Or.comm.1 hs, i, _, rfl, ?_, f, e, rfl, ?_, he⟩
    · rcases hi with rfl | ⟨c, ds, rfl, hc, hz, hd⟩
      · exact Or.inl rfl
      · exact Or.inr ⟨[c], ds, rfl, ⟨c, rfl, by rw [Bool.and_eq_true, digit_iff]; exact ⟨hc, by simpa [is] using hz⟩⟩, hd⟩
    · rcases hf with rfl | ⟨ds, rfl, h⟩
      · exact Or.inr rfl
      · exact Or.inl ⟨['.'], ds, rfl, rfl, h⟩

/-- What the patterns give, in order. -/
def patNull (s : Text) : Prop := CoreNull s
def patBool (s : Text) : Prop :=
  CoreBool s ∨ ['T', 'R', 'U', 'E'] <+: s ∨ ['F', 'A', 'L', 'S', 'E'] <:+ s
def patFloat (s : Text) : Prop :=
  CoreFloat s ∨ ['.', 'n', 'a', 'n'] <+: s ∨ ['.', 'N', 'a', 'N'] <:+: s ∨ ['.', 'N', 'A', 'N'] <:+ s

open Classical in
theorem infer_order (r0 r1 r2 r3 r4 r5 r6 r7 r8 r9 r10 r11 r12 : Rx) (s : Text) (t : Tag) :
    (match [r0, r1, r2, r3, r4, r5, r6, r7, r8, r9, r10, r11, r12].findIdx?
        (fun r => decide (r.Found s)) with
      | some i =>
        if i ≤ 3 then Tag.null else if i ≤ 6 then .bool else if i ≤ 9 then .int
        else if i ≤ 12 then .float else .str
      | none => t) =
    if r0.Found s ∨ r1.Found s ∨ r2.Found s ∨ r3.Found s then .null
    else if r4.Found s ∨ r5.Found s ∨ r6.Found s then .bool
    else if r7.Found s ∨ r8.Found s ∨ r9.Found s then .int
    else if r10.Found s ∨ r11.Found s ∨ r12.Found s then .float else t := by
  simp only [List.findIdx?_cons, List.findIdx?_nil, decide_eq_true_eq]
  by_cases h0 : r0.Found s
  · simp [h0]
  by_cases h1 : r1.Found s
  · simp [h0, h1]
  by_cases h2 : r2.Found s
  · simp [h0, h1, h2]
  by_cases h3 : r3.Found s
  · simp [h0, h1, h2, h3]
  by_cases h4 : r4.Found s
  · simp [h0, h1, h2, h3, h4]
  by_cases h5 : r5.Found s
  · simp [h0, h1, h2, h3, h4, h5]
  by_cases h6 : r6.Found s
  · simp [h0, h1, h2, h3, h4, h5, h6]
  by_cases h7 : r7.Found s
  · simp [h0, h1, h2, h3, h4, h5, h6, h7]
  by_cases h8 : r8.Found s
  · simp [h0, h1, h2, h3, h4, h5, h6, h7, h8]
  by_cases h9 : r9.Found s
  · simp [h0, h1, h2, h3, h4, h5, h6, h7, h8, h9]
  by_cases h10 : r10.Found s
  · simp [h0, h1, h2, h3, h4, h5, h6, h7, h8, h9, h10]
  by_cases h11 : r11.Found s
  · simp [h0, h1, h2, h3, h4, h5, h6, h7, h8, h9, h10, h11]
  by_cases h12 : r12.Found s
  · simp [h0, h1, h2, h3, h4, h5, h6, h7, h8, h9, h10, h11, h12]
  simp [h0, h1, h2, h3, h4, h5, h6, h7, h8, h9, h10, h11, h12]

theorem coreNull_eq (s : Text) : CoreNull s ↔ (s = 'n' :: ['u', 'l', 'l'] ∨ s = 'N' :: ['u', 'l', 'l']) ∨
    s = ['N', 'U', 'L', 'L'] ∨ s = ['~'] ∨ s = [] := by
  unfold CoreNull
  have : ∀ a b c d e : Prop, (e ∨ d ∨ a ∨ b ∨ c) ↔ ((a ∨ b) ∨ c ∨ d ∨ e) := by
    intro a b c d e; tauto
  exact this _ _ _ _ _

theorem prefix_of_eq {w s : Text} (h : s = w) : w <+: s := by rw [h]; exact List.prefix_rfl
theorem infix_of_eq {w s : Text} (h : s = w) : w <:+: s := by rw [h]; exact List.infix_rfl
theorem suffix_of_eq {w s : Text} (h : s = w) : w <:+ s := by rw [h]; exact List.suffix_rfl

theorem patBool_eq (s : Text) : patBool s ↔ (s = 't' :: ['r', 'u', 'e'] ∨ s = 'T' :: ['r', 'u', 'e']) ∨
    (s = 'f' :: ['a', 'l', 's', 'e'] ∨ s = 'F' :: ['a', 'l', 's', 'e']) ∨
    (['T', 'R', 'U', 'E'] <+: s ∨ ['F', 'A', 'L', 'S', 'E'] <:+ s) := by
  unfold patBool CoreBool
  constructor
  · intro h
    cases h with
    | inr h => exact Or.inr (Or.inr h)
    | inl h =>
      cases h with
      | inl h => exact Or.inl (Or.inl h)
      | inr h => cases h with
        | inl h => exact Or.inl (Or.inr h)
        | inr h => cases h with
          | inl h => exact Or.inr (Or.inr (Or.inl (prefix_of_eq h)))
          | inr h => cases h with
            | inl h => exact Or.inr (Or.inl (Or.inl h))
            | inr h => cases h with
              | inl h => exact Or.inr (Or.inl (Or.inr h))
              | inr h => exact Or.inr (Or.inr (Or.inr (suffix_of_eq h)))
  · intro h
    cases h with
    | inl h => cases h with
      | inl h => exact Or.inl (Or.inl h)
      | inr h => exact Or.inl (Or.inr (Or.inl h))
    | inr h => cases h with
      | inr h => exact Or.inr h
      | inl h => cases h with
        | inl h => exact Or.inl (Or.inr (Or.inr (Or.inr (Or.inl h))))
        | inr h => exact Or.inl (Or.inr (Or.inr (Or.inr (Or.inr (Or.inl h)))))

theorem patFloat_eq (s : Text) : patFloat s ↔
    (∃ sg m e, s = sg ++ (m ++ e) ∧ Sign sg ∧ Mantissa m ∧ Exponent e) ∨
    (∃ sg, Sign sg ∧ (s = sg ++ ['.', 'i', 'n', 'f'] ∨ s = sg ++ ['.', 'I', 'n', 'f'] ∨
      s = sg ++ ['.', 'I', 'N', 'F'])) ∨
    (['.', 'n', 'a', 'n'] <+: s ∨ ['.', 'N', 'a', 'N'] <:+: s ∨ ['.', 'N', 'A', 'N'] <:+ s) := by
  unfold patFloat CoreFloat
  constructor
  · intro h
    cases h with
    | inr h => exact Or.inr (Or.inr h)
    | inl h => cases h with
      | inl h => exact Or.inl h
      | inr h => cases h with
        | inl h => exact Or.inr (Or.inl h)
        | inr h => cases h with
          | inl h => exact Or.inr (Or.inr (Or.inl (prefix_of_eq h)))
          | inr h => cases h with
            | inl h => exact Or.inr (Or.inr (Or.inr (Or.inl (infix_of_eq h))))
            | inr h => exact Or.inr (Or.inr (Or.inr (Or.inr (suffix_of_eq h))))
  · intro h
    cases h with
    | inl h => exact Or.inl (Or.inl h)
    | inr h => cases h with
      | inl h => exact Or.inl (Or.inr (Or.inl h))
      | inr h => exact Or.inr h

theorem pat_TRUE (s : Text) :
    (Rx.alt (.start ⬝ .word ['T', 'R', 'U', 'E']) (.word ['F', 'A', 'L', 'S', 'E'] ⬝ .stop)).Found s
      ↔ ['T', 'R', 'U', 'E'] <+: s ∨ ['F', 'A', 'L', 'S', 'E'] <:+ s := by
  rw [found_alt, found_prefix, found_suffix]

theorem pat_nan (s : Text) : (Rx.alt (.start ⬝ .word ['.', 'n', 'a', 'n'])
      (.alt (.word ['.', 'N', 'a', 'N']) (.word ['.', 'N', 'A', 'N'] ⬝ .stop))).Found s
      ↔ ['.', 'n', 'a', 'n'] <+: s ∨ ['.', 'N', 'a', 'N'] <:+: s ∨ ['.', 'N', 'A', 'N'] <:+ s := by
  rw [found_alt, found_alt, found_prefix, found_infix, found_suffix]

theorem or_congr4 {a b c d a' b' c' d' : Prop} (h : a ↔ a') (h' : b ↔ b') (h'' : c ↔ c') (h3 : d ↔ d') :
    (a ∨ b ∨ c ∨ d) ↔ (a' ∨ b' ∨ c' ∨ d') := or_congr h (or_congr h' (or_congr h'' h3))
theorem or_congr3 {a b c a' b' c' : Prop} (h : a ↔ a') (h' : b ↔ b') (h'' : c ↔ c') :
    (a ∨ b ∨ c) ↔ (a' ∨ b' ∨ c') := or_congr h (or_congr h' h'')

open Classical in
theorem infer_eq (o : Outside Ev) (s : Text) :
    infer o s = if CoreNull s then .null else if patBool s then .bool else if CoreInt s then .int
      else if patFloat s then .float else if isTimestamp o s then .timestamp else .str := by
  have e0 := (or_congr4 (pat_null 'n' 'N' ['u', 'l', 'l'] s (fun c => decide (c = 'n' ∨ c = 'N')) (by simp))
    (pat_word ['N', 'U', 'L', 'L'] s) (pat_word ['~'] s) (pat_empty s)).trans (coreNull_eq s).symm
  have e1 := (or_congr3 (pat_null 't' 'T' ['r', 'u', 'e'] s (fun c => decide (c = 't' ∨ c = 'T')) (by simp))
    (pat_null 'f' 'F' ['a', 'l', 's', 'e'] s (fun c => decide (c = 'f' ∨ c = 'F')) (by simp))
    (pat_TRUE s)).trans (patBool_eq s).symm
  have e2 : _ ↔ CoreInt s := or_congr3 (pat_int s) (pat_radix ['0', 'o'] s octal Oct octal_iff)
    (pat_radix ['0', 'x'] s hex Hex hex_iff)
  have e3 := (or_congr3 (pat_float s) (pat_inf s) (pat_nan s)).trans (patFloat_eq s).symm
  unfold infer patterns
  refine Eq.trans (infer_order _ _ _ _ _ _ _ _ _ _ _ _ _ s _) ?_
  simp only [e0, e1, e2, e3]

end Verif.Yaml
