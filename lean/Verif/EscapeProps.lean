import Verif.EscapeModel

/-!
# Escape sequences of c-strings are decoded exactly (C31)
-/

namespace Verif.Escape

theorem digits_dec : ∀ e : Fin 10, HexDigit (Char.ofNat (48 + e.val)) e.val := by decide
theorem digits_low : ∀ e : Fin 6, HexDigit (Char.ofNat (97 + e.val)) (e.val + 10) := by decide
theorem digits_up : ∀ e : Fin 6, HexDigit (Char.ofNat (65 + e.val)) (e.val + 10) := by decide
theorem low_digits : ∀ e : Fin 16, hexDigit (lowerDigits[e.val]'(e.isLt)) = some e.val := by decide
theorem up_digits : ∀ e : Fin 16, hexDigit (upperDigits[e.val]'(e.isLt)) = some e.val := by decide

theorem hexDigit_iff {c : Char} {d : Nat} : hexDigit c = some d ↔ HexDigit c d := by
  constructor
  · intro h
    unfold hexDigit at h
    have key : ∀ m : Nat, c.toNat = m → Char.ofNat m = c := by
      intro m hm; rw [← hm, Char.ofNat_toNat]
    split at h
    · next hc =>
      have h1 : 48 ≤ c.toNat := hc.1
      have h2 : c.toNat ≤ 57 := hc.2
      have h : c.toNat - 48 = d := Option.some.inj h
      have := digits_dec ⟨d, by omega⟩
      rwa [key (48 + d) (by omega)] at this
    · split at h
      · next hc =>
        have h1 : 97 ≤ c.toNat := hc.1
        have h2 : c.toNat ≤ 102 := hc.2
        have h : c.toNat - 97 + 10 = d := Option.some.inj h
        have := digits_low ⟨d - 10, by omega⟩
        rw [key (97 + (d - 10)) (by omega)] at this
        rwa [show d - 10 + 10 = d by omega] at this
      · split at h
        · next hc =>
          have h1 : 65 ≤ c.toNat := hc.1
          have h2 : c.toNat ≤ 70 := hc.2
          have h : c.toNat - 65 + 10 = d := Option.some.inj h
          have := digits_up ⟨d - 10, by omega⟩
          rw [key (65 + (d - 10)) (by omega)] at this
          rwa [show d - 10 + 10 = d by omega] at this
        · simp at h
  · intro h
    rcases h with h | h
    · obtain ⟨hd, rfl⟩ := List.getElem?_eq_some_iff.mp h
      exact low_digits ⟨d, hd⟩
    · obtain ⟨hd, rfl⟩ := List.getElem?_eq_some_iff.mp h
      exact up_digits ⟨d, hd⟩

theorem hexDigit_none {c : Char} : hexDigit c = none ↔ ∀ d, ¬ HexDigit c d := by
  simp only [← hexDigit_iff]
  cases hexDigit c <;> simp

theorem hexDigit_lt {c : Char} {d : Nat} (h : HexDigit c d) : d < 16 := by
  rcases h with h | h
  all_goals exact (List.getElem?_eq_some_iff.mp h).1

/-! ## Numbers -/

/-- The value of digits after others. -/
def value (acc : Nat) : List Char → Nat
  | [] => acc
  | c :: cs => value (acc * 16 + (hexDigit c).getD 0) cs

theorem value_append (acc : Nat) (xs ys : List Char) : value acc (xs ++ ys) = value (value acc xs) ys := by
  induction xs generalizing acc with
  | nil => rfl
  | cons x xs ih => simp [value, ih]

def AllHex (ds : List Char) : Prop := ∀ c ∈ ds, ∃ d, HexDigit c d

theorem hexNum_iff {ds : List Char} {n : Nat} : HexNum ds n ↔ AllHex ds ∧ n = value 0 ds := by
  constructor
  · intro h
    induction h with
    | nil => exact ⟨by simp [AllHex], rfl⟩
    | snoc _ hd ih =>
      obtain ⟨h1, h2⟩ := ih
      refine ⟨?_, ?_⟩
      · intro c hc
        rcases List.mem_append.mp hc with hc | hc
        · exact h1 c hc
        · simp at hc; subst hc; exact ⟨_, hd⟩
      · rw [value_append, ← h2]
        simp only [value, hexDigit_iff.mpr hd, Option.getD_some]
        omega
  · rintro ⟨h, rfl⟩
    have gen : ∀ k (ds : List Char), ds.length = k → AllHex ds → HexNum ds (value 0 ds) := by
      intro k
      induction k with
      | zero =>
        intro ds hl _
        cases ds with
        | nil => exact .nil
        | cons _ _ => simp at hl
      | succ k ih =>
        intro ds hl ha
        rcases List.eq_nil_or_concat ds with rfl | ⟨xs, c, rfl⟩
        · simp at hl
        · simp only [List.concat_eq_append, List.length_append, List.length_singleton, Nat.add_right_cancel_iff] at hl
          simp only [List.concat_eq_append] at ha ⊢
          obtain ⟨d, hd⟩ := ha c (by simp)
          have := HexNum.snoc (ih xs hl fun x hx => ha x (by simp [hx])) hd
          rw [value_append]
          simp only [value, hexDigit_iff.mpr hd, Option.getD_some]
          have e : 16 * value 0 xs + d = value 0 xs * 16 + d := by omega
          rw [← e]
          exact this
    exact gen _ ds rfl h

theorem hexDigit_le (c : Char) : (hexDigit c).getD 0 ≤ 15 := by
  cases h : hexDigit c with
  | none => simp
  | some d => have := hexDigit_lt (hexDigit_iff.mp h); simp; omega

theorem value_lt (acc : Nat) (ds : List Char) : value acc ds < (acc + 1) * 16 ^ ds.length := by
  induction ds generalizing acc with
  | nil => simp [value]
  | cons c cs ih =>
    have h1 := ih (acc * 16 + (hexDigit c).getD 0)
    have h2 := hexDigit_le c
    simp only [value, List.length_cons, Nat.pow_succ]
    refine Nat.lt_of_lt_of_le h1 ?_
    calc (acc * 16 + (hexDigit c).getD 0 + 1) * 16 ^ cs.length
        ≤ ((acc + 1) * 16) * 16 ^ cs.length := Nat.mul_le_mul_right _ (by omega)
      _ = (acc + 1) * (16 ^ cs.length * 16) := by rw [Nat.mul_assoc, Nat.mul_comm 16]

theorem value_mono (acc : Nat) (ds : List Char) : acc ≤ value acc ds := by
  induction ds generalizing acc with
  | nil => simp [value]
  | cons c cs ih => exact Nat.le_trans (by omega) (ih _)

theorem fromStrRadix16_eq {bound acc : Nat} {ds : List Char} (ha : AllHex ds) (hb : value acc ds < bound) :
    fromStrRadix16 bound acc ds = some (value acc ds) := by
  induction ds generalizing acc with
  | nil => rfl
  | cons c cs ih =>
    obtain ⟨d, hd⟩ := ha c (by simp)
    have hh := hexDigit_iff.mpr hd
    simp only [value, hh, Option.getD_some] at hb ⊢
    simp only [fromStrRadix16, hh]
    have := value_mono (acc * 16 + d) cs
    rw [if_pos (by omega)]
    exact ih (fun x hx => ha x (by simp [hx])) hb

theorem readHex_ok {n : Nat} {cs ds rest : List Char} :
    readHex n cs = .ok (ds, rest) ↔ ds.length = n ∧ AllHex ds ∧ cs = ds ++ rest := by
  induction n generalizing cs ds with
  | zero =>
    simp only [readHex, Except.ok.injEq, Prod.mk.injEq, List.length_eq_zero_iff]
    constructor
    · rintro ⟨rfl, rfl⟩; exact ⟨rfl, by simp [AllHex], rfl⟩
    · rintro ⟨rfl, _, rfl⟩; exact ⟨rfl, rfl⟩
  | succ n ih =>
    cases cs with
    | nil =>
      simp only [readHex]
      constructor
      · intro h; cases h
      · rintro ⟨h, _, h2⟩
        have := List.append_eq_nil_iff.mp h2.symm
        rw [this.1] at h; simp at h
    | cons c cs =>
      simp only [readHex]
      cases hc : hexDigit c with
      | none =>
        constructor
        · intro h; cases h
        · rintro ⟨h, ha, h2⟩
          cases ds with
          | nil => simp at h
          | cons x xs =>
            simp only [List.cons_append, List.cons.injEq] at h2
            obtain ⟨d, hd⟩ := ha x (by simp)
            rw [← h2.1] at hd
            rw [hexDigit_iff.mpr hd] at hc
            cases hc
      | some d =>
        dsimp only
        cases hr : readHex n cs with
        | error e =>
          constructor
          · intro h; cases h
          · rintro ⟨h, ha, h2⟩
            cases ds with
            | nil => simp at h
            | cons x xs =>
              simp only [List.cons_append, List.cons.injEq, List.length_cons, Nat.add_right_cancel_iff] at h h2
              have := (ih (cs := cs) (ds := xs)).mpr ⟨h, fun y hy => ha y (by simp [hy]), h2.2⟩
              rw [hr] at this
              cases this
        | ok p =>
          obtain ⟨ds', rest'⟩ := p
          have := (ih (cs := cs) (ds := ds') )
          constructor
          · intro h
            cases h
            obtain ⟨h1, h2, h3⟩ := this.mp hr
            refine ⟨by simp [h1], ?_, by simp [h3]⟩
            intro x hx
            rcases List.mem_cons.mp hx with rfl | hx
            · exact ⟨d, hexDigit_iff.mp hc⟩
            · exact h2 x hx
          · rintro ⟨h, ha, h2⟩
            cases ds with
            | nil => simp at h
            | cons x xs =>
              simp only [List.cons_append, List.cons.injEq, List.length_cons, Nat.add_right_cancel_iff] at h h2
              have := (ih (cs := cs) (ds := xs)).mpr ⟨h, fun y hy => ha y (by simp [hy]), h2.2⟩
              rw [hr] at this
              cases this
              rw [h2.1]
              rfl

theorem readHex_error {n : Nat} {cs : List Char} {e : Err} (h : readHex n cs = .error e) :
    (e = .truncatedEscape ∧ cs.length < n ∧ AllHex cs) ∨
    ∃ ds c rest, e = .invalidHexDigit c ∧ cs = ds ++ c :: rest ∧ ds.length < n ∧ AllHex ds ∧ ∀ d, ¬ HexDigit c d := by
  induction n generalizing cs with
  | zero => simp [readHex] at h
  | succ n ih =>
    cases cs with
    | nil =>
      simp only [readHex, Except.error.injEq] at h
      exact Or.inl ⟨h.symm, by simp, by simp [AllHex]⟩
    | cons c cs =>
      simp only [readHex] at h
      cases hc : hexDigit c with
      | none =>
        rw [hc] at h
        simp only [Except.error.injEq] at h
        exact Or.inr ⟨[], c, cs, h.symm, rfl, by simp, by simp [AllHex], hexDigit_none.mp hc⟩
      | some d =>
        rw [hc] at h
        have hd : ∃ d, HexDigit c d := ⟨d, hexDigit_iff.mp hc⟩
        dsimp only at h
        cases hr : readHex n cs with
        | ok p => rw [hr] at h; cases h
        | error e' =>
          rw [hr] at h
          have he : e' = e := by cases h; rfl
          subst he
          rcases ih hr with ⟨h1, h2, h3⟩ | ⟨ds, x, rest, h1, h2, h3, h4, h5⟩
          · refine Or.inl ⟨h1, by simp; omega, ?_⟩
            intro y hy
            rcases List.mem_cons.mp hy with rfl | hy
            · exact hd
            · exact h3 y hy
          · refine Or.inr ⟨c :: ds, x, rest, h1, by simp [h2], by simp; omega, ?_, h5⟩
            intro y hy
            rcases List.mem_cons.mp hy with rfl | hy
            · exact hd
            · exact h4 y hy

theorem charFromU32_some {n : Nat} {c : Char} : charFromU32 n = some c ↔ c.toNat = n := by
  unfold charFromU32
  split
  · next h =>
    have e : Char.ofNatAux n h = Char.ofNat n := by simp [Char.ofNat, h]
    rw [e]
    constructor
    · intro hc
      cases hc
      rw [← e]
      rfl
    · rintro rfl
      rw [Char.ofNat_toNat]
  · next h =>
    constructor
    · intro hc; cases hc
    · rintro rfl
      exact absurd c.valid h

/-- A code point escape. -/
def hexStep (n bound : Nat) (cs : List Char) : Except Err (Char × List Char) := do
  let (ds, cs) ← readHex n cs
  let v ← parseHex bound ds
  let c ← charFromCodePoint v
  .ok (c, cs)

theorem hexStep_ok {n bound : Nat} {cs rest : List Char} {c : Char} (hb : 16 ^ n ≤ bound) :
    hexStep n bound cs = .ok (c, rest) ↔ ∃ ds, ds.length = n ∧ HexNum ds c.toNat ∧ cs = ds ++ rest := by
  unfold hexStep
  cases hr : readHex n cs with
  | error e =>
    constructor
    · intro h; cases h
    · rintro ⟨ds, h1, h2, h3⟩
      rw [readHex_ok.mpr ⟨h1, (hexNum_iff.mp h2).1, h3⟩] at hr
      cases hr
  | ok p =>
    obtain ⟨ds, r⟩ := p
    obtain ⟨h1, h2, h3⟩ := readHex_ok.mp hr
    have hv : value 0 ds < bound := by
      have := value_lt 0 ds
      rw [h1] at this
      omega
    have hp : parseHex bound ds = .ok (value 0 ds) := by
      simp [parseHex, fromStrRadix16_eq h2 hv]
    show (do let v ← parseHex bound ds; let c ← charFromCodePoint v; Except.ok (c, r)) = Except.ok (c, rest) ↔ _
    rw [hp]
    show (do let c ← charFromCodePoint (value 0 ds); Except.ok (c, r)) = Except.ok (c, rest) ↔ _
    unfold charFromCodePoint
    cases hc : charFromU32 (value 0 ds) with
    | none =>
      constructor
      · intro h; cases h
      · rintro ⟨ds', g1, g2, g3⟩
        have : ds' = ds ∧ rest = r := by
          rw [h3] at g3
          have := List.append_inj g3 (by omega)
          exact ⟨this.1.symm, this.2.symm⟩
        obtain ⟨rfl, rfl⟩ := this
        have := charFromU32_some.mpr (hexNum_iff.mp g2).2
        rw [hc] at this
        cases this
    | some c' =>
      have hc' := charFromU32_some.mp hc
      constructor
      · intro h
        cases h
        exact ⟨ds, h1, hexNum_iff.mpr ⟨h2, hc'⟩, h3⟩
      · rintro ⟨ds', g1, g2, g3⟩
        have : ds' = ds ∧ rest = r := by
          rw [h3] at g3
          have := List.append_inj g3 (by omega)
          exact ⟨this.1.symm, this.2.symm⟩
        obtain ⟨rfl, rfl⟩ := this
        have := charFromU32_some.mpr (hexNum_iff.mp g2).2
        rw [hc] at this
        cases this
        rfl

theorem hexStep_error {k : Char} {n bound : Nat} {cs : List Char} {e : Err} (hk : (k, n) ∈ hexEscapes)
    (hb : 16 ^ n ≤ bound) (h : hexStep n bound cs = .error e) : Bad (k :: cs) e := by
  unfold hexStep at h
  cases hr : readHex n cs with
  | error e' =>
    rw [hr] at h
    have : e' = e := by cases h; rfl
    subst this
    rcases readHex_error hr with ⟨rfl, h2, h3⟩ | ⟨ds, x, rest, rfl, rfl, h3, h4, h5⟩
    · exact .short hk h2 h3
    · exact .digit hk h3 h4 h5
  | ok p =>
    rw [hr] at h
    obtain ⟨ds, r⟩ := p
    obtain ⟨h1, h2, rfl⟩ := readHex_ok.mp hr
    have hv : value 0 ds < bound := by
      have := value_lt 0 ds
      rw [h1] at this
      omega
    have hp : parseHex bound ds = .ok (value 0 ds) := by
      simp [parseHex, fromStrRadix16_eq h2 hv]
    have h : (do let v ← parseHex bound ds; let c ← charFromCodePoint v; Except.ok (c, r)) = Except.error e := h
    rw [hp] at h
    have h : (do let c ← charFromCodePoint (value 0 ds); Except.ok (c, r)) = Except.error e := h
    unfold charFromCodePoint at h
    cases hc : charFromU32 (value 0 ds) with
    | some c' => rw [hc] at h; cases h
    | none =>
      rw [hc] at h
      have : e = .invalidCodePoint (value 0 ds) := by cases h; rfl
      subst this
      refine Bad.codePoint hk h1 (hexNum_iff.mpr ⟨h2, rfl⟩) ?_
      intro c hcc
      rw [charFromU32_some.mpr hcc] at hc
      cases hc

/-- The escape after a backslash, by table. -/
theorem escape1_cons (k : Char) (cs : List Char) :
    (∃ c, (k, c) ∈ simpleEscapes ∧ escape1 (k :: cs) = .ok (c, cs)) ∨
    (∃ n bound, (k, n) ∈ hexEscapes ∧ 16 ^ n ≤ bound ∧ escape1 (k :: cs) = hexStep n bound cs) ∨
    ((∀ p ∈ simpleEscapes, p.1 ≠ k) ∧ (∀ p ∈ hexEscapes, p.1 ≠ k) ∧ escape1 (k :: cs) = .error (.invalidEscape k)) := by
  by_cases h1 : k = 'n'
  · subst h1; exact Or.inl ⟨_, by simp [simpleEscapes], rfl⟩
  by_cases h2 : k = 'r'
  · subst h2; exact Or.inl ⟨_, by simp [simpleEscapes], rfl⟩
  by_cases h3 : k = 't'
  · subst h3; exact Or.inl ⟨_, by simp [simpleEscapes], rfl⟩
  by_cases h4 : k = '\\'
  · subst h4; exact Or.inl ⟨_, by simp [simpleEscapes], rfl⟩
  by_cases h5 : k = '"'
  · subst h5; exact Or.inl ⟨_, by simp [simpleEscapes], rfl⟩
  by_cases h6 : k = '0'
  · subst h6; exact Or.inl ⟨Char.ofNat 0, by simp [simpleEscapes], rfl⟩
  by_cases h7 : k = '{'
  · subst h7; exact Or.inl ⟨_, by simp [simpleEscapes], rfl⟩
  by_cases h8 : k = '}'
  · subst h8; exact Or.inl ⟨_, by simp [simpleEscapes], rfl⟩
  by_cases h9 : k = 'x'
  · subst h9; exact Or.inr (Or.inl ⟨2, 256, by simp [hexEscapes], by decide, rfl⟩)
  by_cases h10 : k = 'u'
  · subst h10; exact Or.inr (Or.inl ⟨4, 2 ^ 32, by simp [hexEscapes], by decide, rfl⟩)
  by_cases h11 : k = 'U'
  · subst h11; exact Or.inr (Or.inl ⟨8, 2 ^ 32, by simp [hexEscapes], by decide, rfl⟩)
  refine Or.inr (Or.inr ⟨?_, ?_, ?_⟩)
  · simp only [simpleEscapes, List.mem_cons, List.not_mem_nil, or_false]
    rintro p (rfl | rfl | rfl | rfl | rfl | rfl | rfl | rfl)
    all_goals exact fun e => by first | exact h1 e.symm | exact h2 e.symm | exact h3 e.symm | exact h4 e.symm | exact h5 e.symm | exact h6 e.symm | exact h7 e.symm | exact h8 e.symm | exact h9 e.symm | exact h10 e.symm | exact h11 e.symm
  · simp only [hexEscapes, List.mem_cons, List.not_mem_nil, or_false]
    rintro p (rfl | rfl | rfl)
    all_goals exact fun e => by first | exact h1 e.symm | exact h2 e.symm | exact h3 e.symm | exact h4 e.symm | exact h5 e.symm | exact h6 e.symm | exact h7 e.symm | exact h8 e.symm | exact h9 e.symm | exact h10 e.symm | exact h11 e.symm
  · unfold escape1
    split <;> simp_all

theorem tables_disjoint {k c : Char} {n : Nat} (h1 : (k, c) ∈ simpleEscapes) (h2 : (k, n) ∈ hexEscapes) : False := by
  simp only [simpleEscapes, hexEscapes, List.mem_cons, List.not_mem_nil, or_false, Prod.mk.injEq] at h1 h2
  rcases h2 with ⟨rfl, _⟩ | ⟨rfl, _⟩ | ⟨rfl, _⟩ <;> simp at h1

theorem simple_unique {k c d : Char} (h1 : (k, c) ∈ simpleEscapes) (h2 : (k, d) ∈ simpleEscapes) : c = d := by
  simp only [simpleEscapes, List.mem_cons, List.not_mem_nil, or_false, Prod.mk.injEq] at h1 h2
  rcases h1 with ⟨rfl, rfl⟩ | ⟨rfl, rfl⟩ | ⟨rfl, rfl⟩ | ⟨rfl, rfl⟩ | ⟨rfl, rfl⟩ | ⟨rfl, rfl⟩ | ⟨rfl, rfl⟩ | ⟨rfl, rfl⟩ <;>
    simp_all

theorem hex_unique {k : Char} {n m : Nat} (h1 : (k, n) ∈ hexEscapes) (h2 : (k, m) ∈ hexEscapes) : n = m := by
  simp only [hexEscapes, List.mem_cons, List.not_mem_nil, or_false, Prod.mk.injEq] at h1 h2
  rcases h1 with ⟨rfl, rfl⟩ | ⟨rfl, rfl⟩ | ⟨rfl, rfl⟩ <;> simp_all

theorem escape1_ok {cs rest : List Char} {c : Char} : escape1 cs = .ok (c, rest) ↔
    (∃ k, (k, c) ∈ simpleEscapes ∧ cs = k :: rest) ∨
    (∃ k n ds, (k, n) ∈ hexEscapes ∧ ds.length = n ∧ HexNum ds c.toNat ∧ cs = k :: ds ++ rest) := by
  cases cs with
  | nil =>
    constructor
    · intro h; simp [escape1] at h
    · rintro (⟨k, _, h⟩ | ⟨k, n, ds, _, _, _, h⟩) <;> simp at h
  | cons k cs =>
    rcases escape1_cons k cs with ⟨d, hd, h⟩ | ⟨n, bound, hn, hb, h⟩ | ⟨h1, h2, h⟩
    · rw [h]
      constructor
      · intro e
        cases e
        exact Or.inl ⟨k, hd, rfl⟩
      · rintro (⟨k', hk', e⟩ | ⟨k', n, ds, hk', _, _, e⟩)
        · cases e
          rw [simple_unique hd hk']
        · simp only [List.cons_append, List.cons.injEq] at e
          rw [← e.1] at hk'
          exact (tables_disjoint hd hk').elim
    · rw [h, hexStep_ok hb]
      constructor
      · rintro ⟨ds, g1, g2, rfl⟩
        exact Or.inr ⟨k, n, ds, hn, g1, g2, rfl⟩
      · rintro (⟨k', hk', e⟩ | ⟨k', n', ds, hk', g1, g2, e⟩)
        · cases e
          exact (tables_disjoint hk' hn).elim
        · simp only [List.cons_append, List.cons.injEq] at e
          rw [← e.1] at hk'
          exact ⟨ds, g1.trans (hex_unique hk' hn), g2, e.2⟩
    · rw [h]
      constructor
      · intro e; cases e
      · rintro (⟨k', hk', e⟩ | ⟨k', n', ds, hk', g1, g2, e⟩)
        · cases e
          exact absurd rfl (h1 _ hk')
        · simp only [List.cons_append, List.cons.injEq] at e
          exact absurd e.1.symm (h2 _ hk')

theorem escape1_bad {cs : List Char} {e : Err} (h : escape1 cs = .error e) : Bad cs e := by
  cases cs with
  | nil => simp only [escape1, Except.error.injEq] at h; subst h; exact .atEnd
  | cons k cs =>
    rcases escape1_cons k cs with ⟨d, hd, h'⟩ | ⟨n, bound, hn, hb, h'⟩ | ⟨h1, h2, h'⟩
    · rw [h'] at h; cases h
    · rw [h'] at h; exact hexStep_error hn hb h
    · rw [h'] at h; cases h; exact .unknown h1 h2

theorem escape1_lt {cs rest : List Char} {c : Char} (h : escape1 cs = .ok (c, rest)) : rest.length < cs.length := by
  rcases escape1_ok.mp h with ⟨k, _, rfl⟩ | ⟨k, n, ds, _, _, _, rfl⟩
  · simp
  · simp; omega

theorem loop_ok {fuel : Nat} {cs out : List Char} (hf : cs.length ≤ fuel) :
    loop fuel cs = .ok out ↔ Denotes cs out := by
  induction fuel generalizing cs out with
  | zero =>
    have : cs = [] := List.length_eq_zero_iff.mp (by omega)
    subst this
    simp only [loop, Except.ok.injEq]
    constructor
    · rintro rfl; exact .nil
    · intro h; cases h; rfl
  | succ fuel ih =>
    cases cs with
    | nil =>
      simp only [loop, Except.ok.injEq]
      constructor
      · rintro rfl; exact .nil
      · intro h; cases h; rfl
    | cons c cs =>
      simp only [List.length_cons, Nat.add_le_add_iff_right] at hf
      unfold loop
      by_cases hc : c = '\\'
      · subst hc
        rw [if_pos rfl]
        cases he : escape1 cs with
        | error e =>
          constructor
          · intro h; cases h
          · intro h
            cases h with
            | plain hne _ => exact absurd rfl hne
            | simple hk _ => rw [escape1_ok.mpr (Or.inl ⟨_, hk, rfl⟩)] at he; cases he
            | hex hk hl hn _ => have he := he.symm.trans (escape1_ok.mpr (Or.inr ⟨_, _, _, hk, hl, hn, rfl⟩)); cases he
        | ok p =>
          obtain ⟨d, rest⟩ := p
          have hlt := escape1_lt he
          show (do let out ← loop fuel rest; Except.ok (d :: out)) = Except.ok out ↔ _
          cases hl : loop fuel rest with
          | error e =>
            constructor
            · intro h; cases h
            · intro h
              have hn : ∀ o, ¬ Denotes rest o := fun o ho => by
                rw [(ih (by omega)).mpr ho] at hl; cases hl
              cases h with
              | plain hne _ => exact absurd rfl hne
              | simple hk ho =>
                rw [escape1_ok.mpr (Or.inl ⟨_, hk, rfl⟩)] at he
                cases he
                exact absurd ho (hn _)
              | hex hk hl hn' ho =>
                have he := he.symm.trans (escape1_ok.mpr (Or.inr ⟨_, _, _, hk, hl, hn', rfl⟩))
                cases he
                exact absurd ho (hn _)
          | ok o =>
            have ho := (ih (out := o) (by omega)).mp hl
            constructor
            · intro h
              cases h
              rcases escape1_ok.mp he with ⟨k, hk, rfl⟩ | ⟨k, n, ds, hk, g1, g2, rfl⟩
              · exact .simple hk ho
              · exact .hex hk g1 g2 ho
            · intro h
              cases h with
              | plain hne _ => exact absurd rfl hne
              | simple hk ho' =>
                rw [escape1_ok.mpr (Or.inl ⟨_, hk, rfl⟩)] at he
                cases he
                rw [(ih (by omega)).mpr ho'] at hl
                cases hl
                rfl
              | hex hk hlen hn' ho' =>
                have he := he.symm.trans (escape1_ok.mpr (Or.inr ⟨_, _, _, hk, hlen, hn', rfl⟩))
                cases he
                rw [(ih (by omega)).mpr ho'] at hl
                cases hl
                rfl
      · rw [if_neg hc]
        cases hl : loop fuel cs with
        | error e =>
          constructor
          · intro h; cases h
          · intro h
            cases h with
            | plain _ ho => rw [(ih hf).mpr ho] at hl; cases hl
            | simple _ _ => exact absurd rfl hc
            | hex _ _ _ _ => exact absurd rfl hc
        | ok o =>
          constructor
          · intro h
            cases h
            exact .plain hc ((ih hf).mp hl)
          · intro h
            cases h with
            | plain _ ho => rw [(ih hf).mpr ho] at hl; cases hl; rfl
            | simple _ _ => exact absurd rfl hc
            | hex _ _ _ _ => exact absurd rfl hc

/-- **Decoding is exactly the documented grammar.** -/
theorem decode_ok {cs out : List Char} : decode cs = .ok out ↔ Denotes cs out :=
  loop_ok (Nat.le_refl _)

/-- A c-string denotes at most one string. -/
theorem denotes_unique {cs o o' : List Char} (h : Denotes cs o) (h' : Denotes cs o') : o = o' := by
  have := (decode_ok.mpr h).symm.trans (decode_ok.mpr h')
  cases this
  rfl

theorem loop_error {fuel : Nat} {cs : List Char} {e : Err} (hf : cs.length ≤ fuel) (h : loop fuel cs = .error e) :
    ∃ pre post, cs = pre ++ '\\' :: post ∧ (∃ o, Denotes pre o) ∧ Bad post e := by
  induction fuel generalizing cs with
  | zero =>
    have : cs = [] := List.length_eq_zero_iff.mp (by omega)
    subst this
    simp [loop] at h
  | succ fuel ih =>
    cases cs with
    | nil => simp [loop] at h
    | cons c cs =>
      simp only [List.length_cons, Nat.add_le_add_iff_right] at hf
      unfold loop at h
      by_cases hc : c = '\\'
      · subst hc
        rw [if_pos rfl] at h
        cases he : escape1 cs with
        | error e' =>
          rw [he] at h
          have : e' = e := by cases h; rfl
          subst this
          exact ⟨[], cs, rfl, ⟨[], .nil⟩, escape1_bad he⟩
        | ok p =>
          obtain ⟨d, rest⟩ := p
          have hlt := escape1_lt he
          rw [he] at h
          have h : (do let out ← loop fuel rest; Except.ok (d :: out)) = Except.error e := h
          cases hl : loop fuel rest with
          | ok o => rw [hl] at h; cases h
          | error e' =>
            rw [hl] at h
            have : e' = e := by cases h; rfl
            subst this
            obtain ⟨pre, post, rfl, ⟨o, ho⟩, hb⟩ := ih (by omega) hl
            rcases escape1_ok.mp he with ⟨k, hk, rfl⟩ | ⟨k, n, ds, hk, g1, g2, rfl⟩
            · exact ⟨'\\' :: k :: pre, post, rfl, ⟨_, .simple hk ho⟩, hb⟩
            · exact ⟨'\\' :: k :: ds ++ pre, post, by simp, ⟨_, .hex hk g1 g2 ho⟩, hb⟩
      · rw [if_neg hc] at h
        cases hl : loop fuel cs with
        | ok o => rw [hl] at h; cases h
        | error e' =>
          rw [hl] at h
          have : e' = e := by cases h; rfl
          subst this
          obtain ⟨pre, post, rfl, ⟨o, ho⟩, hb⟩ := ih hf hl
          exact ⟨c :: pre, post, rfl, ⟨_, .plain hc ho⟩, hb⟩

/-- **A rejected c-string has a malformed escape**, after a well-formed part, and the error says what it is. -/
theorem decode_error {cs : List Char} {e : Err} (h : decode cs = .error e) :
    ∃ pre post, cs = pre ++ '\\' :: post ∧ (∃ o, Denotes pre o) ∧ Bad post e :=
  loop_error (Nat.le_refl _) h

/-! ## Writing strings -/

theorem denotes_append {a b x y : List Char} (h : Denotes a x) (h' : Denotes b y) : Denotes (a ++ b) (x ++ y) := by
  induction h with
  | nil => exact h'
  | plain hc _ ih => exact .plain hc ih
  | simple hk _ ih => exact .simple hk ih
  | hex hk hl hn _ ih =>
    have := Denotes.hex hk hl hn ih
    simpa using this

theorem hexChar_digit {d : Nat} (h : d < 16) : HexDigit (hexChar d) d := by
  have : ∀ e : Fin 16, HexDigit (hexChar e.val) e.val := by decide
  exact this ⟨d, h⟩

theorem longEscape_num (n : Nat) (hn : n < 2 ^ 32) :
    HexNum ([28, 24, 20, 16, 12, 8, 4, 0].map fun k => hexChar (n / 2 ^ k % 16)) n := by
  rw [hexNum_iff]
  have hd : ∀ k, HexDigit (hexChar (n / 2 ^ k % 16)) (n / 2 ^ k % 16) := fun k => hexChar_digit (Nat.mod_lt _ (by decide))
  refine ⟨?_, ?_⟩
  · intro c hc
    obtain ⟨k, _, rfl⟩ := List.mem_map.mp hc
    exact ⟨_, hd k⟩
  · have hh := fun k => hexDigit_iff.mpr (hd k)
    simp only [List.map_cons, List.map_nil, value, hh, Option.getD_some]
    omega

theorem char_lt (c : Char) : c.toNat < 2 ^ 32 := by
  have := c.val.toNat_lt
  exact this

/-- **Every string can be written with escapes**, in ASCII if need be, and is read back. -/
theorem decode_longEscape (s : List Char) : decode (s.flatMap longEscape) = .ok s := by
  rw [decode_ok]
  induction s with
  | nil => exact .nil
  | cons c s ih =>
    have := Denotes.hex (k := 'U') (n := 8) (c := c) (by simp [hexEscapes]) (by simp) (longEscape_num c.toNat (char_lt c)) ih
    simpa [longEscape] using this

/-- **A string without backslashes is itself.** -/
theorem decode_plain {s : List Char} (h : '\\' ∉ s) : decode s = .ok s := by
  rw [decode_ok]
  induction s with
  | nil => exact .nil
  | cons c s ih =>
    exact .plain (by rintro rfl; simp at h) (ih (by intro hm; exact h (by simp [hm])))

/-- **Decoding piece by piece** is decoding the whole. -/
theorem decode_append {a b x y : List Char} (ha : decode a = .ok x) (hb : decode b = .ok y) :
    decode (a ++ b) = .ok (x ++ y) := by
  rw [decode_ok] at *
  exact denotes_append ha hb

section
example : decode "a\\n\\x41\\u00e9\\U0001F600\\{\\}".toList = .ok "a\nAé😀{}".toList := by rfl
example : decode "x\\q".toList = .error (.invalidEscape 'q') := by rfl
example : decode "\\ud800".toList = .error (.invalidCodePoint 0xd800) := by rfl
example : decode "\\x4".toList = .error .truncatedEscape := by rfl
example : decode "\\".toList = .error .unexpectedEnd := by rfl
example : decode "\\x4g".toList = .error (.invalidHexDigit 'g') := by rfl
end

end Verif.Escape
