import Verif.YamlData

/-!
# Reading data (C91 – C97)
-/

namespace Verif.Yaml

/-- Nothing outside: no code, no dates. -/
def noOutside : Outside Ev := ⟨fun _ => none, fun _ => none, fun _ => false, fun _ => false, fun _ => false, fun _ => none⟩

/-! ## C91: plain scalars -/

theorem stray_not_true (s : Text) (h : StrayBool s) : parseBool s = false := by
  unfold parseBool
  apply decide_eq_false
  rintro (e | e | e) <;> subst e <;> revert h <;> unfold StrayBool <;> decide

theorem mem_of_infix {w s : Text} (h : w <:+: s) {c : Char} (hc : c ∈ w) : c ∈ s := h.subset hc

theorem null_chars (s : Text) (h : CoreNull s) : 'E' ∉ s ∧ '.' ∉ s := by
  rcases h with e | e | e | e | e <;> subst e <;> decide

theorem stray_E (s : Text) (h : StrayBool s) : 'E' ∈ s := by
  rcases h with h | h
  · exact mem_of_infix h.1.isInfix (by decide)
  · exact mem_of_infix h.1.isInfix (by decide)

theorem convert_plain (o : Outside Ev) (b : Bool) (s : Text) :
    convertScalar o b s true none = convertTag o b s (infer o s) := rfl

/-- Every plain scalar that begins with `TRUE` or ends with `FALSE`, and is more than that, is read as the
boolean false: `TRUE north`, `NOT FALSE`. -/
theorem stray_read_as_false (o : Outside Ev) (b : Bool) (s : Text) (h : StrayBool s) :
    convertScalar o b s true none = .ok (.lit (.bool false)) := by
  have hi : infer o s = .bool := by
    rw [infer_eq, if_neg (fun k => (null_chars s k).1 (stray_E s h)), if_pos]
    rcases h with h | h
    · exact Or.inr (Or.inl h.1)
    · exact Or.inr (Or.inr h.1)
  rw [convert_plain, hi, convertTag, stray_not_true s h]

example : StrayBool ['T', 'R', 'U', 'E', ' ', 'n', 'o', 'r', 't', 'h'] := by unfold StrayBool; decide
example : StrayBool ['N', 'O', 'T', ' ', 'F', 'A', 'L', 'S', 'E'] := by unfold StrayBool; decide

theorem json_chars (s : Text) (h : JsonNumber s) : s ≠ [] ∧ ∀ c ∈ s, Dec c ∨ c = '-' ∨ c = '+' ∨ c = '.' ∨ c = 'e' ∨ c = 'E' := by
  obtain ⟨sg, i, f, e, rfl, hs, hi, hf, he⟩ := h
  constructor
  · intro hn
    simp only [List.append_eq_nil_iff] at hn
    rcases hi with hi | ⟨c, ds, hi, _⟩ <;> rw [hi] at hn <;> simp at hn
  · intro c hc
    simp only [List.mem_append] at hc
    rcases hc with hc | hc | hc | hc
    · rcases hs with hs | hs <;> rw [hs] at hc <;> simp at hc
      right; left; exact hc
    · rcases hi with hi | ⟨d, ds, hi, hd, _, hds⟩ <;> rw [hi] at hc
      · rw [List.mem_singleton] at hc; left; rw [hc]; unfold Dec; decide
      · rcases List.mem_cons.mp hc with hc | hc
        · left; rw [hc]; exact hd
        · left; exact hds c hc
    · rcases hf with hf | ⟨ds, hf, hds⟩ <;> rw [hf] at hc
      · simp at hc
      · rcases List.mem_cons.mp hc with hc | hc
        · right; right; right; left; exact hc
        · left; exact hds.2 c hc
    · rcases he with he | ⟨x, sg', ds, he, hx, hsg, hds⟩ <;> rw [he] at hc
      · simp at hc
      · rcases List.mem_cons.mp hc with hc | hc
        · right; right; right; right; rw [hc]; exact hx
        · rcases List.mem_append.mp hc with hc | hc
          · rcases hsg with h | h | h <;> rw [h] at hc <;> simp at hc
            · right; left; exact hc
            · right; right; left; exact hc
          · left; exact hds.2 c hc

theorem json_not (s : Text) (h : JsonNumber s) (c : Char)
    (hc : ¬ (Dec c ∨ c = '-' ∨ c = '+' ∨ c = '.' ∨ c = 'e' ∨ c = 'E')) : c ∉ s :=
  fun hm => hc ((json_chars s h).2 c hm)

instance (c : Char) : Decidable (Dec c) := by unfold Dec; infer_instance

theorem json_float (s : Text) (h : JsonNumber s) : CoreFloat s := by
  obtain ⟨sg, i, f, e, rfl, hs, hi, hf, he⟩ := h
  refine Or.inl ⟨sg, i ++ f, e, by simp, ?_, ?_, he⟩
  · rcases hs with hs | hs
    · exact Or.inl hs
    · exact Or.inr (Or.inl hs)
  · have hid : Digits Dec i := by
      rcases hi with hi | ⟨c, ds, hi, hc, _, hds⟩
      · rw [hi]; exact ⟨by simp, by intro c hc; rw [List.mem_singleton] at hc; rw [hc]; decide⟩
      · rw [hi]
        refine ⟨by simp, ?_⟩
        intro d hd
        rcases List.mem_cons.mp hd with hd | hd
        · rw [hd]; exact hc
        · exact hds d hd
    rcases hf with hf | ⟨ds, hf, hds⟩
    · rw [hf, List.append_nil]; exact Or.inr (Or.inl hid)
    · rw [hf]; exact Or.inr (Or.inr ⟨i, ds, rfl, hid, hds.2⟩)

theorem json_not_null (s : Text) (h : JsonNumber s) : ¬ CoreNull s := by
  intro hn
  have hc := json_chars s h
  rcases hn with e | e | e | e | e
  · exact hc.1 e
  · exact absurd (e ▸ List.mem_cons_self) (json_not s h '~' (by decide))
  · exact absurd (e ▸ List.mem_cons_self) (json_not s h 'n' (by decide))
  · exact absurd (e ▸ List.mem_cons_self) (json_not s h 'N' (by decide))
  · exact absurd (e ▸ List.mem_cons_self) (json_not s h 'N' (by decide))

theorem json_not_bool (s : Text) (h : JsonNumber s) : ¬ patBool s := by
  rintro ((e | e | e | e | e | e) | e | e)
  · exact json_not s h 't' (by decide) (e ▸ List.mem_cons_self)
  · exact json_not s h 'T' (by decide) (e ▸ List.mem_cons_self)
  · exact json_not s h 'T' (by decide) (e ▸ List.mem_cons_self)
  · exact json_not s h 'f' (by decide) (e ▸ List.mem_cons_self)
  · exact json_not s h 'F' (by decide) (e ▸ List.mem_cons_self)
  · exact json_not s h 'F' (by decide) (e ▸ List.mem_cons_self)
  · exact json_not s h 'T' (by decide) (mem_of_infix e.isInfix (by decide))
  · exact json_not s h 'F' (by decide) (mem_of_infix e.isInfix (by decide))

theorem number_read (o : Outside Ev) (b : Bool) (s : Text) (g : Tag) (hg : g = .int ∨ g = .float) :
    (JsonNumber s → convertTag o b s g = .ok (.lit (.num s))) ∧
    (¬ JsonNumber s → convertTag o b s g = .error (.number s)) := by
  rcases hg with rfl | rfl
  · exact ⟨fun h => by rw [convertTag, if_pos ((pat_json s).mpr h)],
      fun h => by rw [convertTag, if_neg (fun k => h ((pat_json s).mp k))]⟩
  · exact ⟨fun h => by rw [convertTag, if_pos ((pat_json s).mpr h)],
      fun h => by rw [convertTag, if_neg (fun k => h ((pat_json s).mp k))]⟩

/-- **C91**, what holds: a plain scalar that is none of the strays (one that begins with `TRUE` or ends
with `FALSE`, one that begins with `.nan`, ends with `.NAN` or has `.NaN` in it) is read as what the core
schema of YAML says it is.  Missing: the strays. -/
theorem plain_scalar_as_schema_partial (o : Outside Ev) (b : Bool) (s : Text) (hb : ¬ StrayBool s)
    (hf : ¬ StrayFloat s) : Conforms (schema s) s (convertScalar o b s true none) := by
  rw [convert_plain, infer_eq]
  unfold schema
  by_cases h0 : CoreNull s
  · rw [if_pos h0, if_pos h0]; rfl
  rw [if_neg h0, if_neg h0]
  have hpb : patBool s ↔ CoreBool s := by
    constructor
    · rintro (h | h | h)
      · exact h
      · by_cases e : s = ['T', 'R', 'U', 'E']
        · exact Or.inr (Or.inr (Or.inl e))
        · exact absurd (Or.inl ⟨h, e⟩) hb
      · by_cases e : s = ['F', 'A', 'L', 'S', 'E']
        · exact Or.inr (Or.inr (Or.inr (Or.inr (Or.inr e))))
        · exact absurd (Or.inr ⟨h, e⟩) hb
    · exact Or.inl
  have hpf : patFloat s ↔ CoreFloat s := by
    constructor
    · rintro (h | h | h | h)
      · exact h
      · by_cases e : s = ['.', 'n', 'a', 'n']
        · exact Or.inr (Or.inr (Or.inl e))
        · exact absurd (Or.inl ⟨h, e⟩) hf
      · by_cases e : s = ['.', 'N', 'a', 'N']
        · exact Or.inr (Or.inr (Or.inr (Or.inl e)))
        · exact absurd (Or.inr (Or.inl ⟨h, e⟩)) hf
      · by_cases e : s = ['.', 'N', 'A', 'N']
        · exact Or.inr (Or.inr (Or.inr (Or.inr e)))
        · exact absurd (Or.inr (Or.inr ⟨h, e⟩)) hf
    · exact Or.inl
  by_cases h1 : CoreBool s
  · rw [if_pos (hpb.mpr h1), if_pos h1]
    have := agrees_tag o b s .bool
    rw [tagMeans] at this
    exact this
  rw [if_neg (fun k => h1 (hpb.mp k)), if_neg h1]
  by_cases h2 : CoreInt s
  · rw [if_pos h2, if_pos h2]
    have := number_read o b s .int (Or.inl rfl)
    by_cases hj : JsonNumber s
    · exact Or.inl (this.1 hj)
    · exact Or.inr (this.2 hj)
  rw [if_neg h2, if_neg h2]
  by_cases h3 : CoreFloat s
  · rw [if_pos (hpf.mpr h3), if_pos h3]
    have := number_read o b s .float (Or.inr rfl)
    by_cases hj : JsonNumber s
    · exact Or.inl (this.1 hj)
    · exact Or.inr (this.2 hj)
  rw [if_neg (fun k => h3 (hpf.mp k)), if_neg h3]
  by_cases h4 : isTimestamp o s = true
  · rw [if_pos h4]
    cases b with
    | true => exact Or.inl rfl
    | false => exact Or.inr ⟨normalize s, rfl⟩
  · rw [if_neg h4]; exact Or.inl rfl

/-- A text of letters and blanks that is none of the words. -/
theorem schema_str (s : Text) (h0 : ¬ CoreNull s) (h1 : ¬ CoreBool s) (h2 : ¬ CoreInt s) (h3 : ¬ CoreFloat s) :
    schema s = .str := by
  unfold schema
  rw [if_neg h0, if_neg h1, if_neg h2, if_neg h3]

theorem int_head (s : Text) (h : CoreInt s) : ∃ c r, s = c :: r ∧ (Dec c ∨ c = '-' ∨ c = '+') := by
  rcases h with ⟨sg, ds, rfl, hs, hd⟩ | ⟨ds, rfl, _⟩ | ⟨ds, rfl, _⟩
  · rcases hs with rfl | rfl | rfl
    · cases ds with
      | nil => exact absurd rfl hd.1
      | cons c r => exact ⟨c, r, rfl, Or.inl (hd.2 c List.mem_cons_self)⟩
    · exact ⟨_, _, rfl, Or.inr (Or.inl rfl)⟩
    · exact ⟨_, _, rfl, Or.inr (Or.inr rfl)⟩
  · exact ⟨_, _, rfl, Or.inl (by decide)⟩
  · exact ⟨_, _, rfl, Or.inl (by decide)⟩

theorem float_head (s : Text) (h : CoreFloat s) : ∃ c r, s = c :: r ∧ (Dec c ∨ c = '-' ∨ c = '+' ∨ c = '.') := by
  rcases h with ⟨sg, m, e, rfl, hs, hm, _⟩ | ⟨sg, hs, h⟩ | h | h | h
  · rcases hs with rfl | rfl | rfl
    · rcases hm with ⟨ds, rfl, _⟩ | hd | ⟨ds, fs, rfl, hd, _⟩
      · exact ⟨_, _, rfl, Or.inr (Or.inr (Or.inr rfl))⟩
      · cases m with
        | nil => exact absurd rfl hd.1
        | cons c r => exact ⟨c, _, rfl, Or.inl (hd.2 c List.mem_cons_self)⟩
      · cases ds with
        | nil => exact absurd rfl hd.1
        | cons c r => exact ⟨c, _, rfl, Or.inl (hd.2 c List.mem_cons_self)⟩
    · exact ⟨_, _, rfl, Or.inr (Or.inl rfl)⟩
    · exact ⟨_, _, rfl, Or.inr (Or.inr (Or.inl rfl))⟩
  · rcases hs with rfl | rfl | rfl <;> rcases h with rfl | rfl | rfl <;> refine ⟨_, _, rfl, ?_⟩ <;> decide
  · exact ⟨_, _, h, by decide⟩
  · exact ⟨_, _, h, by decide⟩
  · exact ⟨_, _, h, by decide⟩

theorem schema_word (c : Char) (r : Text) (hc : ¬ (Dec c ∨ c = '-' ∨ c = '+' ∨ c = '.'))
    (h0 : ¬ CoreNull (c :: r)) (h1 : ¬ CoreBool (c :: r)) : schema (c :: r) = .str := by
  refine schema_str _ h0 h1 ?_ ?_
  · intro h
    obtain ⟨d, q, e, hd⟩ := int_head _ h
    cases e
    rcases hd with hd | hd | hd
    · exact hc (Or.inl hd)
    · exact hc (Or.inr (Or.inl hd))
    · exact hc (Or.inr (Or.inr (Or.inl hd)))
  · intro h
    obtain ⟨d, q, e, hd⟩ := float_head _ h
    cases e
    exact hc hd

/-- **C91** is false: the plain scalar `TRUE north` is a string of YAML and is read as the boolean
false. -/
theorem plain_scalar_as_schema_false :
    ¬ ∀ (o : Outside Ev) (b : Bool) (s : Text), Conforms (schema s) s (convertScalar o b s true none) := by
  intro h
  have h1 := h noOutside false ['T', 'R', 'U', 'E', ' ', 'n', 'o', 'r', 't', 'h']
  rw [stray_read_as_false _ _ _ (by unfold StrayBool; decide),
    schema_word _ _ (by decide) (by unfold CoreNull; decide) (by unfold CoreBool; decide)] at h1
  rcases h1 with h1 | ⟨t, h1⟩
  · cases h1
  · rw [enc] at h1; cases h1

/-- A plain scalar that has `.NaN` in it, or begins with `.nan`, or ends with `.NAN`, is refused as a
number, whatever else it is, unless it is read as a boolean. -/
theorem stray_number_refused (o : Outside Ev) (b : Bool) (s : Text) (h : StrayFloat s) (hb : ¬ StrayBool s) :
    convertScalar o b s true none = .error (.number s) := by
  have hdot : '.' ∈ s := by
    rcases h with h | h | h
    · exact mem_of_infix h.1.isInfix (by decide)
    · exact mem_of_infix h.1 (by decide)
    · exact mem_of_infix h.1.isInfix (by decide)
  have hn : 'n' ∈ s ∨ 'N' ∈ s := by
    rcases h with h | h | h
    · exact Or.inl (mem_of_infix h.1.isInfix (by decide))
    · exact Or.inr (mem_of_infix h.1 (by decide))
    · exact Or.inr (mem_of_infix h.1.isInfix (by decide))
  have hj : ¬ JsonNumber s := by
    intro k
    rcases hn with hn | hn
    · exact json_not s k 'n' (by decide) hn
    · exact json_not s k 'N' (by decide) hn
  have hpb : ¬ patBool s := by
    rintro (k | k | k)
    · rcases k with e | e | e | e | e | e <;> subst e <;> exact absurd hdot (by decide)
    · by_cases e : s = ['T', 'R', 'U', 'E']
      · subst e; exact absurd hdot (by decide)
      · exact hb (Or.inl ⟨k, e⟩)
    · by_cases e : s = ['F', 'A', 'L', 'S', 'E']
      · subst e; exact absurd hdot (by decide)
      · exact hb (Or.inr ⟨k, e⟩)
  have hpf : patFloat s := by
    rcases h with h | h | h
    · exact Or.inr (Or.inl h.1)
    · exact Or.inr (Or.inr (Or.inl h.1))
    · exact Or.inr (Or.inr (Or.inr h.1))
  rw [convert_plain, infer_eq, if_neg (fun k => (null_chars s k).2 hdot), if_neg hpb]
  by_cases h2 : CoreInt s
  · rw [if_pos h2]; exact (number_read o b s .int (Or.inl rfl)).2 hj
  · rw [if_neg h2, if_pos hpf]; exact (number_read o b s .float (Or.inr rfl)).2 hj

example : StrayFloat ['a', '.', 'N', 'a', 'N'] ∧ ¬ StrayBool ['a', '.', 'N', 'a', 'N'] := by
  unfold StrayFloat StrayBool; decide

/-! ## C92: numbers -/

/-- **C92**, what holds: a plain scalar that is a number of JSON is read as that number. -/
theorem json_number_read (o : Outside Ev) (b : Bool) (s : Text) (h : JsonNumber s) :
    convertScalar o b s true none = .ok (.lit (.num s)) := by
  rw [convert_plain, infer_eq, if_neg (json_not_null s h), if_neg (json_not_bool s h)]
  by_cases h2 : CoreInt s
  · rw [if_pos h2]; exact (number_read o b s .int (Or.inl rfl)).1 h
  · rw [if_neg h2, if_pos (show patFloat s from Or.inl (json_float s h))]; exact (number_read o b s .float (Or.inr rfl)).1 h

/-- **C92**, what holds: a number read is a number of JSON with its own text, whatever the tag. -/
theorem number_as_written (o : Outside Ev) (b : Bool) (s : Text) (p : Bool) (g : Option (Text × Text)) (n : Text)
    (hne : o.eu s ≠ some (.lit (.num n)))
    (h : convertScalar o b s p g = .ok (.lit (.num n))) : n = s ∧ JsonNumber s := by
  unfold convertScalar at h
  generalize (g.bind fromToken).getD (if p then infer o s else .str) = tag at h
  cases tag with
  | int =>
    by_cases hj : JsonNumber s
    · rw [(number_read o b s .int (Or.inl rfl)).1 hj] at h; cases h; exact ⟨rfl, hj⟩
    · rw [(number_read o b s .int (Or.inl rfl)).2 hj] at h; cases h
  | float =>
    by_cases hj : JsonNumber s
    · rw [(number_read o b s .float (Or.inr rfl)).1 hj] at h; cases h; exact ⟨rfl, hj⟩
    · rw [(number_read o b s .float (Or.inr rfl)).2 hj] at h; cases h
  | timestamp => rw [convertTag] at h; split at h <;> cases h
  | general hd c =>
    rw [convertTag] at h
    split at h
    · cases ho : o.eu s with
      | none => rw [ho] at h; cases h
      | some e => rw [ho] at h; cases h; exact absurd ho hne
    · split at h
      · cases ho : o.euFn s with
        | none => rw [ho] at h; cases h
        | some e => rw [ho] at h; cases h
      · split at h
        · cases h
        · split at h <;> cases h
  | _ => cases h

/-- Every number of YAML that is not one of JSON is refused. -/
theorem other_number_refused (o : Outside Ev) (b : Bool) (s : Text) (h : schema s = .int ∨ schema s = .float)
    (hj : ¬ JsonNumber s) (hb : ¬ StrayBool s) : convertScalar o b s true none = .error (.number s) := by
  by_cases hf : StrayFloat s
  · exact stray_number_refused o b s hf hb
  · have := plain_scalar_as_schema_partial o b s hb hf
    have hx : convertScalar o b s true none = .ok (.lit (.num s)) ∨
        convertScalar o b s true none = .error (.number s) := by
      rcases h with h | h <;> rw [h] at this <;> exact this
    rcases hx with hx | hx
    · by_cases hq : o.eu s = some (.lit (.num s))
      · -- the scalar has no tag, so the code outside is not asked
        exfalso
        apply hj
        have hx' := hx
        rw [convert_plain] at hx'
        by_cases hj : JsonNumber s
        · exact hj
        · exfalso
          generalize hi : infer o s = tag at hx'
          cases tag with
          | int => rw [(number_read o b s .int (Or.inl rfl)).2 hj] at hx'; cases hx'
          | float => rw [(number_read o b s .float (Or.inr rfl)).2 hj] at hx'; cases hx'
          | timestamp => rw [convertTag] at hx'; split at hx' <;> cases hx'
          | general hd c =>
            rw [infer_eq] at hi
            split at hi; · cases hi
            split at hi; · cases hi
            split at hi; · cases hi
            split at hi; · cases hi
            split at hi <;> cases hi
          | _ => cases hx'
      · exact absurd (number_as_written o b s true none s hq hx).2 hj
    · exact hx

theorem json_head (s : Text) (h : JsonNumber s) : ∃ c r, s = c :: r ∧ (c = '-' ∨ Dec c) ∧
    (c = '0' → ∀ d q, r = d :: q → ¬ Dec d ∧ d ≠ 'x' ∧ d ≠ 'o') := by
  obtain ⟨sg, i, f, e, rfl, hs, hi, hf, he⟩ := h
  rcases hs with rfl | rfl
  · rcases hi with rfl | ⟨c, ds, rfl, hc, h0, hds⟩
    · refine ⟨'0', f ++ e, rfl, Or.inr (by decide), ?_⟩
      intro _ d q hq
      rcases hf with rfl | ⟨ds, rfl, _⟩
      · rcases he with rfl | ⟨x, sg', ds, rfl, hx, _⟩
        · simp at hq
        · rw [List.nil_append] at hq
          have : x = d := by injection hq
          subst this
          rcases hx with rfl | rfl <;> decide
      · have : '.' = d := by injection hq
        subst this; decide
    · exact ⟨c, ds ++ (f ++ e), rfl, Or.inr hc, fun h => absurd h h0⟩
  · exact ⟨'-', i ++ (f ++ e), rfl, Or.inl rfl, fun h => absurd h (by decide)⟩

/-- **C92** is false of the numbers of YAML: `012`, `+5`, `0x1F` and `.5` are refused. -/
theorem yaml_number_read_false :
    ¬ ∀ (o : Outside Ev) (b : Bool) (s : Text), schema s = .int ∨ schema s = .float →
      ∃ e, convertScalar o b s true none = .ok e := by
  intro h
  have hint : CoreInt ['0', '1', '2'] := Or.inl ⟨[], ['0', '1', '2'], rfl, Or.inl rfl, by simp, by
    intro c hc
    simp only [List.mem_cons, List.not_mem_nil, or_false] at hc
    rcases hc with rfl | rfl | rfl <;> decide⟩
  have hs : schema ['0', '1', '2'] = .int := by
    unfold schema
    rw [if_neg (by unfold CoreNull; decide), if_neg (by unfold CoreBool; decide), if_pos hint]
  obtain ⟨e, he⟩ := h noOutside false ['0', '1', '2'] (Or.inl hs)
  rw [other_number_refused _ _ _ (Or.inl hs) ?_ (by unfold StrayBool; decide)] at he
  · cases he
  · intro hj
    obtain ⟨c, r, e, _, h0⟩ := json_head _ hj
    cases e
    exact (h0 rfl '1' ['2'] rfl).1 (by decide)

example : JsonNumber ['-', '1', '.', '5', 'e', '3'] :=
  ⟨['-'], ['1'], ['.', '5'], ['e', '3'], rfl, Or.inr rfl, Or.inr ⟨'1', [], rfl, by decide, by decide, by simp⟩,
    Or.inr ⟨['5'], rfl, by simp, by intro c hc; rw [List.mem_singleton] at hc; rw [hc]; decide⟩,
    Or.inr ⟨'e', [], ['3'], rfl, Or.inl rfl, Or.inl rfl, by simp,
      by intro c hc; rw [List.mem_singleton] at hc; rw [hc]; decide⟩⟩

/-! ## C93: documents -/

/-- The events of a document with what comes before and after it. -/
def stream (d : Doc) (m n : Nat) : List Ev := List.replicate m .other ++ (d.events ++ List.replicate n .other)

/-- **C93**, what holds of every document: reading comes to an end with a value or an error. -/
theorem no_document_panics (o : Outside Ev) (b : Bool) (d : Doc) (m n : Nat) :
    (∃ e, readEvents o b (stream d m n) = .ok e) ∨ ∃ er, readEvents o b (stream d m n) = .err er := by
  unfold stream
  rw [read_doc]
  cases evalD o b d [] with
  | ok r => exact Or.inl ⟨_, rfl⟩
  | error er => exact Or.inr ⟨er, rfl⟩

/-- **C93**, what holds: a document without anchors on keys, read without code, is read as the value that
it writes, and is refused if it writes none.  Missing: anchors on keys. -/
theorem document_read_as_written_partial (o : Outside Ev) (b : Bool) (d : Doc) (m n : Nat)
    (hb : b = true ∨ ∀ t, o.eu t = none ∧ o.euFn t = none) (hc : Closed o) (hk : d.bareKeys) :
    match mean (scalarMeans (infer o) o.eu (fnOf o) b) false d [] with
    | some (y, _) => readEvents o b (stream d m n) = .ok (enc [] y)
    | none => ∃ er, readEvents o b (stream d m n) = .err er := by
  have h := eval_mean o b (scOf o b) True (agrees o b) (sc_fit o b hc True fun _ => hb) false (Or.inr trivial)
    d [] hk (by intro p hp; simp at hp)
  unfold stream
  rw [read_doc]
  show match mean (scOf o b) false d [] with
    | some (y, _) => _
    | none => _
  cases hm : mean (scOf o b) false d [] with
  | none =>
    rw [hm] at h
    obtain ⟨er, he⟩ := h trivial
    rw [show evalD o b d [] = _ from he]
    exact ⟨er, rfl⟩
  | some r =>
    obtain ⟨y, env⟩ := r
    rw [hm] at h
    rw [show evalD o b d [] = _ from h.1]

/-- `{&1 k: *1}` -/
def keyAnchor : Doc := .map 0 (.cons (.scalar ['k'] false 1 none) (.alias 1) .nil)

theorem noOutside_closed : Closed noOutside := by
  constructor
  · intro t e h; cases h
  · intro t ps e h; cases h

/-- **C93** is false with an anchor on a key: `{&k key: *k}` writes a value and is refused. -/
theorem document_read_as_written_false :
    ¬ ∀ (o : Outside Ev) (b : Bool) (d : Doc) (m n : Nat),
      (b = true ∨ ∀ t, o.eu t = none ∧ o.euFn t = none) → Closed o →
      match mean (scalarMeans (infer o) o.eu (fnOf o) b) false d [] with
      | some (y, _) => readEvents o b (stream d m n) = .ok (enc [] y)
      | none => ∃ er, readEvents o b (stream d m n) = .err er := by
  intro h
  have h1 := h noOutside true keyAnchor 0 0 (Or.inl rfl) noOutside_closed
  have hm : ∃ y env, mean (scalarMeans (infer noOutside) noOutside.eu (fnOf noOutside) true) false keyAnchor [] =
      some (y, env) := by
    unfold keyAnchor
    rw [mean, meanE, meanK]
    dsimp only [Option.bind_some]
    rw [mean]
    have : (Env.get (Env.put [] 1 (.str ['k'])) 1) = some (.str ['k']) := rfl
    rw [this]
    dsimp only [Option.map_some, Option.bind_some]
    rw [if_neg (by decide), Option.bind_some, meanE]
    exact ⟨_, _, rfl⟩
  obtain ⟨y, env, hm⟩ := hm
  rw [hm] at h1
  dsimp only at h1
  unfold stream at h1
  rw [read_doc] at h1
  unfold keyAnchor at h1
  rw [evalD, evalE, evalK] at h1
  dsimp only at h1
  rw [evalD] at h1
  have : getAnchor [] 1 = none := rfl
  rw [this] at h1
  cases h1

/-- `{a: &1 {x: "1"}, b: {<<: *1, y: *1}}` -/
def mergeDoc : Doc :=
  .map 0 (.cons (.scalar ['a'] true 0 none) (.map 1 (.cons (.scalar ['x'] true 0 none) (.scalar ['1'] false 0 none) .nil))
    (.cons (.scalar ['b'] true 0 none)
      (.map 0 (.cons (.scalar ['<', '<'] true 0 none) (.alias 1) (.cons (.scalar ['y'] true 0 none) (.alias 1) .nil))) .nil))

example : mergeDoc.bareKeys := by
  simp [mergeDoc, Doc.bareKeys, Ents.bareKeys, Doc.bareKey]

/-! ## C94: which entry of a key counts -/

/-- **C94**: in a mapping every key is there once, no key is lost and none comes up, and the value of a key is
that of the last entry that writes the key out, or else of the first that is merged in. -/
theorem mapping_entries (o : Outside Ev) (b : Bool) (a : Nat) (es : Ents) (m n : Nat)
    (hb : b = true ∨ ∀ t, o.eu t = none ∧ o.euFn t = none) (hc : Closed o) (hk : es.bareKeys)
    (ws : List Write) (env : Env)
    (hw : meanE (scalarMeans (infer o) o.eu (fnOf o) b) false es [] = some (ws, env)) :
    ∃ ks vs, readEvents o b (stream (.map a es) m n) = .ok (enc [] (.map ks vs)) ∧
      ks.length = vs.length ∧ ks.Nodup ∧ (∀ k, k ∈ ks ↔ ∃ w ∈ ws, w.key = k) ∧
      ∀ before w after, ws = before ++ w :: after →
        (w.own = true → (∀ u ∈ after, u.own = true → u.key ≠ w.key) → valueOf (ks.zip vs) w.key = some w.val) ∧
        (w.own = false → (∀ u ∈ before, u.key ≠ w.key) → (∀ u ∈ after, u.own = true → u.key ≠ w.key) →
          valueOf (ks.zip vs) w.key = some w.val) := by
  have h := document_read_as_written_partial o b (.map a es) m n hb hc (by rw [Doc.bareKeys]; exact hk)
  rw [mean, hw] at h
  refine ⟨_, _, h, by simp, settle_nodup ws, settle_keys ws, ?_⟩
  have hz : ((settle ws).map (·.1)).zip ((settle ws).map (·.2)) = settle ws := by
    rw [List.zip_map']; simp
  intro before w after he
  rw [hz, he]
  constructor
  · intro ho h1
    exact settle_value before w after (by unfold counts; rw [if_pos ho]; exact h1)
  · intro ho h1 h2
    exact settle_value before w after (by unfold counts; rw [if_neg (by simp [ho])]; exact ⟨h1, h2⟩)

/-- The entries that a list of mappings brings: those of the last mapping that has the key. -/
theorem merged_list (ys : List Y) (es : List (Text × Y)) (h : mergedL ys = some es)
    (before : List (Text × Y)) (k : Text) (v : Y) (after : List (Text × Y)) (he : es = before ++ (k, v) :: after)
    (hl : ∀ p ∈ after, p.1 ≠ k) : ∃ ms, merged (.list ys) = some ms ∧ valueOf ms k = some v := by
  refine ⟨_, by rw [merged, h]; rfl, ?_⟩
  show valueOf (settle (es.map fun p => ⟨p.1, p.2, true⟩)) k = _
  rw [he, List.map_append, List.map_cons]
  refine settle_value _ ⟨k, v, true⟩ _ ?_
  unfold counts
  rw [if_pos rfl]
  intro u hu _
  obtain ⟨p, hp, rfl⟩ := List.mem_map.mp hu
  exact hl p hp

/-- In `mergeDoc` the writes of the inner mapping: `x` merged in, `y` written out. -/
example : counts [] ⟨['x'], .str ['1'], false⟩ [⟨['y'], .null, true⟩] := by
  unfold counts
  simp

/-! ## C95: the names in code -/

/-- **C95**, what holds: a document with code in it, without anchors on keys, in which no value with names in its code
is merged in, is read as the value that it writes: every name in the code is that of the innermost mapping
around it that has such a key (`enc`, `resolve`).  Missing: anchors on keys, and code with names in
values that are merged in. -/
theorem code_in_scope_partial (o : Outside Ev) (b : Bool) (d : Doc) (m n : Nat) (hc : Closed o)
    (hk : d.bareKeys) (y : Y) (env : Env)
    (h : mean (scalarMeans (infer o) o.eu (fnOf o) b) true d [] = some (y, env)) :
    readEvents o b (stream d m n) = .ok (enc [] y) := by
  have h' := eval_mean o b (scOf o b) False (agrees o b) (sc_fit o b hc False fun f => f.elim) true (Or.inl rfl)
    d [] hk (by intro p hp; simp at hp)
  unfold stream
  rw [read_doc]
  have hm : mean (scOf o b) true d [] = some (y, env) := h
  rw [hm] at h'
  rw [show evalD o b d [] = _ from h'.1]

/-- Code that is a name. -/
def nameOutside : Outside Ev :=
  ⟨fun t => some (.var (.free t)), fun _ => none, fun _ => false, fun _ => false, fun _ => false, fun _ => none⟩

theorem nameOutside_closed : Closed nameOutside := by
  constructor
  · intro t e h; cases h; rw [lc]; trivial
  · intro t ps e h; cases h

/-- `[&1 {x: "1", y: !eu x}, {z: "5", <<: *1}]` -/
def codeMerge : Doc :=
  .seq 0 (.cons
    (.map 1 (.cons (.scalar ['x'] false 0 none) (.scalar ['1'] false 0 none)
      (.cons (.scalar ['y'] false 0 none) (.scalar ['x'] true 0 (some (['!'], ['e', 'u']))) .nil)))
    (.cons (.map 0 (.cons (.scalar ['z'] false 0 none) (.scalar ['5'] false 0 none)
      (.cons (.scalar ['<', '<'] false 0 none) (.alias 1) .nil))) .nil))

theorem settle_two (k1 k2 : Text) (y1 y2 : Y) (o1 o2 : Bool) (h : k2 ≠ k1) :
    settle [⟨k1, y1, o1⟩, ⟨k2, y2, o2⟩] = [(k1, y1), (k2, y2)] := by
  unfold settle
  rw [settleGo, settleGo, settleGo]
  have c1 : counts [] ⟨k1, y1, o1⟩ [⟨k2, y2, o2⟩] := by
    unfold counts
    cases o1 <;> simp [h]
  have c2 : counts [⟨k1, y1, o1⟩] ⟨k2, y2, o2⟩ [] := by
    unfold counts
    cases o2 <;> simp [Ne.symm h]
  rw [if_pos c1, List.nil_append, if_pos c2]

theorem settle_three (k1 k2 k3 : Text) (y1 y2 y3 : Y) (o1 o2 o3 : Bool) (h : k2 ≠ k1) (h' : k3 ≠ k1)
    (h'' : k3 ≠ k2) :
    settle [⟨k1, y1, o1⟩, ⟨k2, y2, o2⟩, ⟨k3, y3, o3⟩] = [(k1, y1), (k2, y2), (k3, y3)] := by
  unfold settle
  rw [settleGo, settleGo, settleGo, settleGo]
  have c1 : counts [] ⟨k1, y1, o1⟩ [⟨k2, y2, o2⟩, ⟨k3, y3, o3⟩] := by
    unfold counts
    cases o1 <;> simp [h, h']
  have c2 : counts [⟨k1, y1, o1⟩] ⟨k2, y2, o2⟩ [⟨k3, y3, o3⟩] := by
    unfold counts
    cases o2 <;> simp [Ne.symm h, h'']
  have c3 : counts [⟨k1, y1, o1⟩, ⟨k2, y2, o2⟩] ⟨k3, y3, o3⟩ [] := by
    unfold counts
    cases o3 <;> simp [Ne.symm h', Ne.symm h'']
  rw [if_pos c1, List.nil_append, if_pos c2, List.singleton_append, if_pos c3]

/-- The value that `codeMerge` writes. -/
def codeMergeValue : Y :=
  .list [.map [['x'], ['y']] [.str ['1'], .code (.var (.free ['x']))],
    .map [['z'], ['x'], ['y']] [.str ['5'], .str ['1'], .code (.var (.free ['x']))]]

theorem quoted (o : Outside Ev) (b : Bool) (t : Text) :
    scalarMeans (infer o) o.eu (fnOf o) b t false none = some (.str t) := rfl

theorem codeMerge_mean : ∃ env,
    mean (scalarMeans (infer nameOutside) nameOutside.eu (fnOf nameOutside) false) false codeMerge [] =
      some (codeMergeValue, env) := by
  have heu : scalarMeans (infer nameOutside) nameOutside.eu (fnOf nameOutside) false ['x'] true
      (some (['!'], ['e', 'u'])) = some (.code (.var (.free ['x']))) := by
    unfold scalarMeans
    dsimp only
    rw [if_neg (by decide), tagMeans, if_pos rfl]; rfl
  generalize hsc : scalarMeans (infer nameOutside) nameOutside.eu (fnOf nameOutside) false = sc at heu ⊢
  have hq : ∀ t, sc t false none = some (.str t) := fun t => hsc ▸ quoted nameOutside false t
  unfold codeMerge
  have hin : ∀ env, meanE sc false (.cons (.scalar ['x'] false 0 none) (.scalar ['1'] false 0 none)
      (.cons (.scalar ['y'] false 0 none) (.scalar ['x'] true 0 (some (['!'], ['e', 'u']))) .nil)) env =
      some ([⟨['x'], .str ['1'], true⟩, ⟨['y'], .code (.var (.free ['x'])), true⟩], env) := by
    intro env
    simp [meanE, meanK, mean, hq, heu, Env.put]
  have h1 : ∀ env, mean sc false (.map 1 (.cons (.scalar ['x'] false 0 none) (.scalar ['1'] false 0 none)
      (.cons (.scalar ['y'] false 0 none) (.scalar ['x'] true 0 (some (['!'], ['e', 'u']))) .nil))) env =
      some (.map [['x'], ['y']] [.str ['1'], .code (.var (.free ['x']))],
        env.put 1 (.map [['x'], ['y']] [.str ['1'], .code (.var (.free ['x']))])) := by
    intro env
    rw [mean, hin]
    dsimp only [Option.map_some]
    rw [settle_two _ _ _ _ _ _ (by decide)]
    rfl
  have h2 : mean sc false (.map 0 (.cons (.scalar ['z'] false 0 none) (.scalar ['5'] false 0 none)
      (.cons (.scalar ['<', '<'] false 0 none) (.alias 1) .nil)))
      (Env.put [] 1 (.map [['x'], ['y']] [.str ['1'], .code (.var (.free ['x']))])) =
      some (.map [['z'], ['x'], ['y']] [.str ['5'], .str ['1'], .code (.var (.free ['x']))],
        Env.put [] 1 (.map [['x'], ['y']] [.str ['1'], .code (.var (.free ['x']))])) := by
    have he : meanE sc false (.cons (.scalar ['z'] false 0 none) (.scalar ['5'] false 0 none)
        (.cons (.scalar ['<', '<'] false 0 none) (.alias 1) .nil))
        (Env.put [] 1 (.map [['x'], ['y']] [.str ['1'], .code (.var (.free ['x']))])) =
        some ([⟨['z'], .str ['5'], true⟩, ⟨['x'], .str ['1'], false⟩,
          ⟨['y'], .code (.var (.free ['x'])), false⟩],
          Env.put [] 1 (.map [['x'], ['y']] [.str ['1'], .code (.var (.free ['x']))])) := by
      simp [meanE, meanK, mean, hq, Env.put, Env.get, merged]
    rw [mean, he]
    dsimp only [Option.map_some]
    rw [settle_three _ _ _ _ _ _ _ _ _ (by decide) (by decide) (by decide)]
    rfl
  rw [mean, meanL, h1]
  dsimp only [Option.bind_some]
  rw [meanL, h2]
  exact ⟨_, rfl⟩

/-- What is read of `codeMerge`: in the second mapping the name `x` is a reference by number to the first
entry of that mapping, which is `z`. -/
theorem codeMerge_read (m n : Nat) : readEvents nameOutside false (stream codeMerge m n) =
    .ok (.node .list [
      .letE [['x'], ['y']] [.lit (.str ['1']), .var (.bound 0 0 ['x'])]
        (.node (.block [['x'], ['y']]) [.var (.bound 0 0 ['x']), .var (.bound 0 1 ['y'])]) true,
      .letE [['z'], ['x'], ['y']] [.lit (.str ['5']), .lit (.str ['1']), .var (.bound 1 0 ['x'])]
        (.node (.block [['z'], ['x'], ['y']])
          [.var (.bound 0 0 ['z']), .var (.bound 0 1 ['x']), .var (.bound 0 2 ['y'])]) true]) := by
  unfold stream
  rw [read_doc]
  have hs : ∀ t, convertScalar nameOutside false t false none = .ok (.lit (.str t)) := fun _ => rfl
  have he : convertScalar nameOutside false ['x'] true (some (['!'], ['e', 'u'])) = .ok (.var (.free ['x'])) := by
    have := agrees nameOutside false ['x'] true (some (['!'], ['e', 'u']))
    have h2 : scOf nameOutside false ['x'] true (some (['!'], ['e', 'u'])) = some (.code (.var (.free ['x']))) := by
      unfold scOf scalarMeans
      dsimp only
      rw [if_neg (by decide), tagMeans, if_pos rfl]; rfl
    rw [h2] at this
    dsimp only at this
    rw [this, enc, resolve_nil]
  unfold codeMerge
  have h1 : evalE nameOutside false (.cons (.scalar ['x'] false 0 none) (.scalar ['1'] false 0 none)
      (.cons (.scalar ['y'] false 0 none) (.scalar ['x'] true 0 (some (['!'], ['e', 'u']))) .nil)) [] [] =
      .ok ([(['x'], .lit (.str ['1'])), (['y'], .var (.free ['x']))], []) := by
    simp [evalE, evalK, evalD, hs, he, putEntry, mergeKey, override, putAnchor]
  have hd : defaultLet [(['x'], .lit (.str ['1'])), (['y'], .var (.free ['x']))] =
      .letE [['x'], ['y']] [.lit (.str ['1']), .var (.bound 0 0 ['x'])]
        (.node (.block [['x'], ['y']]) [.var (.bound 0 0 ['x']), .var (.bound 0 1 ['y'])]) true := rfl
  have hd2 : defaultLet [(['z'], .lit (.str ['5'])), (['x'], .lit (.str ['1'])), (['y'], .var (.bound 0 0 ['x']))] =
      .letE [['z'], ['x'], ['y']] [.lit (.str ['5']), .lit (.str ['1']), .var (.bound 1 0 ['x'])]
        (.node (.block [['z'], ['x'], ['y']])
          [.var (.bound 0 0 ['z']), .var (.bound 0 1 ['x']), .var (.bound 0 2 ['y'])]) true := rfl
  rw [evalD, evalL, evalD, h1]
  dsimp only
  rw [hd, evalL, evalD, evalE, evalK]
  dsimp only
  rw [evalD, hs]
  dsimp only
  have hp : putEntry [] ['z'] (.lit (.str ['5'])) = .ok [(['z'], .lit (.str ['5']))] := by
    simp [putEntry, mergeKey, override]
  rw [hp]
  dsimp only
  rw [evalE, evalK]
  dsimp only
  rw [evalD]
  have hg : ∀ x, getAnchor (putAnchor (putAnchor [] 1 x) 0 (.lit (.str ['5']))) 1 = some x := fun x => rfl
  rw [hg]
  dsimp only
  have hm : ∀ b, putEntry [(['z'], .lit (.str ['5']))] ['<', '<']
      (.letE [['x'], ['y']] [.lit (.str ['1']), .var (.bound 0 0 ['x'])] b true) =
      .ok [(['z'], .lit (.str ['5'])), (['x'], .lit (.str ['1'])), (['y'], .var (.bound 0 0 ['x']))] := by
    intro b
    simp [putEntry, mergeKey, extract, addNew]
  rw [hm]
  dsimp only
  rw [evalE]
  dsimp only
  rw [hd2, evalL]
  rfl

/-- **C95** is false when code with names is merged in: in the list
`[&a {x: "1", y: !eu x}, {z: "5", <<: *a}]` the second mapping has a key `x`, and what is read as its `y`
is no reference to it. -/
theorem code_in_scope_false :
    ¬ ∀ (o : Outside Ev) (b : Bool) (d : Doc) (m n : Nat) (y : Y) (env : Env), Closed o → d.bareKeys →
      mean (scalarMeans (infer o) o.eu (fnOf o) b) false d [] = some (y, env) →
      readEvents o b (stream d m n) = .ok (enc [] y) := by
  intro h
  obtain ⟨env, hm⟩ := codeMerge_mean
  have h1 := h nameOutside false codeMerge 0 0 _ env nameOutside_closed
    (by simp [codeMerge, Doc.bareKeys, Docs.bareKeys, Ents.bareKeys, Doc.bareKey]) hm
  rw [codeMerge_read] at h1
  injection h1 with h1
  have h2 : enc [] codeMergeValue = .node .list [
      .letE [['x'], ['y']] [.lit (.str ['1']), .var (.bound 0 0 ['x'])]
        (.node (.block [['x'], ['y']]) [.var (.bound 0 0 ['x']), .var (.bound 0 1 ['y'])]) true,
      .letE [['z'], ['x'], ['y']] [.lit (.str ['5']), .lit (.str ['1']), .var (.bound 0 1 ['x'])]
        (.node (.block [['z'], ['x'], ['y']])
          [.var (.bound 0 0 ['z']), .var (.bound 0 1 ['x']), .var (.bound 0 2 ['y'])]) true] := rfl
  rw [h2] at h1
  simp at h1

/-- A document with code to which the theorem speaks: `{x: "1", y: {z: !eu x}}`. -/
example : ∃ y env, mean (scalarMeans (infer nameOutside) nameOutside.eu (fnOf nameOutside) false) true
    (.map 0 (.cons (.scalar ['y'] false 0 none) (.scalar ['x'] true 0 (some (['!'], ['e', 'u']))) .nil)) [] =
      some (y, env) := by
  have heu : scalarMeans (infer nameOutside) nameOutside.eu (fnOf nameOutside) false ['x'] true
      (some (['!'], ['e', 'u'])) = some (.code (.var (.free ['x']))) := by
    unfold scalarMeans
    dsimp only
    rw [if_neg (by decide), tagMeans, if_pos rfl]; rfl
  refine ⟨.map ((settle [⟨['y'], .code (.var (.free ['x'])), true⟩]).map (·.1))
      ((settle [⟨['y'], .code (.var (.free ['x'])), true⟩]).map (·.2)), [], ?_⟩
  · rw [mean, meanE, meanK, Option.bind_some, mean, heu]
    dsimp only [Option.map_some, Option.bind_some]
    rw [if_neg (by decide), Option.bind_some, meanE]
    rfl

/-! ## C96: data only -/

/-- **C96**, what holds: what is read as data only, from anything but lines of JSON, has nothing in it to
evaluate.  Missing: lines of JSON. -/
theorem data_only_inert_partial (o : Outside Ev) (src : Source) (hs : ∀ t, src ≠ .jsonl t) (e : Exp)
    (h : readToCore o true src = .ok e) : Inert e := by
  cases src with
  | yaml t => exact inert_yaml o t e h
  | json t => exact inert_yaml o t e h
  | jsonl t => exact absurd rfl (hs t)
  | toml v =>
    have h : ofExcept (tomlCore true v) = .ok e := h
    cases hv : tomlCore true v with
    | error er => rw [hv] at h; cases h
    | ok x => rw [hv] at h; cases h; exact inert_toml v e hv
  | edn v =>
    have h : ofExcept (ednCore true v) = .ok e := h
    cases hv : ednCore true v with
    | error er => rw [hv] at h; cases h
    | ok x => rw [hv] at h; cases h; exact inert_edn v e hv
  | csv hd rs => cases h; exact inert_csv hd rs
  | text t => cases h; exact inert_text t

/-- A scanner that finds the scalar `x` with the tag `!eu`. -/
def euOutside : Outside Ev :=
  { nameOutside with scan := fun _ => some (stream (.scalar ['x'] true 0 (some (['!'], ['e', 'u']))) 2 2) }

/-- **C96** is false of lines of JSON: the line `!eu x`, read as data only, is the code `x`. -/
theorem data_only_inert_false :
    ¬ ∀ (o : Outside Ev) (src : Source) (e : Exp), readToCore o true src = .ok e → Inert e := by
  intro h
  have he : convertScalar euOutside false ['x'] true (some (['!'], ['e', 'u'])) = .ok (.var (.free ['x'])) := by
    have := agrees euOutside false ['x'] true (some (['!'], ['e', 'u']))
    have h2 : scOf euOutside false ['x'] true (some (['!'], ['e', 'u'])) = some (.code (.var (.free ['x']))) := by
      unfold scOf scalarMeans
      dsimp only
      rw [if_neg (by decide), tagMeans, if_pos rfl]; rfl
    rw [h2] at this
    dsimp only at this
    rw [this, enc, resolve_nil]
  have hy : ∀ t, readYaml euOutside false t = .ok (.var (.free ['x'])) := by
    intro t
    show readEvents euOutside false (stream (.scalar ['x'] true 0 (some (['!'], ['e', 'u']))) 2 2) = _
    unfold stream
    rw [read_doc, evalD, he]
  have hl : readToCore euOutside true (.jsonl ['!', 'e', 'u', ' ', 'x']) = .ok (listE [.var (.free ['x'])]) := by
    show jsonlGo euOutside 1 [['!', 'e', 'u', ' ', 'x']] [] = _
    rw [jsonlGo]
    rw [if_neg (by decide), hy]
    rfl
  have := h _ _ _ hl
  unfold listE at this
  rw [Inert, InertL, Inert] at this
  exact this.1

/-- The same scalar in YAML is read as a string. -/
example : ∃ e, readToCore euOutside true (.yaml ['!', 'e', 'u', ' ', 'x']) = .ok e := by
  refine ⟨.lit (.str ['x']), ?_⟩
  show readEvents euOutside true (stream (.scalar ['x'] true 0 (some (['!'], ['e', 'u']))) 2 2) = _
  unfold stream
  rw [read_doc, evalD]
  have : convertScalar euOutside true ['x'] true (some (['!'], ['e', 'u'])) = .ok (.lit (.str ['x'])) := by
    show convertTag euOutside true ['x'] (.general ['!'] ['e', 'u']) = _
    rw [convertTag, if_neg (by simp), if_neg (by simp), if_pos (Or.inl (show ['e', 'u'] = tagEu from rfl))]
  rw [this]

/-! ## C97: nothing is lost -/

theorem zip_keys {α : Type} (ks : List Text) (xs : List α) : ((ks.zip xs).map (·.1)).Sublist ks := by
  induction ks generalizing xs with
  | nil => simp
  | cons k ks ih =>
    cases xs with
    | nil => simp
    | cons x xs => simpa using ih xs

theorem at_block (kvs : List (Text × Exp)) (h : (kvs.map (·.1)).Nodup) (k : Text) (e : Exp) (hm : (k, e) ∈ kvs) :
    (blockE kvs).at k = some e := by
  rw [blockE_nodup kvs h, Exp.at, List.zip_map', List.map_id'']
  · induction kvs with
    | nil => simp at hm
    | cons p r ih =>
      rw [List.map_cons, List.nodup_cons] at h
      rcases List.mem_cons.mp hm with rfl | hm
      · simp
      · have hne : p.1 ≠ k := fun e' => h.1 (List.mem_map.mpr ⟨(k, e), hm, e'.symm⟩)
        rw [List.find?_cons_of_neg (by simp [hne])]
        exact ih h.2 hm
  · intro p; rfl

/-- A table of TOML, whose keys are distinct, has every entry with its value. -/
theorem toml_entries (b : Bool) (ks : List Text) (vs : List Toml) (hn : ks.Nodup)
    (e : Exp) (h : tomlCore b (.table ks vs) = .ok e) (k : Text) (v : Toml) (hm : (k, v) ∈ ks.zip vs) :
    ∃ x, tomlCore b v = .ok x ∧ e.at k = some x := by
  rw [tomlCore] at h
  cases hx : tomlCoreL b vs with
  | error _ => rw [hx] at h; cases h
  | ok es =>
    rw [hx] at h
    cases h
    have key : ∀ (ks : List Text) (vs : List Toml) (es : List Exp), tomlCoreL b vs = .ok es → (k, v) ∈ ks.zip vs →
        ∃ x, tomlCore b v = .ok x ∧ (k, x) ∈ ks.zip es := by
      intro ks vs
      induction vs generalizing ks with
      | nil => intro es _ hm; simp at hm
      | cons w ws ih =>
        intro es he hm
        cases ks with
        | nil => simp at hm
        | cons c cs =>
          rw [tomlCoreL] at he
          cases hw : tomlCore b w with
          | error _ => rw [hw] at he; cases he
          | ok x =>
            rw [hw] at he
            cases hws : tomlCoreL b ws with
            | error _ => rw [hws] at he; cases he
            | ok xs =>
              rw [hws] at he
              cases he
              rw [List.zip_cons_cons, List.mem_cons] at hm
              rcases hm with hm | hm
              · cases hm; exact ⟨x, hw, by simp⟩
              · obtain ⟨z, hz, hzm⟩ := ih cs xs hws hm
                exact ⟨z, hz, by rw [List.zip_cons_cons]; exact List.mem_cons_of_mem _ hzm⟩
    obtain ⟨x, hx1, hx2⟩ := key ks vs es hx hm
    refine ⟨x, hx1, at_block _ ?_ k x hx2⟩
    exact hn.sublist (zip_keys _ _)

theorem ednKey_name (k : Edn) (t : Text) (h : ednKey k = .ok t) : k.name = some t := by
  cases k <;> cases h <;> rfl

theorem ednKeys_names : ∀ (ks : List Edn) (ts : List Text), ednKeys ks = .ok ts → ks.map Edn.name = ts.map some
  | [], ts, h => by cases h; rfl
  | k :: ks, ts, h => by
    rw [ednKeys] at h
    cases hk : ednKey k with
    | error _ => rw [hk] at h; cases h
    | ok t =>
      rw [hk] at h
      cases hks : ednKeys ks with
      | error _ => rw [hks] at h; cases h
      | ok ts' =>
        rw [hks] at h
        cases h
        rw [List.map_cons, List.map_cons, ednKey_name k t hk, ednKeys_names ks ts' hks]

/-- A map of EDN whose keys have distinct names has every entry with its value, under the name of its key. -/
theorem edn_entries_partial (b : Bool) (ks vs : List Edn) (hn' : (ks.map Edn.name).Nodup)
    (e : Exp) (h : ednCore b (.map ks vs) = .ok e) (k v : Edn) (hm : (k, v) ∈ ks.zip vs) :
    ∃ t x, k.name = some t ∧ ednCore b v = .ok x ∧ e.at t = some x := by
  obtain ⟨ts, ht⟩ : ∃ ts, ednKeys ks = .ok ts := by
    rw [ednCore] at h
    cases hk : ednKeys ks with
    | error _ => rw [hk] at h; cases h
    | ok ts => exact ⟨ts, rfl⟩
  have hn : ts.Nodup := by
    rw [ednKeys_names ks ts ht] at hn'
    exact (List.pairwise_map.mp hn').imp fun h e => h (congrArg some e)
  rw [ednCore, ht] at h
  dsimp only at h
  cases hx : ednCoreL b vs with
  | error _ => rw [hx] at h; cases h
  | ok es =>
    rw [hx] at h
    cases h
    have key : ∀ (ks vs : List Edn) (ts : List Text) (es : List Exp), ednKeys ks = .ok ts → ednCoreL b vs = .ok es →
        (k, v) ∈ ks.zip vs → ∃ t x, ednKey k = .ok t ∧ ednCore b v = .ok x ∧ (t, x) ∈ ts.zip es := by
      intro ks vs
      induction vs generalizing ks with
      | nil => intro ts es _ _ hm; simp at hm
      | cons w ws ih =>
        intro ts es hk he hm
        cases ks with
        | nil => simp at hm
        | cons c cs =>
          rw [ednCoreL] at he
          rw [ednKeys] at hk
          cases hc : ednKey c with
          | error _ => rw [hc] at hk; cases hk
          | ok t =>
            rw [hc] at hk
            cases hcs : ednKeys cs with
            | error _ => rw [hcs] at hk; cases hk
            | ok ts' =>
              rw [hcs] at hk
              cases hk
              cases hw : ednCore b w with
              | error _ => rw [hw] at he; cases he
              | ok x =>
                rw [hw] at he
                cases hws : ednCoreL b ws with
                | error _ => rw [hws] at he; cases he
                | ok xs =>
                  rw [hws] at he
                  cases he
                  rw [List.zip_cons_cons, List.mem_cons] at hm
                  rcases hm with hm | hm
                  · cases hm; exact ⟨t, x, hc, hw, by simp⟩
                  · obtain ⟨t', z, h1, h2, h3⟩ := ih cs ts' xs hcs hws hm
                    exact ⟨t', z, h1, h2, by rw [List.zip_cons_cons]; exact List.mem_cons_of_mem _ h3⟩
    obtain ⟨t, x, h1, h2, h3⟩ := key ks vs ts es ht hx hm
    exact ⟨t, x, ednKey_name k t h1, h2, at_block _ (hn.sublist (zip_keys _ _)) t x h3⟩

/-- A record of CSV under distinct headers has every cell under its header. -/
theorem csv_cells_partial (hs : List Text) (rs : List (List Text)) (hn : hs.Nodup) (i : Nat) (r : List Text)
    (hr : rs[i]? = some r) (h c : Text) (hm : (h, c) ∈ hs.zip r) :
    ∃ e, (readCsv hs rs).item i = some e ∧ e.at h = some (.lit (.str c)) := by
  refine ⟨csvRow hs r, ?_, ?_⟩
  · unfold readCsv listE
    rw [Exp.item, List.getElem?_map, hr]; rfl
  · unfold csvRow
    refine at_block _ ?_ h _ (List.mem_map.mpr ⟨(h, c), hm, rfl⟩)
    rw [List.map_map]
    exact hn.sublist (zip_keys _ _)

/-- **C97** is false of CSV: of two columns of one name the first is lost. -/
theorem csv_cells_false :
    ¬ ∀ (hs : List Text) (rs : List (List Text)) (i : Nat) (r : List Text), rs[i]? = some r → ∀ (j : Nat) (h c : Text),
      hs[j]? = some h → r[j]? = some c →
      ∃ e k, (readCsv hs rs).item i = some e ∧ e.at k = some (.lit (.str c)) := by
  intro h
  obtain ⟨e, k, h1, h2⟩ := h [['a'], ['a']] [[['1'], ['2']]] 0 [['1'], ['2']] rfl 0 ['a'] ['1'] rfl rfl
  have : e = .node (.block [['a']]) [.lit (.str ['2'])] := by
    have : (readCsv [['a'], ['a']] [[['1'], ['2']]]).item 0 = some (.node (.block [['a']]) [.lit (.str ['2'])]) := rfl
    rw [this] at h1
    exact (Option.some.inj h1).symm
  subst this
  rw [Exp.at] at h2
  by_cases hk : ['a'] = k
  · subst hk
    simp at h2
  · simp [hk] at h2

/-- **C97** is false of EDN: of the entries of `{:a 1, "a" 2}` the first is lost. -/
theorem edn_entries_false :
    ¬ ∀ (b : Bool) (ks vs : List Edn) (e : Exp), ednCore b (.map ks vs) = .ok e → ∀ k v, (k, v) ∈ ks.zip vs →
      ∃ t x, ednCore b v = .ok x ∧ e.at t = some x := by
  intro h
  obtain ⟨t, x, h1, h2⟩ := h true [.keyword ['a'], .str ['a']] [.int ['1'], .int ['2']]
    (.node (.block [['a']]) [.lit (.num ['2'])]) rfl (.keyword ['a']) (.int ['1']) (by simp)
  cases h1
  rw [Exp.at] at h2
  by_cases hk : ['a'] = t
  · subst hk
    simp at h2
  · simp [hk] at h2

/-- The lines of a text, one string each. -/
theorem text_lines (t : Text) (i : Nat) : (readText t).item i = ((linesOf t)[i]?).map fun l => .lit (.str l) := by
  unfold readText listE
  rw [Exp.item, List.getElem?_map]

/-- The pieces put together again, each with its line end, are the text, but for a last line end. -/
theorem splitNl_join : ∀ (t acc : Text),
    (splitNl acc t).flatMap (fun l => l ++ ['\n']) = acc ++ t ∨
    (splitNl acc t).flatMap (fun l => l ++ ['\n']) = acc ++ t ++ ['\n']
  | [], acc => by
    rw [splitNl]
    by_cases h : acc = []
    · rw [if_pos h, h]; exact Or.inl rfl
    · rw [if_neg h]; right; simp
  | c :: cs, acc => by
    rw [splitNl]
    by_cases h : c = '\n'
    · rw [if_pos h, List.flatMap_cons]
      rcases splitNl_join cs [] with k | k
      · left; rw [k, h]; simp
      · right; rw [k, h]; simp
    · rw [if_neg h]
      have := splitNl_join cs (acc ++ [c])
      rwa [List.append_assoc] at this

theorem splitNl_noNl : ∀ (t acc : Text), '\n' ∉ acc → ∀ l ∈ splitNl acc t, '\n' ∉ l
  | [], acc, h, l, hl => by
    rw [splitNl] at hl
    split at hl
    · simp at hl
    · rw [List.mem_singleton] at hl; rw [hl]; exact h
  | c :: cs, acc, h, l, hl => by
    rw [splitNl] at hl
    split at hl
    · rcases List.mem_cons.mp hl with hl | hl
      · rw [hl]; exact h
      · exact splitNl_noNl cs [] (by simp) l hl
    · rename_i hc
      refine splitNl_noNl cs (acc ++ [c]) ?_ l hl
      simp [h, Ne.symm hc]

/-- A text without carriage returns is read as the strings that, each with a line end, make it up, or make
it up with one more line end; none of them has a line end in it. -/
theorem text_whole (t : Text) (hr : '\r' ∉ t) :
    (linesOf t).flatMap (fun l => l ++ ['\n']) = t ∨ (linesOf t).flatMap (fun l => l ++ ['\n']) = t ++ ['\n'] := by
  have hd : linesOf t = splitNl [] t := by
    unfold linesOf
    rw [List.map_congr_left (g := id), List.map_id]
    intro l hl
    unfold dropCr
    rw [if_neg]; rfl
    intro hlast
    have hm : '\r' ∈ l := List.mem_of_getLast? hlast
    have hin : '\r' ∈ (splitNl [] t).flatMap (fun l => l ++ ['\n']) :=
      List.mem_flatMap.mpr ⟨l, hl, List.mem_append_left _ hm⟩
    rcases splitNl_join t [] with k | k <;> rw [k] at hin
    · exact hr (by simpa using hin)
    · have : '\r' ∈ t := by simpa using hin
      exact hr this
  rw [hd]
  have := splitNl_join t []
  simpa using this

/-- The lines that are not blank. -/
def fullLines (o : Outside Ev) (ls : List Text) : List Text := (ls.map (trim o.blank)).filter (fun l => decide (l ≠ []))

theorem jsonlGo_ok (o : Outside Ev) : ∀ (ls : List Text) (n : Nat) (acc : List Exp) (e : Exp),
    jsonlGo o n ls acc = .ok e →
    ∃ es, e = listE (acc ++ es) ∧ (fullLines o ls).map (readYaml o false) = es.map .ok
  | [], n, acc, e, h => by
    rw [jsonlGo] at h
    cases h
    exact ⟨[], by simp, rfl⟩
  | l :: ls, n, acc, e, h => by
    rw [jsonlGo] at h
    by_cases ht : trim o.blank l = []
    · rw [if_pos ht] at h
      obtain ⟨es, h1, h2⟩ := jsonlGo_ok o ls _ _ _ h
      refine ⟨es, h1, ?_⟩
      unfold fullLines at h2 ⊢
      rw [List.map_cons, List.filter_cons_of_neg (by simp [ht])]
      exact h2
    · rw [if_neg ht] at h
      cases hr : readYaml o false (trim o.blank l) with
      | ok x =>
        rw [hr] at h
        obtain ⟨es, h1, h2⟩ := jsonlGo_ok o ls _ _ _ h
        refine ⟨x :: es, by rw [h1, List.append_assoc]; rfl, ?_⟩
        unfold fullLines at h2 ⊢
        rw [List.map_cons, List.filter_cons_of_pos (by simp [ht]), List.map_cons, List.map_cons, hr, h2]
      | err er => rw [hr] at h; cases h
      | panic => rw [hr] at h; cases h

/-- Lines of JSON: each line that is not blank is one item, read as the line is read alone. -/
theorem jsonl_lines (o : Outside Ev) (t : Text) (e : Exp) (h : readJsonl o t = .ok e) :
    ∃ es, e = listE es ∧ (fullLines o (linesOf t)).map (readYaml o false) = es.map .ok := by
  obtain ⟨es, h1, h2⟩ := jsonlGo_ok o (linesOf t) 1 [] e h
  exact ⟨es, by simpa using h1, h2⟩

theorem jsonlGo_err (o : Outside Ev) : ∀ (before : List Text) (l : Text) (after : List Text) (n : Nat) (acc : List Exp)
    (er : Err), (∀ b ∈ before, trim o.blank b = [] ∨ ∃ e, readYaml o false (trim o.blank b) = .ok e) →
    trim o.blank l ≠ [] → readYaml o false (trim o.blank l) = .err er →
    jsonlGo o n (before ++ l :: after) acc = .err (.jsonl (n + before.length))
  | [], l, after, n, acc, er, _, ht, hr => by
    rw [List.nil_append, jsonlGo]
    rw [if_neg ht, hr]; rfl
  | b :: before, l, after, n, acc, er, hb, ht, hr => by
    rw [List.cons_append, jsonlGo]
    have hrest : ∀ c ∈ before, trim o.blank c = [] ∨ ∃ e, readYaml o false (trim o.blank c) = .ok e :=
      fun c hc => hb c (List.mem_cons_of_mem _ hc)
    have hlen : n + 1 + before.length = n + (b :: before).length := by rw [List.length_cons]; omega
    by_cases hbt : trim o.blank b = []
    · rw [if_pos hbt, jsonlGo_err o before l after (n + 1) acc er hrest ht hr, hlen]
    · rw [if_neg hbt]
      rcases hb b List.mem_cons_self with k | ⟨e, k⟩
      · exact absurd k hbt
      · rw [k]
        dsimp only
        rw [jsonlGo_err o before l after (n + 1) _ er hrest ht hr, hlen]

/-- The first line that cannot be read is the one reported, by its number among all lines from 1. -/
theorem jsonl_first_error (o : Outside Ev) (t : Text) (before : List Text) (l : Text) (after : List Text) (er : Err)
    (hl : linesOf t = before ++ l :: after)
    (hb : ∀ b ∈ before, trim o.blank b = [] ∨ ∃ e, readYaml o false (trim o.blank b) = .ok e)
    (ht : trim o.blank l ≠ []) (hr : readYaml o false (trim o.blank l) = .err er) :
    readJsonl o t = .err (.jsonl (before.length + 1)) := by
  unfold readJsonl
  rw [hl, jsonlGo_err o before l after 1 [] er hb ht hr, Nat.add_comm]

/-- Here the second line is the first that cannot be read. -/
example : linesOf ['\n', 'x', '\n', 'y'] = [[]] ++ ['x'] :: [['y']] ∧ trim noOutside.blank [] = [] ∧
    readYaml noOutside false (trim noOutside.blank ['x']) = .err .scan := ⟨rfl, rfl, rfl⟩

example : ([Edn.keyword ['a'], .str ['b'], .char 'c'].map Edn.name).Nodup := by decide
example : (readText ['a', '\n', 'b']).item 1 = some (.lit (.str ['b'])) := rfl
example : (['a'], Toml.int ['1']) ∈ [['a'], ['b']].zip [Toml.int ['1'], Toml.int ['2']] := by simp

end Verif.Yaml
