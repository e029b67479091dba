import Verif.SmidLemmas

/-! # C18, C19, C20, C42: descriptors, locations and traces -/

namespace Verif.Smid

/-! ## C18: closure descriptors round-trip -/

/-- Every field of a descriptor is read back as it was given. -/
theorem flags_round_trip (u : Bool) (a n : Nat) (ha : a < 256) (hn : n < 2 ^ 32) :
    flagsUpdate (flags u a n) = u ∧ flagsArity (flags u a n) = a ∧ flagsAnnotation (flags u a n) = n := by
  rw [flags_eq u ha hn]
  refine ⟨?_, ?_, ?_⟩
  · unfold flagsUpdate
    rw [Nat.and_one_is_mod]
    cases u
    · simp only [Bool.false_eq_true, if_false, beq_eq_false_iff_ne]; omega
    · simp only [if_true, beq_iff_eq]; omega
  · unfold flagsArity
    have : (0xff000000 : Nat) >>> 24 = 2 ^ 8 - 1 := by decide
    rw [Nat.shiftRight_and_distrib, this, Nat.and_two_pow_sub_one_eq_mod, Nat.shiftRight_eq_div_pow]
    cases u <;> simp <;> omega
  · unfold flagsAnnotation
    rw [Nat.shiftRight_eq_div_pow]
    cases u <;> simp <;> omega

/-- The packed word fits in 64 bits. -/
theorem flags_fits (u : Bool) (a n : Nat) (ha : a < 256) (hn : n < 2 ^ 32) : flags u a n < 2 ^ 64 := by
  rw [flags_eq u ha hn]
  split <;> omega

/-- Distinct descriptors have distinct words. -/
theorem flags_injective {u u' : Bool} {a a' n n' : Nat} (ha : a < 256) (hn : n < 2 ^ 32) (ha' : a' < 256)
    (hn' : n' < 2 ^ 32) (h : flags u a n = flags u' a' n') : u = u' ∧ a = a' ∧ n = n' := by
  have h1 := flags_round_trip u a n ha hn
  have h2 := flags_round_trip u' a' n' ha' hn'
  rw [h] at h1
  exact ⟨h1.1.symm.trans h2.1, h1.2.1.symm.trans h2.2.1, h1.2.2.symm.trans h2.2.2⟩

example : flagsArity (flags true 255 (2 ^ 32 - 1)) = 255 ∧ flags true 255 (2 ^ 32 - 1) < 2 ^ 64 := by decide

/-! ## C19: source locations are never confused -/

/-- The calls that change a source map. -/
inductive Op where
  | add (file : Nat) (span : Span)
  | addAnnotated (file : Nat) (span : Span) (ann : String)
  | addSynthetic (ann : String)
  | annotated (s : Nat) (ann : String)
  | merge (first second : Nat)
  | reserve (highest : Nat)
  | markResource (file : Nat)
  | setPreludeFile (file : Nat)
  | setTables (blame : String → Option FrameKind) (names : Nat → Option String) (spans : Nat → Option Span)

/-- Making a call: the handle returned (0 if the call returns none) and the new map; `none` is a
panic. -/
def step (m : SourceMap) : Op → Option (Nat × SourceMap)
  | .add f s => m.add f s
  | .addAnnotated f s a => m.addAnnotated f s a
  | .addSynthetic a => m.addSynthetic a
  | .annotated s a => m.annotated s a
  | .merge a b => m.merge a b
  | .reserve h => (m.reserve h).map fun m => (0, m)
  | .markResource f => some (0, m.markResource f)
  | .setPreludeFile f => some (0, m.setPreludeFile f)
  | .setTables b n s => some (0, { m with blame := b, slotName := n, slotSpan := s })

/-- A history of calls. -/
def history (m : SourceMap) : List Op → Option SourceMap
  | [] => some m
  | op :: ops => (step m op).bind fun r => history r.2 ops

/-- What the handle returned by a call is meant to denote, `resolve` being what handles denoted
before: the position given; for `annotated`, the position given with the new name; for `merge`, the
smallest span covering both, if both are in one file, and otherwise the first position. -/
def meant (resolve : Nat → Option Info) : Op → Option Info
  | .add f s => some ⟨some f, some s, none⟩
  | .addAnnotated f s a => some ⟨some f, some s, some a⟩
  | .addSynthetic a => some ⟨none, none, some a⟩
  | .annotated s a =>
    match resolve s with
    | some i => some ⟨i.file, i.span, some a⟩
    | none => some ⟨none, none, some a⟩
  | .merge a b =>
    match resolve a, resolve b with
    | some ⟨some f, some s, x⟩, some ⟨some g, some t, y⟩ =>
      if f = g then some ⟨some f, some ⟨min s.start t.start, max s.stop t.stop⟩, x.or y⟩
      else some ⟨some f, some s, x⟩
    | i, _ => i
  | _ => none

/-- The number of handles used up, reserved ones included. -/
def SourceMap.used (m : SourceMap) : Nat := m.foreignFloor + m.source.length

private theorem push_used {m m' : SourceMap} {i : Info} {r : Nat} (h : m.push i = some (r, m')) :
    m'.foreignFloor = m.foreignFloor ∧ m'.source = m.source ++ [i] := by
  unfold SourceMap.push at h
  cases hn : m.nextSmid with
  | none => rw [hn] at h; cases h
  | some q =>
    rw [hn] at h
    injection h with h; injection h with _ h; subst h
    exact ⟨rfl, rfl⟩

/-- Every call either appends one entry, returning its handle, or leaves the entries alone. -/
private theorem step_cases {m m' : SourceMap} {op : Op} {r : Nat} (h : step m op = some (r, m')) :
    (∃ i, m.push i = some (r, m')) ∨
      (m'.source = m.source ∧ m.foreignFloor ≤ m'.foreignFloor ∧
        (m.source ≠ [] → m'.foreignFloor = m.foreignFloor) ∧ (r = 0 ∨ ∃ b, op = .merge r b)) := by
  cases op with
  | add f s => exact .inl ⟨_, h⟩
  | addAnnotated f s a => exact .inl ⟨_, h⟩
  | addSynthetic a => exact .inl ⟨_, h⟩
  | annotated s a => exact .inl ⟨_, h⟩
  | merge a b =>
    simp only [step, SourceMap.merge] at h
    repeat' split at h
    all_goals first
      | (injection h with h; injection h with h1 h2; subst h1 h2
         exact .inr ⟨rfl, Nat.le_refl _, fun _ => rfl, .inr ⟨b, rfl⟩⟩)
      | exact .inl ⟨_, h⟩
  | reserve x =>
    simp only [step, SourceMap.reserve] at h
    split at h
    · injection h with h; injection h with h1 h2; subst h1 h2
      exact .inr ⟨rfl, Nat.le_refl _, fun _ => rfl, .inl rfl⟩
    · split at h
      · injection h with h; injection h with h1 h2; subst h1 h2
        exact .inr ⟨rfl, Nat.le_refl _, fun _ => rfl, .inl rfl⟩
      · split at h
        · next h2 h3 =>
          injection h with h; injection h with e1 e2; subst e1 e2
          exact .inr ⟨rfl, by simp only; omega, fun hc => absurd h3 hc, .inl rfl⟩
        · cases h
  | markResource f =>
    injection h with h; injection h with h1 h2; subst h1 h2
    exact .inr ⟨rfl, Nat.le_refl _, fun _ => rfl, .inl rfl⟩
  | setPreludeFile f =>
    injection h with h; injection h with h1 h2; subst h1 h2
    exact .inr ⟨rfl, Nat.le_refl _, fun _ => rfl, .inl rfl⟩
  | setTables b n s =>
    injection h with h; injection h with h1 h2; subst h1 h2
    exact .inr ⟨rfl, Nat.le_refl _, fun _ => rfl, .inl rfl⟩

/-- A handle that resolves goes on resolving to the same position, whatever call is made. -/
theorem step_stable {m m' : SourceMap} {op : Op} {r s : Nat} {i : Info} (h : step m op = some (r, m'))
    (hs : m.lookup s = some i) : m'.lookup s = some i := by
  rcases step_cases h with ⟨j, hp⟩ | ⟨h1, _, h3, _⟩
  · exact lookup_push_old hp hs
  · have hf := lookup_some_floor hs
    have hne : m.source ≠ [] := by
      intro h0
      rw [h0] at hf
      simp at hf
    have h3 := h3 hne
    unfold SourceMap.lookup SourceMap.infoAt at hs ⊢
    rw [h1, h3]
    exact hs

/-- … and whatever calls are made. -/
theorem history_stable {m m' : SourceMap} {ops : List Op} {s : Nat} {i : Info} (h : history m ops = some m')
    (hs : m.lookup s = some i) : m'.lookup s = some i := by
  induction ops generalizing m with
  | nil => injection h with h; subst h; exact hs
  | cons op ops ih =>
    simp only [history] at h
    cases hst : step m op with
    | none => rw [hst] at h; cases h
    | some p =>
      rw [hst] at h
      exact ih h (step_stable hst hs)

private theorem used_mono {m m' : SourceMap} {op : Op} {r : Nat} (h : step m op = some (r, m')) :
    m.used ≤ m'.used ∧ m.foreignFloor ≤ m'.foreignFloor := by
  unfold SourceMap.used
  rcases step_cases h with ⟨j, hp⟩ | ⟨h1, h2, _⟩
  · have := push_used hp
    rw [this.1, this.2]
    simp
  · rw [h1]; omega

private theorem history_mono {m m' : SourceMap} {ops : List Op} (h : history m ops = some m') :
    m.used ≤ m'.used ∧ m.foreignFloor ≤ m'.foreignFloor := by
  induction ops generalizing m with
  | nil => injection h with h; subst h; simp
  | cons op ops ih =>
    simp only [history] at h
    cases hst : step m op with
    | none => rw [hst] at h; cases h
    | some p =>
      rw [hst] at h
      have h1 := ih h
      have h2 := used_mono hst
      omega

/-- The handle a call returns resolves at once to what it is meant to denote. -/
private theorem step_meant {m m' : SourceMap} {op : Op} {r : Nat} {i : Info} (h : step m op = some (r, m'))
    (hm : meant m.lookup op = some i) (hc : m'.used < 2 ^ 31) : m'.lookup r = some i := by
  have key : ∀ j, m.push j = some (r, m') → m'.lookup r = some j := by
    intro j hj
    have hu := push_used hj
    unfold SourceMap.used at hc
    rw [hu.1, hu.2] at hc
    simp only [List.length_append, List.length_cons, List.length_nil] at hc
    exact (lookup_push_new hj (by omega)).1
  cases op with
  | add f s => rw [key _ h]; exact hm
  | addAnnotated f s a => rw [key _ h]; exact hm
  | addSynthetic a => rw [key _ h]; exact hm
  | annotated s a =>
    rw [key _ h, ← hm]
    simp only [meant]
    cases m.lookup s <;> rfl
  | merge a b =>
    simp only [step, SourceMap.merge] at h
    simp only [meant] at hm
    cases ha : m.lookup a with
    | none => rw [ha] at hm; simp at hm
    | some x =>
      obtain ⟨xf, xs, xa⟩ := x
      cases hb : m.lookup b with
      | none =>
        rw [ha, hb] at h
        injection h with h; injection h with h1 h2; subst h1 h2
        rw [ha, hb] at hm
        rw [ha]
        simpa using hm
      | some y =>
        obtain ⟨yf, ys, ya⟩ := y
        rw [ha, hb] at h hm
        cases xf with
        | none =>
          simp only [Option.some.injEq, Prod.mk.injEq] at h
          obtain ⟨h1, h2⟩ := h; subst h1 h2
          rw [ha]; simpa using hm
        | some xf =>
          cases xs with
          | none =>
            simp only [Option.some.injEq, Prod.mk.injEq] at h
            obtain ⟨h1, h2⟩ := h; subst h1 h2
            rw [ha]; simpa using hm
          | some xs =>
            cases ys with
            | none =>
              simp only [Option.some.injEq, Prod.mk.injEq] at h
              obtain ⟨h1, h2⟩ := h; subst h1 h2
              rw [ha]; simpa using hm
            | some ys =>
              cases yf with
              | none =>
                simp only [ne_eq, reduceCtorEq, not_false_eq_true, if_true, Option.some.injEq, Prod.mk.injEq] at h
                obtain ⟨h1, h2⟩ := h; subst h1 h2
                rw [ha]; simpa using hm
              | some yf =>
                simp only [ne_eq, Option.some.injEq, ite_not] at h
                simp only at hm
                by_cases hf : xf = yf
                · rw [if_pos hf] at h hm
                  rw [← hm]
                  cases hann : xa.or ya with
                  | none => rw [hann] at h; exact key _ h
                  | some z => rw [hann] at h; exact key _ h
                · rw [if_neg hf] at h hm
                  injection h with h; injection h with h1 h2; subst h1 h2
                  rw [ha, hm]
  | reserve x => cases hm
  | markResource f => cases hm
  | setPreludeFile f => cases hm
  | setTables b n s => cases hm

/-- **C19.** The handle a call returns denotes what it is meant to, and still does after any further
history of calls, as long as fewer than 2³¹ handles are used up in all. -/
theorem handle_denotes_partial {m m1 m2 : SourceMap} {op : Op} {ops : List Op} {r : Nat} {i : Info}
    (h1 : step m op = some (r, m1)) (h2 : history m1 ops = some m2) (hc : m2.used < 2 ^ 31)
    (hm : meant m.lookup op = some i) : m2.lookup r = some i :=
  history_stable h2 (step_meant h1 hm (Nat.lt_of_le_of_lt (history_mono h2).1 hc))

/-- **C19.** No two calls that mint a location share a handle: the handle minted by a call resolved to
nothing before the call. -/
theorem handle_fresh_partial {m m1 : SourceMap} {op : Op} {r : Nat} (h : step m op = some (r, m1))
    (hlen : m1.source.length ≠ m.source.length) (hc : m1.used < 2 ^ 31) : m.lookup r = none := by
  rcases step_cases h with ⟨j, hp⟩ | ⟨h1, _⟩
  · have hu := push_used hp
    unfold SourceMap.used at hc
    rw [hu.1, hu.2] at hc
    simp only [List.length_append, List.length_cons, List.length_nil] at hc
    exact (lookup_push_new hp (by omega)).2
  · rw [h1] at hlen; exact absurd rfl hlen

/-- Without the bound the claim fails: once 2³¹ − 1 handles are reserved, which one call can do, the
next location minted gets the identity of prelude slot 0 and resolves to nothing. -/
theorem handle_denotes_unbounded_false :
    ∃ m m1 m2 r i, step {} (.reserve (2 ^ 31 - 1)) = some (0, m) ∧ step m (.add 0 ⟨0, 1⟩) = some (r, m1) ∧
      history m1 [] = some m2 ∧ meant m.lookup (.add 0 ⟨0, 1⟩) = some i ∧ m2.lookup r = none ∧
      r = globalSlot 0 :=
  ⟨{ foreignFloor := 2 ^ 31 - 1 },
   { foreignFloor := 2 ^ 31 - 1, source := [⟨some 0, some ⟨0, 1⟩, none⟩] },
   { foreignFloor := 2 ^ 31 - 1, source := [⟨some 0, some ⟨0, 1⟩, none⟩] },
   2 ^ 31, ⟨some 0, some ⟨0, 1⟩, none⟩, by rfl, by rfl, by rfl, by rfl, by decide, by decide⟩

/-- **C19.** Handles in a reserved range never resolve, after any history, and are never blamed on the
user. -/
theorem foreign_never_resolves {m m1 m2 : SourceMap} {ops : List Op} {highest s : Nat}
    (h1 : step m (.reserve highest) = some (0, m1)) (h2 : history m1 ops = some m2)
    (hg : highest < 2 ^ 31) (hs : s ≤ highest) : m2.lookup s = none ∧ m2.classify s = .transparent := by
  have hfl : highest ≤ m1.foreignFloor := by
    have hslot : asGlobalSlot highest = none := by
      rw [asGlobalSlot_eq (by omega), if_neg (by omega)]
    simp only [step, SourceMap.reserve, hslot, Option.isSome_none, Bool.false_eq_true, if_false] at h1
    split at h1
    · injection h1 with h1; injection h1 with _ h1; subst h1; assumption
    · split at h1
      · injection h1 with h1; injection h1 with _ h1; subst h1; exact Nat.le_refl _
      · cases h1
  have hfl2 := (history_mono h2).2
  have hlk : m2.lookup s = none := by
    rw [lookup_eq m2 (by omega), if_neg (by omega)]
  refine ⟨hlk, ?_⟩
  unfold SourceMap.classify
  rw [hlk, asGlobalSlot_eq (by omega), if_neg (by omega)]
  rfl

/-- **C19.** A prelude slot's identity gives the slot back, never resolves as a source location, and is
never the handle of a minted location. -/
theorem slot_identity (m : SourceMap) (n : Nat) (hn : n < 2 ^ 31) :
    asGlobalSlot (globalSlot n) = some n ∧ m.lookup (globalSlot n) = none ∧
      isSourceLocation (globalSlot n) = false ∧
      ∀ op r m1, step m op = some (r, m1) → m1.source.length ≠ m.source.length → m1.used < 2 ^ 31 →
        r ≠ globalSlot n := by
  have e : globalSlot n = 2 ^ 31 + n := by rw [globalSlot_eq, Nat.mod_eq_of_lt hn]
  have hlt : globalSlot n < 2 ^ 32 := by omega
  have h1 : asGlobalSlot (globalSlot n) = some n := by
    rw [asGlobalSlot_eq hlt, if_pos (by omega), e, Nat.add_sub_cancel_left]
  refine ⟨h1, ?_, ?_, ?_⟩
  · rw [lookup_eq m hlt, if_neg (by omega)]
  · unfold isSourceLocation
    rw [h1]; simp
  · intro op r m1 h hlen hc
    rcases step_cases h with ⟨j, hp⟩ | ⟨h2, _⟩
    · have hu := push_used hp
      unfold SourceMap.used at hc
      rw [hu.1, hu.2] at hc
      simp only [List.length_append, List.length_cons, List.length_nil] at hc
      unfold SourceMap.push at hp
      cases hq : m.nextSmid with
      | none => rw [hq] at hp; cases hp
      | some q =>
        rw [hq] at hp
        injection hp with hp; injection hp with hp _; subst hp
        have := nextSmid_eq (by omega) hq
        omega
    · rw [h2] at hlen; exact absurd rfl hlen

/-- **C19.** A frame is attributed to the user only if it lies in a user file, given that the prelude
declares no combinator to be user code. -/
theorem user_frames_are_users (m : SourceMap) (s : Nat) (hb : ∀ n, m.blame n ≠ some .user)
    (h : m.classify s = .user) : ∃ i f, m.lookup s = some i ∧ i.file = some f ∧ m.resourceFile f = false := by
  unfold SourceMap.classify at h
  cases hl : m.lookup s with
  | none =>
    rw [hl] at h
    simp only at h
    cases hs : ((asGlobalSlot s).bind m.slotName) with
    | none => rw [hs] at h; cases h
    | some n =>
      rw [hs] at h
      simp only [Option.bind_some] at h
      cases hbn : m.blame n with
      | none => rw [hbn] at h; cases h
      | some k => rw [hbn] at h; simp at h; exact absurd (h ▸ hbn) (hb n)
  | some i =>
    rw [hl] at h
    simp only at h
    split at h
    · next hf =>
      cases hif : i.file with
      | none => rw [hif] at hf; cases hf
      | some f =>
        rw [hif] at hf
        refine ⟨i, f, rfl, hif, ?_⟩
        simpa [SourceMap.isUserFile] using hf
    · cases hs : i.annotation with
      | none => rw [hs] at h; cases h
      | some n =>
        rw [hs] at h
        simp only [Option.bind_some] at h
        cases hbn : m.blame n with
        | none => rw [hbn] at h; cases h
        | some k => rw [hbn] at h; simp at h; exact absurd (h ▸ hbn) (hb n)

/-- A history with a reserved range, two locations in one file and their merge. -/
example : ∃ m1 m2 : SourceMap, history {} [.reserve 10, .add 0 ⟨0, 3⟩, .addAnnotated 0 ⟨5, 9⟩ "f"] = some m1 ∧
    step m1 (.merge 11 12) = some (13, m2) ∧
    meant m1.lookup (.merge 11 12) = some ⟨some 0, some ⟨0, 9⟩, some "f"⟩ ∧
    m2.lookup 13 = some ⟨some 0, some ⟨0, 9⟩, some "f"⟩ ∧ m2.used = 13 ∧ m2.lookup 10 = none ∧
    m2.source.length ≠ m1.source.length := by
  refine ⟨{ foreignFloor := 10, source := [⟨some 0, some ⟨0, 3⟩, none⟩, ⟨some 0, some ⟨5, 9⟩, some "f"⟩] }, _, rfl, rfl, ?_⟩
  decide

/-! ## C20: traces are abbreviated without losing information -/

variable {α : Type} [DecidableEq α]

/-- **C20.** Expanding an abbreviation gives the trace back. -/
theorem compress_lossless (xs : List α) : expand (compress xs) = xs := by
  refine compress_induct (P := fun xs rs => expand rs = xs) rfl ?_ ?_ xs
  · intro r rest rs _ _ _ _ ih
    simp only [expand, List.flatMap_cons] at ih ⊢
    rw [ih]
  · intro x xs rs _ ih
    simp only [expand, List.flatMap_cons] at ih ⊢
    rw [ih]
    rfl

/-- **C20.** Each pattern has one to eight frames and occurs at least once; one with several frames
occurs at least twice. -/
theorem compress_patterns (xs : List α) : ∀ r ∈ compress xs, 1 ≤ r.count ∧ r.pattern ≠ [] ∧ r.pattern.length ≤ 8 ∧
    (r.count = 1 → r.pattern.length = 1) := by
  refine compress_induct (P := fun _ rs => ∀ r ∈ rs, 1 ≤ r.count ∧ r.pattern ≠ [] ∧ r.pattern.length ≤ 8 ∧
    (r.count = 1 → r.pattern.length = 1)) (by simp) ?_ ?_ xs
  · intro r rest rs h1 h2 h3 _ ih q hq
    rcases List.mem_cons.mp hq with h | h
    · subst h; exact ⟨by omega, h2, h3, by omega⟩
    · exact ih q h
  · intro x xs rs _ ih q hq
    rcases List.mem_cons.mp hq with h | h
    · subst h; simp
    · exact ih q h

/-- **C20.** Nothing that could be abbreviated is left: a pattern is followed by something else, and a
frame shown once does not begin a repetition of up to eight frames. -/
theorem compress_greedy (pre : List (Run α)) (r : Run α) (post : List (Run α)) (xs : List α)
    (h : compress xs = pre ++ r :: post) :
    (2 ≤ r.count → ¬ r.pattern <+: expand post) ∧
      (r.count = 1 → ∀ p : List α, p ≠ [] → p.length ≤ 8 → ¬ (p ++ p) <+: r.pattern ++ expand post) := by
  have := compress_induct (P := fun xs rs => expand rs = xs ∧ ∀ pre r post, rs = pre ++ r :: post →
    (2 ≤ r.count → ¬ r.pattern <+: expand post) ∧
      (r.count = 1 → ∀ p : List α, p ≠ [] → p.length ≤ 8 → ¬ (p ++ p) <+: r.pattern ++ expand post)) ?_ ?_ ?_ xs
  · exact this.2 pre r post h
  · refine ⟨rfl, ?_⟩
    intro pre r post h
    simp at h
  · intro r rest rs h1 h2 h3 h4 ih
    refine ⟨by simp only [expand, List.flatMap_cons]; rw [show rs.flatMap (fun r => rep r.count r.pattern) = rest from ih.1], ?_⟩
    intro pre q post he
    cases pre with
    | nil =>
      injection he with e1 e2; subst e1 e2
      refine ⟨fun _ => by rw [ih.1]; exact h4, by omega⟩
    | cons _ pre =>
      injection he with _ e2
      exact ih.2 pre q post e2
  · intro x xs rs h1 ih
    refine ⟨by simp only [expand, List.flatMap_cons]; rw [show rs.flatMap (fun r => rep r.count r.pattern) = xs from ih.1]; rfl, ?_⟩
    intro pre q post he
    cases pre with
    | nil =>
      injection he with e1 e2; subst e1 e2
      refine ⟨by simp, fun _ => by rw [ih.1]; exact h1⟩
    | cons _ pre =>
      injection he with _ e2
      exact ih.2 pre q post e2

/-- **C20.** The printed trace is never longer than the original. -/
theorem compressTrace_short (xs : List α) : (compressTrace xs).length ≤ xs.length := by
  unfold compressTrace
  split
  · simp
  · refine compress_induct (α := α) (P := fun xs rs => (rs.flatMap fun r => (r.pattern.map Line.frame ++
      if 2 ≤ r.count then [Line.elided ((r.count - 1) * r.pattern.length) r.count] else [] : List (Line α))).length ≤ xs.length)
      (Nat.le_refl _) ?_ ?_ xs
    · intro r rest rs h1 h2 _ _ ih
      simp only [List.flatMap_cons, h1, if_true, List.length_append, List.length_map, List.length_cons,
        List.length_nil]
      have hl := List.length_pos_iff.mpr h2
      rw [rep_eq_cons (by omega), rep_eq_cons (show 1 ≤ r.count - 1 by omega)]
      simp only [List.length_append]
      omega
    · intro x xs rs _ ih
      have h12 : ¬ (2 ≤ 1) := by decide
      simp only [List.flatMap_cons, h12, if_false, List.map_cons, List.map_nil, List.length_append,
        List.length_cons, List.length_nil]
      omega

/-- How a reader recovers the frames from a printed trace: a line saying that `n` frames are left out
in a pattern occurring `k` times stands for the last `n / (k − 1)` frames, `k − 1` times over. -/
def restore (acc : List α) : List (Line α) → List α
  | [] => acc
  | .frame x :: ls => restore (acc ++ [x]) ls
  | .elided n k :: ls => restore (acc ++ rep (k - 1) (acc.drop (acc.length - n / (k - 1)))) ls

omit [DecidableEq α] in
private theorem restore_frames (acc fs : List α) (ls : List (Line α)) :
    restore acc (fs.map .frame ++ ls) = restore (acc ++ fs) ls := by
  induction fs generalizing acc with
  | nil => simp
  | cons f fs ih => simp [restore, ih]

/-- **C20.** The printed trace determines the original. -/
theorem compressTrace_lossless (xs : List α) : restore [] (compressTrace xs) = xs := by
  unfold compressTrace
  split
  · have := restore_frames [] xs []
    simpa [restore] using this
  · suffices h : ∀ acc, restore acc ((compress xs).flatMap fun r => r.pattern.map Line.frame ++
        if 2 ≤ r.count then [Line.elided ((r.count - 1) * r.pattern.length) r.count] else []) = acc ++ xs by
      simpa using h []
    refine compress_induct (P := fun xs rs => ∀ acc, restore acc (rs.flatMap fun r => r.pattern.map Line.frame ++
        if 2 ≤ r.count then [Line.elided ((r.count - 1) * r.pattern.length) r.count] else []) = acc ++ xs)
      (by intro acc; simp [restore]) ?_ ?_ xs
    · intro r rest rs h1 _ _ _ ih acc
      simp only [List.flatMap_cons, h1, if_true, List.append_assoc]
      rw [restore_frames]
      simp only [List.cons_append, List.nil_append, restore]
      rw [ih, Nat.mul_div_cancel_left _ (show 0 < r.count - 1 by omega)]
      have : (acc ++ r.pattern).drop ((acc ++ r.pattern).length - r.pattern.length) = r.pattern := by
        simp
      rw [this, rep_eq_cons (show 1 ≤ r.count by omega)]
      simp
    · intro x xs rs _ ih acc
      have h12 : ¬ (2 ≤ 1) := by decide
      simp only [List.flatMap_cons, h12, if_false, List.append_nil]
      rw [restore_frames, ih]
      simp

example : compressTrace [1, 2, 2, 2, 3, 4, 3, 4, 5] =
    [Line.frame 1, .frame 2, .elided 2 3, .frame 3, .frame 4, .elided 2 2, .frame 5] := by decide +kernel

/-! ## C42: curating a trace does not change the blame -/

/-- The first frame attributed to the user. -/
def SourceMap.firstUserFrame (m : SourceMap) (raw : List Nat) : Option Nat := raw.find? fun s => m.classify s == .user

private theorem find_cls (m : SourceMap) (raw : List Nat) :
    ((m.cls raw).find? fun p => p.2 == FrameKind.user).map (·.1) = m.firstUserFrame raw := by
  unfold SourceMap.firstUserFrame
  induction raw with
  | nil => rfl
  | cons s raw ih =>
    simp only [SourceMap.cls, List.map_cons, List.find?_cons]
    cases m.classify s == FrameKind.user with
    | true => rfl
    | false => exact ih

private theorem primary_no_site (m : SourceMap) (raw : List Nat) :
    ((shown (m.keepFrames none none 0 (m.cls raw))).find? fun p => p.2 == FrameKind.user).map (·.1) =
      m.firstUserFrame raw := by
  rw [find_shown, keepFrames_find m raw none 0 (by simp)]
  exact find_cls m raw

/-- **C42.** The location blamed by a curated scope trace is the first user frame of the raw trace,
whatever is dropped or collapsed and however small the budget. -/
theorem curateTrace_primary (m : SourceMap) (raw : List Nat) (budget : Nat) :
    (m.curateTrace raw budget).primary = m.firstUserFrame raw := by
  unfold SourceMap.curateTrace SourceMap.curate
  simp only [Bool.false_eq_true, if_false, Option.isSome_none]
  exact primary_no_site m raw

/-- **C42.** A curated call trace blames the first user frame if every frame outside it is the user's
too, and nothing otherwise. -/
theorem curateStack_primary (m : SourceMap) (pre post : List Nat) (s budget : Nat)
    (hpre : ∀ t ∈ pre, m.classify t ≠ .user) (hs : m.classify s = .user) :
    (m.curateStack (pre ++ s :: post) budget).primary =
      if ∀ t ∈ post, m.classify t = .user then some s else none := by
  have hidx : ∀ pre : List Nat, (∀ t ∈ pre, m.classify t ≠ .user) →
      (m.cls (pre ++ s :: post)).findIdx? (fun p => p.2 == FrameKind.user) = some pre.length := by
    intro pre hpre
    induction pre with
    | nil => simp [SourceMap.cls, List.findIdx?_cons, hs]
    | cons t pre ih =>
      have h1 := ih (fun u hu => hpre u (List.mem_cons_of_mem _ hu))
      have h2 : (m.classify t == FrameKind.user) = false := by
        simpa using hpre t (List.mem_cons_self ..)
      simp only [SourceMap.cls, List.cons_append, List.map_cons, List.findIdx?_cons, h2] at h1 ⊢
      simp only [Bool.false_eq_true, if_false]
      rw [h1]
      rfl
  have hdrop : (m.cls (pre ++ s :: post)).drop (pre.length + 1) = m.cls post := by
    simp [SourceMap.cls, List.drop_append, List.drop_eq_nil_of_le]
  have hsite : demandSite (m.cls (pre ++ s :: post)) =
      if ∀ t ∈ post, m.classify t = .user then none else some pre.length := by
    unfold demandSite
    rw [hidx pre hpre]
    simp only [Option.filter, hdrop]
    by_cases hall : ∀ t ∈ post, m.classify t = .user
    · have : ((m.cls post).any fun p => p.2 != FrameKind.user) = false := by
        simpa [SourceMap.cls] using hall
      rw [this, if_pos hall]; rfl
    · have : ((m.cls post).any fun p => p.2 != FrameKind.user) = true := by
        simpa [SourceMap.cls] using hall
      rw [this, if_neg hall]; rfl
  unfold SourceMap.curateStack SourceMap.curate
  simp only [if_true]
  rw [show (pre ++ s :: post).map (fun s => (s, m.classify s)) = m.cls (pre ++ s :: post) from rfl, hsite]
  by_cases hall : ∀ t ∈ post, m.classify t = .user
  · simp only [if_pos hall, Option.isSome_none, Bool.false_eq_true, if_false]
    refine (primary_no_site m _).trans ?_
    unfold SourceMap.firstUserFrame
    rw [List.find?_append, List.find?_eq_none.mpr]
    · simp [hs]
    · intro t ht; simpa using hpre t ht
  · simp only [if_neg hall, Option.isSome_some, if_true]

/-- **C42.** With no user frame at all a call trace blames nothing. -/
theorem curateStack_primary_none (m : SourceMap) (raw : List Nat) (budget : Nat)
    (h : ∀ t ∈ raw, m.classify t ≠ .user) : (m.curateStack raw budget).primary = none := by
  have hsite : demandSite (m.cls raw) = none := by
    unfold demandSite
    have : (m.cls raw).findIdx? (fun p => p.2 == FrameKind.user) = none := by
      simp [SourceMap.cls, List.findIdx?_eq_none_iff]
      exact h
    rw [this]; rfl
  unfold SourceMap.curateStack SourceMap.curate
  simp only [if_true]
  rw [show raw.map (fun s => (s, m.classify s)) = m.cls raw from rfl, hsite]
  simp only [Option.isSome_none, Bool.false_eq_true, if_false]
  refine (primary_no_site m _).trans ?_
  unfold SourceMap.firstUserFrame
  simpa using h

/-- Positions made by the calls above come with a file and a span or with neither. -/
def SourceMap.Paired (m : SourceMap) : Prop := ∀ i ∈ m.source, i.file.isSome = i.span.isSome

theorem history_paired {m m' : SourceMap} {ops : List Op} (h : history m ops = some m') (hm : m.Paired) :
    m'.Paired := by
  induction ops generalizing m with
  | nil => injection h with h; subst h; exact hm
  | cons op ops ih =>
    simp only [history] at h
    cases hst : step m op with
    | none => rw [hst] at h; cases h
    | some p =>
      obtain ⟨r, m1⟩ := p
      rw [hst] at h
      refine ih h ?_
      have key : ∀ i : Info, i.file.isSome = i.span.isSome → m.push i = some (r, m1) → m1.Paired := by
        intro i hi hp j hj
        rw [(push_used hp).2] at hj
        rcases List.mem_append.mp hj with hj | hj
        · exact hm j hj
        · simp at hj; subst hj; exact hi
      have same : m1.source = m.source → m1.Paired := by
        intro e j hj; rw [e] at hj; exact hm j hj
      cases op with
      | add f s => exact key _ rfl hst
      | addAnnotated f s a => exact key _ rfl hst
      | addSynthetic a => exact key _ rfl hst
      | annotated s a =>
        refine key _ ?_ hst
        cases hl : m.lookup s with
        | none => rfl
        | some i => exact hm i (List.mem_of_getElem? (lookup_some_floor hl).2)
      | merge a b =>
        simp only [step, SourceMap.merge] at hst
        repeat' split at hst
        all_goals first
          | (injection hst with hst; injection hst with h1 h2; subst h1 h2; exact hm)
          | exact key _ rfl hst
      | reserve x =>
        rcases step_cases hst with ⟨i, hp⟩ | h2
        · simp only [step, SourceMap.reserve] at hst
          repeat' split at hst
          all_goals first
            | (injection hst with hst; injection hst with h1 h2; subst h1 h2; exact hm)
            | cases hst
        · exact same h2.1
      | markResource f => injection hst with hst; injection hst with _ hst; subst hst; exact hm
      | setPreludeFile f => injection hst with hst; injection hst with _ hst; subst hst; exact hm
      | setTables b n s => injection hst with hst; injection hst with _ hst; subst hst; exact hm

/-- **C42.** The curated scope trace agrees with searching the raw trace for the first location in a
user file, after any history of calls, if the prelude declares no combinator to be user code. -/
theorem curateTrace_agrees (m : SourceMap) (ops : List Op) (h : history {} ops = some m)
    (hb : ∀ n, m.blame n ≠ some .user) (raw : List Nat) (budget : Nat) :
    (m.curateTrace raw budget).primary = m.firstUser raw := by
  rw [curateTrace_primary]
  have hp := history_paired h (by intro i hi; cases hi)
  unfold SourceMap.firstUserFrame SourceMap.firstUser
  congr 1
  funext s
  rw [Bool.eq_iff_iff]
  constructor
  · intro hu
    obtain ⟨i, f, h1, h2, h3⟩ := user_frames_are_users m s hb (by simpa using hu)
    have h4 := hp i (List.mem_of_getElem? (lookup_some_floor h1).2)
    rw [h2] at h4
    simp only [h1, h2, SourceMap.isUserFile, h3, Bool.not_false, Bool.and_true]
    exact h4.symm
  · intro hu
    cases hl : m.lookup s with
    | none => rw [hl] at hu; cases hu
    | some i =>
      rw [hl] at hu
      dsimp only at hu
      cases hf : i.file with
      | none => rw [hf] at hu; cases hu
      | some f =>
        rw [hf] at hu
        have : m.isUserFile f = true := by
          simp only [Bool.and_eq_true] at hu; exact hu.2
        unfold SourceMap.classify
        simp [hl, hf, this]

/-- **C42.** A curated trace shows, in order, frames of the raw trace, none of them library plumbing and
no more than the budget; each keeps its kind unless marked as a demand site. -/
theorem curate_frames (m : SourceMap) (raw : List Nat) (budget : Nat) (rule : Bool) :
    ((m.curate raw budget rule).frames.map (·.1)).Sublist raw ∧
      (m.curate raw budget rule).frames.length ≤ budget ∧
      ∀ p ∈ (m.curate raw budget rule).frames, p.2 ≠ .transparent ∧ (p.2 = .force ∨ p.2 = m.classify p.1) := by
  unfold SourceMap.curate
  simp only
  generalize (if rule = true then demandSite (m.cls raw) else none) = site
  refine ⟨?_, by simp; omega, ?_⟩
  · have h1 : ((m.cls raw).map (·.1)) = raw := by simp [SourceMap.cls, Function.comp_def]
    have h2 := keepFrames_sublist m site (m.cls raw) none 0
    rw [h1] at h2
    refine List.Sublist.trans ?_ h2
    apply List.Sublist.map
    exact (List.take_sublist _ _).trans (shown_sublist _)
  · intro p hp
    have h1 := mem_shown.mp (List.mem_of_mem_take hp)
    have h2 := keepFrames_kind m site (m.cls raw) none 0 p h1
    refine ⟨h2.1, h2.2.imp id ?_⟩
    intro h3
    simp only [SourceMap.cls, List.mem_map] at h3
    obtain ⟨s, _, rfl⟩ := h3
    rfl

/-- **C42.** Nothing but plumbing and repetition is dropped: with enough budget, every frame that is not
plumbing is shown, or one at the same position is. -/
theorem curate_covers (m : SourceMap) (raw : List Nat) (budget : Nat) (rule : Bool) (hb : raw.length ≤ budget)
    (s : Nat) (hs : s ∈ raw) (hk : m.classify s ≠ .transparent) :
    ∃ p ∈ (m.curate raw budget rule).frames, p.1 = s ∨ m.position p.1 = m.position s := by
  unfold SourceMap.curate
  simp only
  generalize hsite : (if rule = true then demandSite (m.cls raw) else none) = site
  rcases keepFrames_cover m site (m.cls raw) none 0 s (m.classify s)
    (List.mem_map.mpr ⟨s, hs, rfl⟩) hk with h | ⟨t, k, h1, h2⟩
  · cases h.2
  · refine ⟨(t, k), ?_, h2⟩
    have h3 : (t, k) ∈ shown (m.keepFrames site none 0 (m.cls raw)) := mem_shown.mpr h1
    rw [List.take_of_length_le]
    · exact h3
    · have l1 := (shown_sublist (m.keepFrames site none 0 (m.cls raw))).length_le
      have l2 := (keepFrames_sublist m site (m.cls raw) none 0).length_le
      simp only [List.length_map, SourceMap.cls, shown] at l1 l2 ⊢
      omega

/-- **C42.** Recovering the named combinator from the scope trace changes neither the blame nor the
budget, and adds at most one frame, a boundary. -/
theorem curateWithEnv_frames (m : SourceMap) (stack env : List Nat) (budget : Nat) :
    (m.curateWithEnv stack env budget).primary = (m.curateStack stack budget).primary ∧
      (m.curateWithEnv stack env budget).frames.length ≤ budget ∧
      ∀ p ∈ (m.curateWithEnv stack env budget).frames,
        p ∈ (m.curateStack stack budget).frames ∨ (p.2 = .boundary ∧ p ∈ (m.curateTrace env budget).frames) := by
  unfold SourceMap.curateWithEnv
  have hlen := (curate_frames m stack budget true).2.1
  simp only
  split
  · exact ⟨rfl, hlen, fun p hp => .inl hp⟩
  · cases hf : (m.curateTrace env budget).frames.find? fun p => p.2 == FrameKind.boundary with
    | none => exact ⟨rfl, hlen, fun p hp => .inl hp⟩
    | some f =>
      refine ⟨rfl, by simp only [List.length_take]; omega, ?_⟩
      intro p hp
      rcases List.mem_cons.mp (List.mem_of_mem_take hp) with h | h
      · subst h
        exact .inr ⟨by simpa using List.find?_some hf, List.mem_of_find?_eq_some hf⟩
      · exact .inl h

/-- A map with a user file 0 and a prelude file 1. -/
def sampleMap : SourceMap :=
  { source := [⟨some 0, some ⟨0, 3⟩, some "main"⟩, ⟨some 1, some ⟨5, 9⟩, some "map"⟩, ⟨some 1, some ⟨20, 30⟩, some "nth"⟩,
      ⟨some 0, some ⟨0, 8⟩, some "main"⟩, ⟨some 0, some ⟨40, 44⟩, some "g"⟩]
    resourceFile := fun f => f == 1
    blame := fun n => if n = "nth" then some .boundary else none }

/-- Plumbing is dropped, two frames at one position are merged, and the blame is the first user
frame. -/
example : sampleMap.curateTrace [2, 3, 1, 4, 5, 2, 5] 12 = ⟨[(3, .boundary), (1, .user), (5, .user)], some 1⟩ ∧
    sampleMap.firstUserFrame [2, 3, 1, 4, 5, 2, 5] = some 1 ∧
    (sampleMap.curateStack [2, 3, 1, 4, 5, 2, 5] 12).primary = none ∧
    (sampleMap.curateStack [2, 3, 1, 4, 5] 12).primary = some 1 := by decide +kernel

end Verif.Smid
