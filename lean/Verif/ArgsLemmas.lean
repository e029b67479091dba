import Verif.ArgsSpec

/-!
# `parse-args`: lemmas

Proofs only.
-/

namespace Verif.Args

open Spec

variable {J : Type}

theorem entry_none {k : Str} {defs : List (Opt J)} (h : ∀ o ∈ defs, o.key ≠ k) : entry k defs = none := by
  induction defs with
  | nil => rfl
  | cons o os ih =>
    rw [entry, if_neg (h o (by simp)), ih fun o' ho' => h o' (by simp [ho'])]

theorem entry_some {o : Opt J} {defs : List (Opt J)} (hn : (defs.map Opt.key).Nodup) (h : o ∈ defs) :
    entry o.key defs = some o := by
  induction defs with
  | nil => cases h
  | cons p os ih =>
    rw [List.map_cons, List.nodup_cons] at hn
    rcases List.mem_cons.1 h with rfl | h
    · rw [entry, if_pos rfl]
    · rw [entry, if_neg, ih hn.2 h]
      intro e
      exact hn.1 (e ▸ List.mem_map.2 ⟨o, h, rfl⟩)

theorem isFlag_eq {o : Opt J} {defs : List (Opt J)} (hg : Good defs) (h : o ∈ defs) :
    isFlag defs o.key = o.flag := by
  rw [isFlag, entry_some hg.keys h]

theorem coerce_eq {json : Str → Option J} {o : Opt J} {defs : List (Opt J)} (hg : Good defs)
    (h : o ∈ defs) (s : Str) : coerce json defs o.key s = value json o s := by
  rw [coerce, entry_some hg.keys h, value]
  cases hn : o.num with
  | false => simp [hn]
  | true =>
    simp only [hn, if_true]
    cases json s <;> rfl

theorem lookupShort_none {c : Char} {defs : List (Opt J)} (h : ∀ o ∈ defs, o.short ≠ some c) :
    lookupShort c (shortLookup defs) = none := by
  induction defs with
  | nil => rfl
  | cons o os ih =>
    have ih' := ih fun o' ho' => h o' (by simp [ho'])
    have h0 := h o (by simp)
    rw [shortLookup]
    cases hs : o.short with
    | none => exact ih'
    | some d =>
      rw [hs] at h0
      show (if d = c then _ else _) = _
      rw [if_neg fun e => h0 (by rw [e]), ih']

theorem lookupShort_some {c : Char} {o : Opt J} {defs : List (Opt J)} (hm : o ∈ defs)
    (hs : o.short = some c)
    (hu : ∀ o ∈ defs, ∀ o' ∈ defs, ∀ c, o.short = some c → o'.short = some c → o = o') :
    lookupShort c (shortLookup defs) = some o.key := by
  induction defs with
  | nil => cases hm
  | cons p os ih =>
    rw [shortLookup]
    by_cases hp : p.short = some c
    · have := hu p (by simp) o hm c hp hs
      subst this
      rw [hs]
      show (if c = c then _ else _) = _
      rw [if_pos rfl]
    · have hm' : o ∈ os := by
        rcases List.mem_cons.1 hm with rfl | h
        · exact absurd hs hp
        · exact h
      have ih' := ih hm' fun a ha b hb => hu a (by simp [ha]) b (by simp [hb])
      cases hq : p.short with
      | none => exact ih'
      | some d =>
        show (if d = c then _ else _) = _
        rw [if_neg fun e => hp (by rw [hq, e]), ih']

theorem foldRes_append {α β : Type} (f : β → α → Res β) (b : β) (xs ys : List α) :
    foldRes f b (xs ++ ys) =
      match foldRes f b xs with
      | .ok b' => foldRes f b' ys
      | .fail e => .fail e := by
  induction xs generalizing b with
  | nil => rfl
  | cons x xs ih =>
    simp only [List.cons_append, foldRes]
    cases f b x with
    | ok b' => exact ih b'
    | fail e => rfl

/-- Settings are made one after the other. -/
def apply (ss : List (Str × Val J)) (opts : List (Str × Val J)) : List (Str × Val J) :=
  ss.foldl (fun o s => insert s.1 s.2 o) opts

theorem apply_append (a b o : List (Str × Val J)) : apply (a ++ b) o = apply b (apply a o) := by
  simp [apply]

/-- A state between arguments, when no value is wanted. -/
def clean (opts : List (Str × Val J)) (rest : List Str) : State J :=
  { opts := opts, rest := rest, pending := none, buf := none }

theorem foldShort_flags {defs : List (Opt J)} (hg : Good defs) {cs ks} (h : Flags defs cs ks)
    (opts : List (Str × Val J)) (rest : List Str) :
    foldRes (shortStep defs (shortLookup defs)) (clean opts rest) cs =
      .ok (clean (apply (ks.map fun k => (k, .on)) opts) rest) := by
  induction h generalizing opts with
  | nil => rfl
  | @cons o c cs ks hm hs hf _ ih =>
    have h1 : shortStep defs (shortLookup defs) (clean opts rest) c =
        .ok (clean (insert o.key .on opts) rest) := by
      simp only [shortStep, clean, lookupShort_some hm hs hg.shorts, isFlag_eq hg hm, hf, if_true, setOpt]
    rw [foldRes, h1]
    exact ih _

theorem foldShort_pending (defs : List (Opt J)) (sl : List (Char × Str)) (opts : List (Str × Val J))
    (rest : List Str) (k : Str) (b v : List Char) :
    foldRes (shortStep defs sl) { opts := opts, rest := rest, pending := some k, buf := some b } v =
      .ok { opts := opts, rest := rest, pending := some k, buf := some (b ++ v) } := by
  induction v generalizing b with
  | nil => simp [foldRes]
  | cons c v ih =>
    rw [foldRes]
    show foldRes _ _ v = _
    rw [ih]
    simp

theorem foldShort_start (defs : List (Opt J)) (sl : List (Char × Str)) (opts : List (Str × Val J))
    (rest : List Str) (k : Str) (v : List Char) (hv : v ≠ []) :
    foldRes (shortStep defs sl) { opts := opts, rest := rest, pending := some k, buf := none } v =
      .ok { opts := opts, rest := rest, pending := some k, buf := some v } := by
  cases v with
  | nil => exact absurd rfl hv
  | cons c v =>
    rw [foldRes]
    exact foldShort_pending defs sl opts rest k [c] v

theorem shortStep_value {defs : List (Opt J)} (hg : Good defs) {o : Opt J} {c : Char} (hm : o ∈ defs)
    (hs : o.short = some c) (hf : o.flag = false) (opts : List (Str × Val J)) (rest : List Str) :
    shortStep defs (shortLookup defs) (clean opts rest) c =
      .ok { opts := opts, rest := rest, pending := some o.key, buf := none } := by
  simp only [shortStep, clean, lookupShort_some hm hs hg.shorts, isFlag_eq hg hm, hf]
  rfl

theorem hasEq_false {s : Str} (h : '=' ∉ s) : hasEq s = false := by
  induction s with
  | nil => rfl
  | cons c s ih =>
    rw [hasEq, if_neg fun e => h (by simp [e]), ih fun e => h (by simp [e])]

theorem hasEq_mid (k v : Str) : hasEq (k ++ '=' :: v) = true := by
  induction k with
  | nil => simp [hasEq]
  | cons c k ih =>
    rw [List.cons_append, hasEq, ih]
    split <;> rfl

theorem firstPart_mid {k : Str} (h : '=' ∉ k) (v : Str) : firstPart (k ++ '=' :: v) = k := by
  induction k with
  | nil => simp [firstPart]
  | cons c k ih =>
    rw [List.cons_append, firstPart, if_neg fun e => h (by simp [e]), ih fun e => h (by simp [e])]

theorem afterEq_mid {k : Str} (h : '=' ∉ k) (v : Str) : afterEq (k ++ '=' :: v) = v := by
  induction k with
  | nil => simp [afterEq]
  | cons c k ih =>
    rw [List.cons_append, afterEq, if_neg fun e => h (by simp [e]), ih fun e => h (by simp [e])]

theorem firstPart_takeWhile (v : Str) : firstPart v = v.takeWhile (· != '=') := by
  induction v with
  | nil => rfl
  | cons c v ih =>
    rw [firstPart, ih, List.takeWhile_cons]
    by_cases h : c = '=' <;> simp [h]

theorem help_chars : "help".toList = ['h', 'e', 'l', 'p'] := by decide

theorem not_help_of_ne {k : Str} (h : k ≠ "help".toList) :
    ('-' :: '-' :: k) ≠ ['-', '-', 'h', 'e', 'l', 'p'] := by
  intro e
  rw [help_chars] at h
  simp at e
  exact h e

theorem not_help_eq (k v : Str) : ('-' :: '-' :: (k ++ '=' :: v)) ≠ ['-', '-', 'h', 'e', 'l', 'p'] := by
  intro e
  simp only [List.cons.injEq, true_and] at e
  have : '=' ∈ ['h', 'e', 'l', 'p'] := e ▸ (by simp)
  simp at this

/-! ## One argument -/

section one

variable {json : Str → Option J} {defs : List (Opt J)} {o : Opt J}

theorem one_long (hn : '-' :: '-' :: name ≠ ['-', '-', 'h', 'e', 'l', 'p']) (sl : List (Char × Str))
    (opts : List (Str × Val J)) (rest : List Str) :
    processOne json defs sl (clean opts rest) ('-' :: '-' :: name) =
      processLong json defs (clean opts rest) name := by
  simp only [processOne, clean]
  rw [if_neg hn]

theorem one_short {cs : Str} (hn : cs.head? ≠ some '-') (sl : List (Char × Str))
    (opts : List (Str × Val J)) (rest : List Str) :
    processOne json defs sl (clean opts rest) ('-' :: cs) =
      processShort json defs sl (clean opts rest) cs := by
  have h : ('-' :: cs) ≠ ['-', '-', 'h', 'e', 'l', 'p'] := by
    intro e
    simp only [List.cons.injEq, true_and] at e
    exact hn (by rw [e]; rfl)
  simp only [processOne, clean]
  rw [if_neg h]
  cases cs with
  | nil => rfl
  | cons c cs =>
    have hc : c ≠ '-' := fun e => hn (by rw [e]; rfl)
    split
    · rename_i h
      simp only [List.cons.injEq, true_and] at h
      exact absurd h.1 hc
    · rename_i h
      simp only [List.cons.injEq, true_and] at h
      rw [h]
    · rename_i h1 h2
      exact absurd rfl (h2 (c :: cs))

theorem one_pos {a : Str} (hn : a.head? ≠ some '-') (sl : List (Char × Str))
    (opts : List (Str × Val J)) (rest : List Str) :
    processOne json defs sl (clean opts rest) a = .ok (clean opts (rest ++ [a])) := by
  have h : a ≠ ['-', '-', 'h', 'e', 'l', 'p'] := by
    rintro rfl
    exact hn rfl
  simp only [processOne, clean]
  rw [if_neg h]
  split
  · exact absurd rfl hn
  · exact absurd rfl hn
  · rfl

theorem long_flag (hg : Good defs) (hm : o ∈ defs) (hf : o.flag = true) (he : '=' ∉ o.key)
    (opts : List (Str × Val J)) (rest : List Str) :
    processLong json defs (clean opts rest) o.key = .ok (clean (insert o.key .on opts) rest) := by
  simp only [processLong, hasEq_false he, Bool.false_eq_true, if_false, entry_some hg.keys hm,
    isFlag_eq hg hm, hf, if_true]
  rfl

theorem long_sep (hg : Good defs) (hm : o ∈ defs) (hf : o.flag = false) (he : '=' ∉ o.key)
    (opts : List (Str × Val J)) (rest : List Str) :
    processLong json defs (clean opts rest) o.key =
      .ok { opts := opts, rest := rest, pending := some o.key, buf := none } := by
  simp only [processLong, hasEq_false he, Bool.false_eq_true, if_false, entry_some hg.keys hm,
    isFlag_eq hg hm, hf]
  rfl

theorem long_eq (hg : Good defs) (hm : o ∈ defs) (he : '=' ∉ o.key) (v : Str)
    (opts : List (Str × Val J)) (rest : List Str) :
    processLong json defs (clean opts rest) (o.key ++ '=' :: v) =
      .ok (clean (insert o.key (value json o (v.takeWhile (· != '='))) opts) rest) := by
  simp only [processLong, hasEq_mid, if_true, firstPart_mid he, entry_some hg.keys hm, coerce_eq hg hm,
    secondPart, afterEq_mid he, firstPart_takeWhile]
  rfl

theorem one_value (hg : Good defs) (hm : o ∈ defs) (sl : List (Char × Str)) (v : Str)
    (opts : List (Str × Val J)) (rest : List Str) :
    processOne json defs sl { opts := opts, rest := rest, pending := some o.key, buf := none } v =
      .ok (clean (insert o.key (value json o v) opts) rest) := by
  simp only [processOne, resolvePending, coerce_eq hg hm]
  rfl

theorem short_flags (hg : Good defs) {cs ks} (h : Flags defs cs ks)
    (opts : List (Str × Val J)) (rest : List Str) :
    processShort json defs (shortLookup defs) (clean opts rest) cs =
      .ok (clean (apply (ks.map fun k => (k, .on)) opts) rest) := by
  rw [processShort, foldShort_flags hg h]
  rfl

theorem short_att (hg : Good defs) {cs ks c v} (h : Flags defs cs ks) (hm : o ∈ defs)
    (hs : o.short = some c) (hf : o.flag = false) (hv : v ≠ [])
    (opts : List (Str × Val J)) (rest : List Str) :
    processShort json defs (shortLookup defs) (clean opts rest) (cs ++ c :: v) =
      .ok (clean (insert o.key (value json o v) (apply (ks.map fun k => (k, .on)) opts)) rest) := by
  rw [processShort, foldRes_append, foldShort_flags hg h]
  simp only [foldRes, shortStep_value hg hm hs hf]
  rw [foldShort_start _ _ _ _ _ _ hv]
  simp only [resolvePending, coerce_eq hg hm]
  rfl

theorem short_sep (hg : Good defs) {cs ks c} (h : Flags defs cs ks) (hm : o ∈ defs)
    (hs : o.short = some c) (hf : o.flag = false)
    (opts : List (Str × Val J)) (rest : List Str) :
    processShort json defs (shortLookup defs) (clean opts rest) (cs ++ [c]) =
      .ok { opts := apply (ks.map fun k => (k, .on)) opts, rest := rest, pending := some o.key,
            buf := none } := by
  rw [processShort, foldRes_append, foldShort_flags hg h]
  simp only [foldRes, shortStep_value hg hm hs hf]
  rfl

theorem short_unknown (hg : Good defs) {cs ks c v} (h : Flags defs cs ks)
    (hc : ∀ o ∈ defs, o.short ≠ some c) (opts : List (Str × Val J)) (rest : List Str) :
    processShort json defs (shortLookup defs) (clean opts rest) (cs ++ c :: v) =
      .fail (.unknownShort c) := by
  rw [processShort, foldRes_append, foldShort_flags hg h]
  simp only [foldRes, shortStep, clean, lookupShort_none hc]

end one

/-! ## All arguments -/

theorem head_app {cs : Str} {c : Char} {v : Str} (h : (cs ++ [c]).head? ≠ some '-') :
    (cs ++ c :: v).head? ≠ some '-' := by
  cases cs <;> simpa using h

theorem line_run {json : Str → Option J} {defs : List (Opt J)} (hg : Good defs) {as ss ps}
    (h : Line json defs as ss ps) (opts : List (Str × Val J)) (rest : List Str) :
    foldRes (processOne json defs (shortLookup defs)) (clean opts rest) as =
      .ok (clean (apply ss opts) (rest ++ ps)) := by
  induction h generalizing opts rest with
  | nil => simp [foldRes, apply]
  | pos ha _ ih =>
    rw [foldRes, one_pos ha]
    show foldRes _ _ _ = _
    rw [ih]
    simp
  | flag hm hf hp _ ih =>
    rw [foldRes, one_long (not_help_of_ne hp.2), long_flag hg hm hf hp.1]
    exact ih _ _
  | eq hm he _ ih =>
    rw [foldRes, one_long (not_help_eq _ _), long_eq hg hm he]
    exact ih _ _
  | sep hm hf hp _ ih =>
    rw [foldRes, one_long (not_help_of_ne hp.2), long_sep hg hm hf hp.1]
    show foldRes _ _ _ = _
    rw [foldRes, one_value hg hm]
    exact ih _ _
  | flags hF hh _ ih =>
    rw [foldRes, one_short hh, short_flags hg hF, apply_append]
    exact ih _ _
  | shortAtt hF hm hs hf hv hh _ ih =>
    rw [foldRes, one_short (head_app hh), short_att hg hF hm hs hf hv, apply_append]
    exact ih _ _
  | shortSep hF hm hs hf hh _ ih =>
    rw [foldRes, one_short hh, short_sep hg hF hm hs hf, apply_append]
    show foldRes _ _ _ = _
    rw [foldRes, one_value hg hm]
    exact ih _ _

theorem wrong_run {json : Str → Option J} {defs : List (Opt J)} (hg : Good defs) {as e}
    (h : Wrong defs as e) (opts : List (Str × Val J)) (rest : List Str) :
    (match foldRes (processOne json defs (shortLookup defs)) (clean opts rest) as with
      | .fail e => some e
      | .ok st => st.pending.map .needsValue) = some e := by
  cases h with
  | help =>
    have : processOne json defs (shortLookup defs) (clean opts rest) "--help".toList = .fail .help := by
      simp only [processOne, clean]
      rw [if_pos (by decide)]
    rw [foldRes, this]
  | unknown hk he hn =>
    rw [foldRes, one_long (not_help_of_ne hk)]
    simp only [processLong, hasEq_false he, Bool.false_eq_true, if_false, entry_none hn]
  | unknownEq he hn =>
    rw [foldRes, one_long (not_help_eq _ _)]
    simp only [processLong, hasEq_mid, if_true, firstPart_mid he, entry_none hn]
  | unknownShort hF hn hh =>
    rw [foldRes, one_short (head_app hh), short_unknown hg hF hn]
  | needs hm hf hp =>
    rw [foldRes, one_long (not_help_of_ne hp.2), long_sep hg hm hf hp.1]
    rfl
  | needsShort hF hm hs hf hh =>
    rw [foldRes, one_short hh, short_sep hg hF hm hs hf]
    rfl

/-! ## There is nothing else -/

theorem flags_or (defs : List (Opt J)) (cs : List Char) :
    (∃ ks, Flags defs cs ks) ∨
    ∃ fs ks c v, cs = fs ++ c :: v ∧ Flags defs fs ks ∧
      ((∃ o ∈ defs, o.short = some c ∧ o.flag = false) ∨ ∀ o ∈ defs, o.short ≠ some c) := by
  induction cs with
  | nil => exact .inl ⟨_, .nil⟩
  | cons c cs ih =>
    by_cases h : ∃ o ∈ defs, o.short = some c
    · obtain ⟨o, hm, hs⟩ := h
      cases hf : o.flag with
      | false => exact .inr ⟨[], [], c, cs, rfl, .nil, .inl ⟨o, hm, hs, hf⟩⟩
      | true =>
        rcases ih with ⟨ks, hk⟩ | ⟨fs, ks, d, v, rfl, hF, hr⟩
        · exact .inl ⟨_, .cons hm hs hf hk⟩
        · exact .inr ⟨c :: fs, _, d, v, rfl, .cons hm hs hf hF, hr⟩
    · exact .inr ⟨[], [], c, cs, rfl, .nil, .inr fun o hm hs => h ⟨o, hm, hs⟩⟩

theorem split_eq (s : Str) : '=' ∉ s ∨ ∃ k v, s = k ++ '=' :: v ∧ '=' ∉ k := by
  induction s with
  | nil => exact .inl (by simp)
  | cons c s ih =>
    by_cases hc : c = '='
    · exact .inr ⟨[], s, by rw [hc]; rfl, by simp⟩
    · rcases ih with h | ⟨k, v, rfl, hk⟩
      · exact .inl (by simp [h, Ne.symm hc])
      · exact .inr ⟨c :: k, v, rfl, by simp [hk, Ne.symm hc]⟩

/-- The arguments are right up to a place where they are wrong. -/
def Fails (json : Str → Option J) (defs : List (Opt J)) (args : List Str) (e : Err) : Prop :=
  ∃ pre tail ss ps, args = pre ++ tail ∧ Line json defs pre ss ps ∧ Wrong defs tail e

theorem extend {json : Str → Option J} {defs : List (Opt J)} {as : List Str} (pre : List Str)
    (hx : ∀ {as ss ps}, Line json defs as ss ps → ∃ ss' ps', Line json defs (pre ++ as) ss' ps')
    (h : (∃ ss ps, Line json defs as ss ps) ∨ ∃ e, Fails json defs as e) :
    (∃ ss ps, Line json defs (pre ++ as) ss ps) ∨ ∃ e, Fails json defs (pre ++ as) e := by
  rcases h with ⟨ss, ps, h⟩ | ⟨e, p, t, ss, ps, rfl, h, hw⟩
  · exact .inl (hx h)
  · obtain ⟨ss', ps', h'⟩ := hx h
    exact .inr ⟨e, pre ++ p, t, ss', ps', by simp, h', hw⟩

theorem total (json : Str → Option J) (defs : List (Opt J)) (args : List Str) :
    (∃ ss ps, Line json defs args ss ps) ∨ ∃ e, Fails json defs args e := by
  match args with
  | [] => exact .inl ⟨_, _, .nil⟩
  | a :: as =>
    have wrong : ∀ {e}, Wrong defs (a :: as) e → ∃ e, Fails json defs (a :: as) e :=
      fun h => ⟨_, [], a :: as, [], [], rfl, .nil, h⟩
    by_cases ha : a.head? = some '-'
    · obtain ⟨cs, rfl⟩ : ∃ cs, a = '-' :: cs := by
        cases a with
        | nil => simp at ha
        | cons c cs => exact ⟨cs, by simp at ha; rw [ha]⟩
      by_cases hc : cs.head? = some '-'
      · obtain ⟨name, rfl⟩ : ∃ n, cs = '-' :: n := by
          cases cs with
          | nil => simp at hc
          | cons c n => exact ⟨n, by simp at hc; rw [hc]⟩
        rcases split_eq name with he | ⟨k, v, rfl, he⟩
        · by_cases hh : name = "help".toList
          · subst hh
            exact .inr (wrong Wrong.help)
          · by_cases hk : ∃ o ∈ defs, o.key = name
            · obtain ⟨o, hm, rfl⟩ := hk
              cases hf : o.flag with
              | true =>
                exact extend ['-' :: '-' :: o.key] (fun h => ⟨_, _, .flag hm hf ⟨he, hh⟩ h⟩)
                  (total json defs as)
              | false =>
                match as with
                | [] => exact .inr (wrong (.needs hm hf ⟨he, hh⟩))
                | v :: as =>
                  exact extend ['-' :: '-' :: o.key, v] (fun h => ⟨_, _, .sep hm hf ⟨he, hh⟩ h⟩)
                    (total json defs as)
            · exact .inr (wrong (.unknown hh he fun o hm e => hk ⟨o, hm, e⟩))
        · by_cases hk : ∃ o ∈ defs, o.key = k
          · obtain ⟨o, hm, rfl⟩ := hk
            exact extend ['-' :: '-' :: (o.key ++ '=' :: v)] (fun h => ⟨_, _, .eq hm he h⟩)
              (total json defs as)
          · exact .inr (wrong (.unknownEq he fun o hm e => hk ⟨o, hm, e⟩))
      · rcases flags_or defs cs with ⟨ks, hF⟩ | ⟨fs, ks, c, v, rfl, hF, ⟨o, hm, hs, hf⟩ | hn⟩
        · exact extend ['-' :: cs] (fun h => ⟨_, _, .flags hF hc h⟩) (total json defs as)
        · have hh : (fs ++ [c]).head? ≠ some '-' := by cases fs <;> simpa using hc
          by_cases hv : v = []
          · subst hv
            match as with
            | [] => exact .inr (wrong (.needsShort hF hm hs hf hh))
            | v :: as =>
              exact extend ['-' :: (fs ++ [c]), v] (fun h => ⟨_, _, .shortSep hF hm hs hf hh h⟩)
                (total json defs as)
          · exact extend ['-' :: (fs ++ c :: v)] (fun h => ⟨_, _, .shortAtt hF hm hs hf hv hh h⟩)
              (total json defs as)
        · have hh : (fs ++ [c]).head? ≠ some '-' := by cases fs <;> simpa using hc
          exact .inr (wrong (.unknownShort hF hn hh))
    · exact extend [a] (fun h => ⟨_, _, .pos ha h⟩) (total json defs as)
termination_by args.length

/-! ## The block -/

theorem insert_map {k : Str} (v : Val J) {defs : List (Opt J)} (hn : (defs.map Opt.key).Nodup)
    (f : Opt J → Val J) :
    insert k v (defs.map fun o => (o.key, f o)) =
      (defs.map fun o => (o.key, if o.key = k then v else f o)) ++
        if k ∈ defs.map Opt.key then [] else [(k, v)] := by
  induction defs with
  | nil => rfl
  | cons o os ih =>
    rw [List.map_cons, List.nodup_cons] at hn
    simp only [List.map_cons, insert]
    by_cases h : o.key = k
    · rw [if_pos h, if_pos h, if_pos (by simp [h])]
      subst h
      rw [List.append_nil, List.cons.injEq]
      refine ⟨rfl, List.map_congr_left fun p hp => ?_⟩
      have : p.key ≠ o.key := fun e => hn.1 (e ▸ List.mem_map.2 ⟨p, hp, rfl⟩)
      rw [if_neg this]
    · rw [if_neg h, if_neg h, ih hn.2]
      have : (k ∈ o.key :: os.map Opt.key) ↔ k ∈ os.map Opt.key := by
        simp [Ne.symm h]
      simp only [this, List.cons_append]

theorem last_snoc (ss : List (Str × Val J)) (s : Str × Val J) (k : Str) (d : Val J) :
    last (ss ++ [s]) k d = if k = s.1 then s.2 else last ss k d := by
  unfold last
  rw [List.filter_append]
  by_cases h : k = s.1
  · subst h
    simp
  · rw [if_neg h]
    have : (s.1 == k) = false := by simpa using Ne.symm h
    simp [this]

theorem apply_result {defs : List (Opt J)} (hn : (defs.map Opt.key).Nodup) (ss : List (Str × Val J))
    (hs : ∀ s ∈ ss, s.1 ∈ defs.map Opt.key) :
    apply ss (defs.map fun o => (o.key, .dflt o.value)) =
      defs.map fun o => (o.key, last ss o.key (.dflt o.value)) := by
  have key : ∀ n, ∀ ss : List (Str × Val J), ss.length = n → (∀ s ∈ ss, s.1 ∈ defs.map Opt.key) →
      apply ss (defs.map fun o => (o.key, .dflt o.value)) =
        defs.map fun o => (o.key, last ss o.key (.dflt o.value)) := by
    intro n
    induction n with
    | zero =>
      intro ss h _
      rw [List.eq_nil_of_length_eq_zero h]
      rfl
    | succ n ih =>
      intro ss h hs
      have hne : ss ≠ [] := by rintro rfl; simp at h
      obtain ⟨init, s, rfl⟩ : ∃ i s, ss = i ++ [s] := ⟨_, _, (List.dropLast_concat_getLast hne).symm⟩
      rw [apply_append, ih init (by simpa using h) fun x hx => hs x (by simp [hx])]
      show insert s.1 s.2 _ = _
      rw [insert_map _ hn, if_pos (hs s (by simp)), List.append_nil]
      exact List.map_congr_left fun o _ => by rw [last_snoc]
  exact key _ ss rfl hs

theorem flags_known {defs : List (Opt J)} {cs ks} (h : Flags defs cs ks) :
    ∀ k ∈ ks, k ∈ defs.map Opt.key := by
  induction h with
  | nil => simp
  | cons hm _ _ _ ih =>
    intro k hk
    rcases List.mem_cons.1 hk with rfl | hk
    · exact List.mem_map.2 ⟨_, hm, rfl⟩
    · exact ih k hk

theorem line_known {json : Str → Option J} {defs : List (Opt J)} {as ss ps}
    (h : Line json defs as ss ps) : ∀ s ∈ ss, s.1 ∈ defs.map Opt.key := by
  have fl : ∀ {cs ks}, Flags defs cs ks → ∀ s ∈ ks.map (fun k => ((k, Val.on) : Str × Val J)),
      s.1 ∈ defs.map Opt.key := by
    intro cs ks h s hs
    obtain ⟨k, hk, rfl⟩ := List.mem_map.1 hs
    exact flags_known h k hk
  have me : ∀ {o : Opt J}, o ∈ defs → o.key ∈ defs.map Opt.key := fun h => List.mem_map.2 ⟨_, h, rfl⟩
  induction h with
  | nil => simp
  | pos _ _ ih => exact ih
  | flag hm _ _ _ ih => exact List.forall_mem_cons.2 ⟨me hm, ih⟩
  | eq hm _ _ ih => exact List.forall_mem_cons.2 ⟨me hm, ih⟩
  | sep hm _ _ _ ih => exact List.forall_mem_cons.2 ⟨me hm, ih⟩
  | flags hF _ _ ih =>
    intro s hs
    rcases List.mem_append.1 hs with h | h
    · exact fl hF s h
    · exact ih s h
  | shortAtt hF hm _ _ _ _ _ ih =>
    intro s hs
    rcases List.mem_append.1 hs with h | h
    · exact fl hF s h
    · rcases List.mem_cons.1 h with rfl | h
      · exact me hm
      · exact ih s h
  | shortSep hF hm _ _ _ _ ih =>
    intro s hs
    rcases List.mem_append.1 hs with h | h
    · exact fl hF s h
    · rcases List.mem_cons.1 h with rfl | h
      · exact me hm
      · exact ih s h

theorem argsKey_chars : argsKey = ['a', 'r', 'g', 's'] := by decide

theorem line_parse {json : Str → Option J} {defs : List (Opt J)} (hg : Good defs) {as ss ps}
    (h : Line json defs as ss ps) : parse json defs as = .ok (result defs ss ps) := by
  have := line_run hg h (defs.map fun o => (o.key, .dflt o.value)) []
  rw [parse]
  unfold clean at this
  rw [this]
  simp only [List.nil_append]
  rw [apply_result hg.keys ss (line_known h), insert_map _ hg.keys, result, argsKey_chars]

theorem fails_parse {json : Str → Option J} {defs : List (Opt J)} (hg : Good defs) {as e}
    (h : Fails json defs as e) : parse json defs as = .fail e := by
  obtain ⟨pre, tail, ss, ps, rfl, hl, hw⟩ := h
  have h1 := line_run hg hl (defs.map fun o => (o.key, .dflt o.value)) []
  have h2 := wrong_run (json := json) hg hw (apply ss (defs.map fun o => (o.key, .dflt o.value))) ([] ++ ps)
  rw [parse, foldRes_append]
  unfold clean at h1
  rw [h1]
  unfold clean at h2
  revert h2
  simp only
  cases foldRes (processOne json defs (shortLookup defs)) _ tail with
  | fail e' => simp
  | ok st =>
    obtain ⟨o, r, p, b⟩ := st
    cases p <;> simp

end Verif.Args
