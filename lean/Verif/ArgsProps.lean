import Verif.ArgsLemmas

/-!
# `parse-args`: properties
-/

namespace Verif.Args

open Spec

variable {J : Type}

/-! ## C122: what is read -/

/-- Arguments are read if and only if they are made of known options with their values, and other
arguments; and what they give is the defaults with what was set last, and the other arguments. -/
theorem parse_iff (json : Str → Option J) {defs : List (Opt J)} (hg : Good defs) (args : List Str)
    (r : List (Str × Val J)) :
    parse json defs args = .ok r ↔ ∃ ss ps, Line json defs args ss ps ∧ r = result defs ss ps := by
  constructor
  · intro h
    rcases total json defs args with ⟨ss, ps, hl⟩ | ⟨e, hf⟩
    · refine ⟨ss, ps, hl, ?_⟩
      rw [line_parse hg hl] at h
      injection h with h
      exact h.symm
    · rw [fails_parse hg hf] at h
      cases h
  · rintro ⟨ss, ps, hl, rfl⟩
    exact line_parse hg hl

/-- It fails if and only if the arguments are right up to a place where there is an option that is not
known, help is asked for, or the value of the last option is not there; and the error says which. -/
theorem fail_iff (json : Str → Option J) {defs : List (Opt J)} (hg : Good defs) (args : List Str)
    (e : Err) :
    parse json defs args = .fail e ↔
      ∃ pre tail ss ps, args = pre ++ tail ∧ Line json defs pre ss ps ∧ Wrong defs tail e := by
  constructor
  · intro h
    rcases total json defs args with ⟨ss, ps, hl⟩ | ⟨e', hf⟩
    · rw [line_parse hg hl] at h
      cases h
    · rw [fails_parse hg hf] at h
      injection h with h
      exact h ▸ hf
  · exact fails_parse hg

/-- Arguments say one thing only. -/
theorem line_unique (json : Str → Option J) {defs : List (Opt J)} (hg : Good defs) {args ss ps ss' ps'}
    (h : Line json defs args ss ps) (h' : Line json defs args ss' ps') :
    result defs ss ps = result defs ss' ps' := by
  have := line_parse hg h
  rw [line_parse hg h'] at this
  injection this with this
  exact this.symm

/-- The keys are those of the defaults, in their order, and `args`. -/
theorem parse_keys (json : Str → Option J) {defs : List (Opt J)} (hg : Good defs) {args : List Str}
    {r : List (Str × Val J)} (h : parse json defs args = .ok r) :
    r.map Prod.fst = defs.map Opt.key ++ if argsKey ∈ defs.map Opt.key then [] else [argsKey] := by
  obtain ⟨ss, ps, _, rfl⟩ := (parse_iff json hg args r).1 h
  rw [result, List.map_append, List.map_map]
  congr 1
  split <;> rfl

/-! ## C123: all that is written is found -/

/-- What a block has at a key. -/
def at? (k : Str) (r : List (Str × Val J)) : Option (Val J) := (r.find? (fun e => e.1 == k)).map Prod.snd

theorem at_result {defs : List (Opt J)} (hg : Good defs) {o : Opt J} (hm : o ∈ defs)
    (hk : o.key ≠ argsKey) (ss : List (Str × Val J)) (ps : List Str) :
    at? o.key (result defs ss ps) = some (last ss o.key (.dflt o.value)) := by
  have key : ∀ (ds : List (Opt J)) (t : List (Str × Val J)), (ds.map Opt.key).Nodup → o ∈ ds →
      at? o.key (ds.map (fun o =>
        (o.key, if o.key = argsKey then .list ps else last ss o.key (.dflt o.value))) ++ t) =
        some (last ss o.key (.dflt o.value)) := by
    intro ds t hn hm
    induction ds with
    | nil => cases hm
    | cons p ds ih =>
      rw [List.map_cons, List.nodup_cons] at hn
      rcases List.mem_cons.1 hm with rfl | hm
      · simp [at?, hk]
      · have hne : (p.key == o.key) = false := by
          simp only [beq_eq_false_iff_ne]
          exact fun e => hn.1 (e ▸ List.mem_map.2 ⟨o, hm, rfl⟩)
        have := ih hn.2 hm
        simpa [at?, hne] using this
  exact key defs _ hg.keys hm

theorem line_append {json : Str → Option J} {defs : List (Opt J)} {as ss ps bs ss' ps'}
    (h : Line json defs as ss ps) (h' : Line json defs bs ss' ps') :
    Line json defs (as ++ bs) (ss ++ ss') (ps ++ ps') := by
  induction h with
  | nil => exact h'
  | pos ha _ ih => exact .pos ha ih
  | flag hm hf hp _ ih => exact .flag hm hf hp ih
  | eq hm he _ ih => exact .eq hm he ih
  | sep hm hf hp _ ih => exact .sep hm hf hp ih
  | flags hF hh _ ih =>
    rw [List.append_assoc]
    exact .flags hF hh ih
  | shortAtt hF hm hs hf hv hh _ ih =>
    rw [List.append_assoc]
    exact .shortAtt hF hm hs hf hv hh ih
  | shortSep hF hm hs hf hh _ ih =>
    rw [List.append_assoc]
    exact .shortSep hF hm hs hf hh ih

theorem last_of {ss ss' : List (Str × Val J)} {k : Str} {v d : Val J} (h : ∀ s ∈ ss', s.1 ≠ k) :
    last (ss ++ (k, v) :: ss') k d = v := by
  have : ss'.filter (fun s => s.1 == k) = [] := by
    rw [List.filter_eq_nil_iff]
    intro s hs
    simpa using h s hs
  rw [last, List.filter_append, List.filter_cons]
  simp [this]

/-- What is given for an option after `=` is its value in the end, if what comes after does not set it
again: just what is before the next `=`. -/
theorem eq_cut (json : Str → Option J) {defs : List (Opt J)} (hg : Good defs) {o : Opt J} (hm : o ∈ defs)
    (he : '=' ∉ o.key) (hk : o.key ≠ argsKey) (v : Str) {as bs ss ps ss' ps'}
    (h : Line json defs as ss ps) (h' : Line json defs bs ss' ps') (hs : ∀ s ∈ ss', s.1 ≠ o.key) :
    ∃ r, parse json defs (as ++ ('-' :: '-' :: (o.key ++ '=' :: v)) :: bs) = .ok r ∧
      at? o.key r = some (value json o (v.takeWhile (· != '='))) := by
  refine ⟨_, line_parse hg (line_append h (.eq hm he h')), ?_⟩
  rw [at_result hg hm hk, last_of hs]

/-- The value that is wanted, where it has no `=` in it. -/
theorem eq_given_partial (json : Str → Option J) {defs : List (Opt J)} (hg : Good defs) {o : Opt J}
    (hm : o ∈ defs) (he : '=' ∉ o.key) (hk : o.key ≠ argsKey) {v : Str} (hv : '=' ∉ v)
    {as bs ss ps ss' ps'} (h : Line json defs as ss ps) (h' : Line json defs bs ss' ps')
    (hs : ∀ s ∈ ss', s.1 ≠ o.key) :
    ∃ r, parse json defs (as ++ ('-' :: '-' :: (o.key ++ '=' :: v)) :: bs) = .ok r ∧
      at? o.key r = some (value json o v) := by
  have hw : v.takeWhile (· != '=') = v := by
    clear h h' hs
    induction v with
    | nil => rfl
    | cons c v ih =>
      have hc : (c != '=') = true := by
        simp only [bne_iff_ne, ne_eq]
        exact fun e => hv (by simp [e])
      rw [List.takeWhile_cons, if_pos hc, ih fun e => hv (by simp [e])]
  have := eq_cut json hg hm he hk v h h' hs
  rwa [hw] at this

/-- The value that comes as the next argument is taken whole, whatever it is. -/
theorem sep_given (json : Str → Option J) {defs : List (Opt J)} (hg : Good defs) {o : Opt J}
    (hm : o ∈ defs) (hf : o.flag = false) (hp : Plain o.key) (hk : o.key ≠ argsKey) (v : Str)
    {as bs ss ps ss' ps'} (h : Line json defs as ss ps) (h' : Line json defs bs ss' ps')
    (hs : ∀ s ∈ ss', s.1 ≠ o.key) :
    ∃ r, parse json defs (as ++ ('-' :: '-' :: o.key) :: v :: bs) = .ok r ∧
      at? o.key r = some (value json o v) := by
  refine ⟨_, line_parse hg (line_append h (.sep hm hf hp h')), ?_⟩
  rw [at_result hg hm hk, last_of hs]

theorem line_pos {json : Str → Option J} {defs : List (Opt J)} {as : List Str}
    (h : ∀ a ∈ as, a.head? ≠ some '-') : Line json defs as [] as := by
  induction as with
  | nil => exact .nil
  | cons a as ih => exact .pos (h a (by simp)) (ih fun b hb => h b (by simp [hb]))

/-- Arguments that do not begin with `-` are all in `args`, and options are as by default. -/
theorem args_kept_partial (json : Str → Option J) {defs : List (Opt J)} (hg : Good defs)
    {as : List Str} (h : ∀ a ∈ as, a.head? ≠ some '-') :
    parse json defs as = .ok (result defs [] as) :=
  line_parse hg (line_pos h)

theorem line_no_dash {json : Str → Option J} {defs : List (Opt J)} {as ss ps}
    (h : Line json defs as ss ps) : ∀ p ∈ ps, p.head? ≠ some '-' := by
  induction h with
  | nil => simp
  | pos ha _ ih => exact List.forall_mem_cons.2 ⟨ha, ih⟩
  | flag _ _ _ _ ih => exact ih
  | eq _ _ _ ih => exact ih
  | sep _ _ _ _ ih => exact ih
  | flags _ _ _ ih => exact ih
  | shortAtt _ _ _ _ _ _ _ ih => exact ih
  | shortSep _ _ _ _ _ _ ih => exact ih

theorem at_args {defs : List (Opt J)} (ss : List (Str × Val J)) (ps : List Str) :
    at? argsKey (result defs ss ps) = some (.list ps) := by
  have key : ∀ (ds : List (Opt J)) (t : List (Str × Val J)),
      at? argsKey (ds.map (fun o =>
        (o.key, if o.key = argsKey then .list ps else last ss o.key (.dflt o.value))) ++
        if argsKey ∈ ds.map Opt.key then t else (argsKey, .list ps) :: t) = some (.list ps) := by
    intro ds t
    induction ds with
    | nil => simp [at?]
    | cons p ds ih =>
      by_cases h : p.key = argsKey
      · simp [at?, h]
      · have hne : (p.key == argsKey) = false := by simpa using h
        have hiff : (argsKey ∈ p.key :: ds.map Opt.key) ↔ argsKey ∈ ds.map Opt.key := by
          simp [Ne.symm h]
        simp only [List.map_cons, hiff, List.cons_append]
        rw [at?, List.find?_cons]
        simp only [hne]
        exact ih
  exact key defs []

/-- No argument that begins with `-` is ever in `args`: a negative number cannot be given, nor can `--`
be used to end the options. -/
theorem args_no_dash (json : Str → Option J) {defs : List (Opt J)} (hg : Good defs) {args : List Str}
    {r : List (Str × Val J)} (h : parse json defs args = .ok r) :
    ∃ ps, at? argsKey r = some (.list ps) ∧ ∀ p ∈ ps, p.head? ≠ some '-' := by
  obtain ⟨ss, ps, hl, rfl⟩ := (parse_iff json hg args r).1 h
  exact ⟨ps, at_args ss ps, line_no_dash hl⟩

/-- A `-` alone, where no value is wanted, is lost: the result is as if it were not there. -/
theorem dash_lost (json : Str → Option J) {defs : List (Opt J)} (hg : Good defs) {as bs ss ps}
    (h : Line json defs as ss ps) :
    parse json defs (as ++ ['-'] :: bs) = parse json defs (as ++ bs) := by
  rcases total json defs bs with ⟨ss', ps', h'⟩ | ⟨e, p, t, ss', ps', rfl, hl, hw⟩
  · rw [line_parse hg (line_append h h'),
      line_parse hg (line_append h (.flags (cs := []) .nil (by simp) h'))]
    rfl
  · have h1 : Fails json defs (as ++ (p ++ t)) e :=
      ⟨as ++ p, t, _, _, by simp, line_append h hl, hw⟩
    have h2 : Fails json defs (as ++ ['-'] :: (p ++ t)) e :=
      ⟨as ++ ['-'] :: p, t, _, _, by simp, line_append h (.flags (cs := []) .nil (by simp) hl), hw⟩
    rw [fails_parse hg h1, fails_parse hg h2]

/-! ## Witnesses -/

/-- Options `url` (a text) with short name `u`, `port` (a number) with `p`, and the flags `verbose` and
`quiet`. A default is a number or a truth value. -/
def sample : List (Opt (Nat ⊕ Bool)) :=
  [⟨"url".toList, .inl 0, false, false, some 'u'⟩,
   ⟨"port".toList, .inl 80, true, false, some 'p'⟩,
   ⟨"verbose".toList, .inr false, false, true, some 'v'⟩,
   ⟨"quiet".toList, .inr false, false, true, some 'q'⟩]

theorem sample_good : Good sample := by
  refine ⟨by decide +kernel, ?_⟩
  intro o ho o' ho' c h h'
  simp only [sample, List.mem_cons, List.not_mem_nil, or_false] at ho ho'
  rcases ho with rfl | rfl | rfl | rfl <;> rcases ho' with rfl | rfl | rfl | rfl <;>
    first | rfl | (simp at h h'; subst h; simp at h')

/-- JSON, as far as it is needed here. -/
def sampleJson (s : Str) : Option (Nat ⊕ Bool) :=
  if s = "true".toList then some (.inr true)
  else if s = "8080".toList then some (.inl 8080)
  else none

/-- What is given after `=` is the value: false, since it is cut at the next `=`. -/
theorem eq_given_false :
    ¬ ∀ (J : Type) (json : Str → Option J) (defs : List (Opt J)), Good defs → ∀ o ∈ defs,
      '=' ∉ o.key → o.key ≠ argsKey → ∀ v : Str,
      ∃ r, parse json defs [('-' :: '-' :: (o.key ++ '=' :: v))] = .ok r ∧
        at? o.key r = some (value json o v) := by
  intro h
  obtain ⟨r, h1, h2⟩ := h _ sampleJson sample sample_good ⟨"url".toList, .inl 0, false, false, some 'u'⟩
    (by decide +kernel) (by decide +kernel) (by decide +kernel) "?a=b".toList
  have h3 : parse sampleJson sample [('-' :: '-' :: ("url".toList ++ '=' :: "?a=b".toList))] =
      .ok [("url".toList, .text "?a".toList), ("port".toList, .dflt (.inl 80)),
        ("verbose".toList, .dflt (.inr false)), ("quiet".toList, .dflt (.inr false)),
        ("args".toList, .list [])] := by decide +kernel
  have h4 := h1.symm.trans h3
  injection h4 with h4
  subst h4
  revert h2
  decide +kernel

/-- An argument that is not taken for an option or its value is in `args`: false of `-`. -/
theorem args_kept_false :
    ¬ ∀ (J : Type) (json : Str → Option J) (defs : List (Opt J)), Good defs → ∀ a : Str,
      (∀ r, parse json defs [a] = .ok r → r ≠ result defs [] [] ∨ at? argsKey r = some (.list [a])) := by
  intro h
  have h1 : parse sampleJson sample ["-".toList] = .ok (result sample [] []) := by decide +kernel
  rcases h _ sampleJson sample sample_good "-".toList _ h1 with h | h
  · exact h rfl
  · revert h
    decide +kernel

/-! ## C124: kinds of values -/

/-- Values in the result are the default, `true` of a flag, or what a text gives for the option. -/
theorem kinds_partial (json : Str → Option J) {defs : List (Opt J)} (hg : Good defs) {args : List Str}
    {r : List (Str × Val J)} (h : parse json defs args = .ok r) {o : Opt J} (hm : o ∈ defs)
    (hk : o.key ≠ argsKey) :
    at? o.key r = some (.dflt o.value) ∨ (o.flag = true ∧ at? o.key r = some .on) ∨
      ∃ s, at? o.key r = some (value json o s) := by
  obtain ⟨ss, ps, hl, rfl⟩ := (parse_iff json hg args r).1 h
  rw [at_result hg hm hk]
  have same : ∀ {p : Opt J}, p ∈ defs → p.key = o.key → p = o := by
    intro p hp e
    have h1 := entry_some hg.keys hp
    rw [e, entry_some hg.keys hm] at h1
    injection h1 with h1
    exact h1.symm
  have fl : ∀ {cs ks}, Flags defs cs ks → ∀ s ∈ ks.map (fun k => ((k, Val.on) : Str × Val J)),
      s.1 = o.key → o.flag = true ∧ s.2 = .on := by
    intro cs ks hF s hs e
    obtain ⟨k, hk, rfl⟩ := List.mem_map.1 hs
    refine ⟨?_, rfl⟩
    induction hF with
    | nil => cases hk
    | cons hm' _ hf _ ih =>
      rcases List.mem_cons.1 hk with rfl | hk
      · rw [← same hm' e]
        exact hf
      · exact ih hk (List.mem_map.2 ⟨k, hk, rfl⟩)
  have all : ∀ s ∈ ss, s.1 = o.key → (o.flag = true ∧ s.2 = .on) ∨ ∃ t, s.2 = value json o t := by
    clear h
    induction hl with
    | nil => simp
    | pos _ _ ih => exact ih
    | flag hm' hf _ _ ih =>
      refine List.forall_mem_cons.2 ⟨fun e => .inl ⟨?_, rfl⟩, ih⟩
      rw [← same hm' e]
      exact hf
    | eq hm' _ _ ih =>
      exact List.forall_mem_cons.2
        ⟨fun e => .inr ⟨_, congrArg (fun p => value json p _) (same hm' e)⟩, ih⟩
    | sep hm' _ _ _ ih =>
      exact List.forall_mem_cons.2
        ⟨fun e => .inr ⟨_, congrArg (fun p => value json p _) (same hm' e)⟩, ih⟩
    | flags hF _ _ ih =>
      intro s hs e
      rcases List.mem_append.1 hs with h | h
      · exact .inl (fl hF s h e)
      · exact ih s h e
    | shortAtt hF hm' _ _ _ _ _ ih =>
      intro s hs e
      rcases List.mem_append.1 hs with h | h
      · exact .inl (fl hF s h e)
      · rcases List.mem_cons.1 h with rfl | h
        · exact .inr ⟨_, congrArg (fun p => value json p _) (same hm' e)⟩
        · exact ih s h e
    | shortSep hF hm' _ _ _ _ ih =>
      intro s hs e
      rcases List.mem_append.1 hs with h | h
      · exact .inl (fl hF s h e)
      · rcases List.mem_cons.1 h with rfl | h
        · exact .inr ⟨_, congrArg (fun p => value json p _) (same hm' e)⟩
        · exact ih s h e
  rw [last]
  cases hL : (ss.filter fun s => s.1 == o.key).getLast? with
  | none => exact .inl rfl
  | some s =>
    have hs := List.mem_of_getLast? hL
    rw [List.mem_filter] at hs
    rcases all s hs.1 (by simpa using hs.2) with ⟨h1, h2⟩ | ⟨t, h2⟩
    · exact .inr (.inl ⟨h1, by rw [← h2]; rfl⟩)
    · exact .inr (.inr ⟨t, by rw [← h2]; rfl⟩)

/-- A flag is its default or `true`: false, since `--flag=false` sets it to a text. -/
theorem flag_false :
    ¬ ∀ (J : Type) (json : Str → Option J) (defs : List (Opt J)), Good defs → ∀ args r,
      parse json defs args = .ok r → ∀ o ∈ defs, o.flag = true → o.key ≠ argsKey →
      at? o.key r = some (.dflt o.value) ∨ at? o.key r = some .on := by
  intro h
  have h1 : parse sampleJson sample ["--verbose=false".toList] =
      .ok [("url".toList, .dflt (.inl 0)), ("port".toList, .dflt (.inl 80)),
        ("verbose".toList, .text "false".toList), ("quiet".toList, .dflt (.inr false)),
        ("args".toList, .list [])] := by decide +kernel
  have := h _ sampleJson sample sample_good _ _ h1 ⟨"verbose".toList, .inr false, false, true, some 'v'⟩
    (by decide +kernel) rfl (by decide +kernel)
  revert this
  decide +kernel

/-- An option whose default is a number is a number: false, since any JSON is taken. -/
theorem number_false :
    ¬ ∀ (json : Str → Option (Nat ⊕ Bool)) (defs : List (Opt (Nat ⊕ Bool))), Good defs → ∀ args r,
      parse json defs args = .ok r → ∀ o ∈ defs, o.num = true → o.key ≠ argsKey →
      ∀ j, at? o.key r = some (.data j) → j.isLeft = true := by
  intro h
  have h1 : parse sampleJson sample ["-vp".toList, "true".toList] =
      .ok [("url".toList, .dflt (.inl 0)), ("port".toList, .data (.inr true)),
        ("verbose".toList, .on), ("quiet".toList, .dflt (.inr false)),
        ("args".toList, .list [])] := by decide +kernel
  have := h sampleJson sample sample_good _ _ h1 ⟨"port".toList, .inl 80, true, false, some 'p'⟩
    (by decide +kernel) rfl (by decide +kernel) (.inr true) (by decide +kernel)
  revert this
  decide +kernel

/-- The other arguments take the place of an option that is called `args`. -/
theorem args_option_lost (json : Str → Option J) {defs : List (Opt J)} (hg : Good defs) {args : List Str}
    {r : List (Str × Val J)} (h : parse json defs args = .ok r) :
    ∃ ps, at? argsKey r = some (.list ps) :=
  (args_no_dash json hg h).imp fun _ h => h.1

/-! ## Cases -/

/-- Arguments of all kinds at once. -/
example : parse sampleJson sample
    ["in".toList, "-vuhttp".toList, "--port".toList, "8080".toList, "--url=x".toList, "-q".toList,
      "out".toList] =
    .ok [("url".toList, .text "x".toList), ("port".toList, .data (.inl 8080)), ("verbose".toList, .on),
      ("quiet".toList, .on), ("args".toList, .list ["in".toList, "out".toList])] := by decide +kernel

/-- The errors. -/
example : parse sampleJson sample ["-vx".toList] = .fail (.unknownShort 'x') ∧
    parse sampleJson sample ["a".toList, "--".toList, "-5".toList] = .fail (.unknownLong []) ∧
    parse sampleJson sample ["-vp".toList] = .fail (.needsValue "port".toList) ∧
    parse sampleJson sample ["--help".toList] = .fail .help ∧
    parse sampleJson sample ["-p".toList, "--help".toList] =
      .ok [("url".toList, .dflt (.inl 0)), ("port".toList, .bad), ("verbose".toList, .dflt (.inr false)),
        ("quiet".toList, .dflt (.inr false)), ("args".toList, .list [])] := by
  refine ⟨?_, ?_, ?_, ?_, ?_⟩ <;> decide +kernel

/-- The hypotheses of `eq_given_partial` are met by the sample. -/
example : ∃ r, parse sampleJson sample
    (["in".toList] ++ ('-' :: '-' :: ("url".toList ++ '=' :: "x".toList)) :: ["-v".toList]) = .ok r ∧
    at? "url".toList r = some (.text "x".toList) :=
  eq_given_partial sampleJson sample_good (o := ⟨"url".toList, .inl 0, false, false, some 'u'⟩)
    (by decide +kernel) (by decide +kernel) (by decide +kernel) (by decide +kernel)
    (.pos (by decide +kernel) .nil)
    (.flags (cs := ['v']) (.cons (o := ⟨"verbose".toList, .inr false, false, true, some 'v'⟩)
      (by decide +kernel) rfl rfl .nil) (by decide +kernel) .nil)
    (by decide +kernel)

end Verif.Args
