import Verif.InputModel

/-!
# Input descriptors: properties (C32)
-/

namespace Verif.Input

theorem splitOnce_append {c : Char} : ∀ {a b : Str}, c ∉ a → splitOnce c (a ++ c :: b) = some (a, b)
  | [], b, _ => by simp [splitOnce]
  | x :: a, b, h => by
    simp only [List.mem_cons, not_or] at h
    rw [List.cons_append, splitOnce, if_neg (Ne.symm h.1), splitOnce_append h.2]

theorem splitOnce_none {c : Char} : ∀ {a : Str}, splitOnce c a = none ↔ c ∉ a
  | [] => by simp [splitOnce]
  | x :: a => by
    rw [splitOnce]
    by_cases hx : x = c
    · simp [hx]
    · rw [if_neg hx]
      have ih := splitOnce_none (c := c) (a := a)
      cases h : splitOnce c a with
      | none => rw [h] at ih; simp [Ne.symm hx, ih.1 rfl]
      | some p =>
        rw [h] at ih
        have : c ∈ a := Classical.byContradiction fun hn => by cases ih.2 hn
        simp [this]

/-- The locator's text makes parsing panic. -/
def Crashes (t : Str) : Prop :=
  ∃ rest, t = '[' :: rest ∧ (rest = [] ∨ ∃ c, rest.getLast? = some c ∧ c.utf8Size ≠ 1)

theorem chomp_none {t : Str} : chomp t = none ↔ Crashes t := by
  constructor
  · intro h
    cases t with
    | nil => simp [chomp] at h
    | cons c rest =>
      by_cases hc : c = '['
      · subst hc
        refine ⟨rest, rfl, ?_⟩
        simp only [chomp] at h
        cases hl : rest.getLast? with
        | none => exact .inl (List.getLast?_eq_none_iff.1 hl)
        | some d =>
          rw [hl] at h
          dsimp only at h
          split at h
          · cases h
          · next hd => exact .inr ⟨d, rfl, hd⟩
      · exfalso
        unfold chomp at h
        split at h
        · next he => cases he; exact hc rfl
        · cases h
  · rintro ⟨rest, rfl, h⟩
    rcases h with rfl | ⟨c, hl, hc⟩
    · rfl
    · simp [chomp, hl, hc]

theorem ofStr_none {parse : UrlParser} {t : Str} : Locator.ofStr parse t = none ↔ Crashes t := by
  rw [← chomp_none, Locator.ofStr]
  cases chomp t with
  | none => simp
  | some s =>
    dsimp only
    repeat' split
    all_goals simp

/-- What parsing a text with the parts `name`, `fmt` and `loc` must give. -/
def Parsed (parse : UrlParser) (name fmt : Option Str) (loc : Str) (r : Option Input) : Prop :=
  match Locator.ofStr parse (trim loc) with
  | none => r = none
  | some l => r = some
      { locator := l
        name := name.map trim
        format := match fmt with
          | some f => trim f
          | none => l.inferFormat.getD Fmt.eu.str }

/-- C32: `name=format@locator` is taken apart into its three parts, whatever
the locator, for a name without `=` and a format without `@`. -/
theorem full_form (parse : UrlParser) (name fmt loc : Str) (hn : '=' ∉ name) (hf : '@' ∉ fmt) :
    Parsed parse (some name) (some fmt) loc
      (Input.ofStr parse (name ++ '=' :: (fmt ++ '@' :: loc))) := by
  simp only [Parsed, Input.ofStr, splitOnce_append hn, splitOnce_append hf]
  cases Locator.ofStr parse (trim loc) <;> rfl

/-- C32: `name=locator`, for a locator without `@`. -/
theorem named_form (parse : UrlParser) (name loc : Str) (hn : '=' ∉ name) (hl : '@' ∉ loc) :
    Parsed parse (some name) none loc (Input.ofStr parse (name ++ '=' :: loc)) := by
  simp only [Parsed, Input.ofStr, splitOnce_append hn, splitOnce_none.2 hl]
  cases Locator.ofStr parse (trim loc) <;> rfl

/-- C32: `format@locator`, neither containing `=`. -/
theorem format_form (parse : UrlParser) (fmt loc : Str) (hf : '@' ∉ fmt) (hf' : '=' ∉ fmt)
    (hl : '=' ∉ loc) :
    Parsed parse none (some fmt) loc (Input.ofStr parse (fmt ++ '@' :: loc)) := by
  have : splitOnce '=' (fmt ++ '@' :: loc) = none := by
    rw [splitOnce_none]; simp [hf', hl]
  simp only [Parsed, Input.ofStr, this, splitOnce_append hf]
  cases Locator.ofStr parse (trim loc) <;> rfl

/-- C32: a bare locator. -/
theorem bare_form (parse : UrlParser) (loc : Str) (hl : '=' ∉ loc) (hl' : '@' ∉ loc) :
    Parsed parse none none loc (Input.ofStr parse loc) := by
  simp only [Parsed, Input.ofStr, splitOnce_none.2 hl, splitOnce_none.2 hl']
  cases Locator.ofStr parse (trim loc) <;> rfl

theorem splitOnce_some {c : Char} : ∀ {s a b : Str}, splitOnce c s = some (a, b) →
    c ∉ a ∧ s = a ++ c :: b
  | [], _, _, h => by simp [splitOnce] at h
  | x :: s, a, b, h => by
    rw [splitOnce] at h
    by_cases hx : x = c
    · rw [if_pos hx] at h; cases h; simp [hx]
    · rw [if_neg hx] at h
      cases h1 : splitOnce c s with
      | none => rw [h1] at h; cases h
      | some p =>
        obtain ⟨a', b'⟩ := p
        rw [h1] at h; cases h
        obtain ⟨h2, h3⟩ := splitOnce_some h1
        exact ⟨by simp [h2, Ne.symm hx], by rw [h3]; rfl⟩

/-- The four forms are all there are: every text is read as exactly one. -/
theorem every_text_has_a_form (s : Str) :
    (∃ n f l, '=' ∉ n ∧ '@' ∉ f ∧ s = n ++ '=' :: (f ++ '@' :: l)) ∨
    (∃ n l, '=' ∉ n ∧ '@' ∉ l ∧ s = n ++ '=' :: l) ∨
    (∃ f l, '@' ∉ f ∧ '=' ∉ f ∧ '=' ∉ l ∧ s = f ++ '@' :: l) ∨
    ('=' ∉ s ∧ '@' ∉ s) := by
  cases h1 : splitOnce '=' s with
  | none =>
    have h1' := splitOnce_none.1 h1
    cases h2 : splitOnce '@' s with
    | none => exact .inr (.inr (.inr ⟨h1', splitOnce_none.1 h2⟩))
    | some p =>
      obtain ⟨f, l⟩ := p
      obtain ⟨h3, h4⟩ := splitOnce_some h2
      rw [h4] at h1'
      simp only [List.mem_append, List.mem_cons, not_or] at h1'
      exact .inr (.inr (.inl ⟨f, l, h3, h1'.1, h1'.2.2, h4⟩))
  | some p =>
    obtain ⟨n, r⟩ := p
    obtain ⟨h3, h4⟩ := splitOnce_some h1
    cases h2 : splitOnce '@' r with
    | none => exact .inr (.inl ⟨n, r, h3, splitOnce_none.1 h2, h4⟩)
    | some p =>
      obtain ⟨f, l⟩ := p
      obtain ⟨h5, h6⟩ := splitOnce_some h2
      exact .inl ⟨n, f, l, h3, h5, by rw [h4, h6]⟩

/-- The locator part of a text. -/
def locatorPart (s : Str) : Str :=
  let rem := match splitOnce '=' s with
    | some (_, r) => r
    | none => s
  match splitOnce '@' rem with
  | some (_, r) => r
  | none => rem

/-- C32 (negation): parsing does crash, exactly when the locator, trimmed, opens
a square bracket and either that is all, or its last character is not ASCII. -/
theorem crashes_iff (parse : UrlParser) (s : Str) :
    Input.ofStr parse s = none ↔ Crashes (trim (locatorPart s)) := by
  rw [← ofStr_none (parse := parse)]
  simp only [Input.ofStr, locatorPart]
  cases h1 : splitOnce '=' s with
  | none =>
    cases h2 : splitOnce '@' s with
    | none => dsimp only; cases Locator.ofStr parse (trim s) <;> simp
    | some p => dsimp only; cases Locator.ofStr parse (trim p.2) <;> simp
  | some p =>
    dsimp only
    cases h2 : splitOnce '@' p.2 with
    | none => dsimp only; cases Locator.ofStr parse (trim p.2) <;> simp
    | some q => dsimp only; cases Locator.ofStr parse (trim q.2) <;> simp

/-- C32 (negation): `eu '['` crashes, and so does `eu 'json@[é'`. -/
theorem parsing_can_crash (parse : UrlParser) :
    Input.ofStr parse ['['] = none ∧
      Input.ofStr parse ['j', 's', 'o', 'n', '@', '[', 'é'] = none := by
  rw [crashes_iff, crashes_iff]
  refine ⟨⟨[], by decide, .inl rfl⟩, ⟨['é'], by decide, .inr ⟨'é', rfl, by decide⟩⟩⟩

/-- C32: otherwise it never crashes. -/
theorem never_crashes_partial (parse : UrlParser) (s : Str)
    (h : (trim (locatorPart s)).head? ≠ some '[') : (Input.ofStr parse s).isSome := by
  rw [Option.isSome_iff_ne_none]
  intro hn
  obtain ⟨rest, hr, _⟩ := (crashes_iff parse s).1 hn
  rw [hr] at h
  exact h rfl

example (parse : UrlParser) : (Input.ofStr parse ['a', '=', 'x', '@', 'b', '/', 'c']).isSome :=
  never_crashes_partial parse _ (by decide)

/-! ## Locators -/

/-- Text that is taken as a file name as it stands. -/
structure Plain (parse : UrlParser) (p : Str) : Prop where
  trimmed : trim p = p
  bracket : p.head? ≠ some '['
  dash : p ≠ ['-']
  resource : stripPrefix resourcePrefix p = none
  pseudo : stripPrefix pseudoPrefix p = none
  url : isDrive p = true ∨ parse p = none

theorem chomp_plain {p : Str} (h : p.head? ≠ some '[') : chomp p = some p := by
  unfold chomp
  split
  · exact absurd rfl h
  · rfl

theorem plain_is_file {parse : UrlParser} {p : Str} (h : Plain parse p) :
    Locator.ofStr parse p = some (.fs p) := by
  rw [Locator.ofStr, chomp_plain h.bracket]
  dsimp only
  rw [if_neg h.dash, h.resource, h.pseudo]
  dsimp only
  rcases h.url with hd | hu
  · rw [hd]; rfl
  · split
    · rfl
    · rw [hu]

/-- A Windows path is a file, whatever the URL parser makes of its drive
letter. -/
theorem drive_path_is_file (parse : UrlParser) (d c : Char) (rest : Str) (hd : d.isAlpha = true)
    (hc : c = '\\' ∨ c = '/') : Locator.ofStr parse (d :: ':' :: c :: rest) = some (.fs (d :: ':' :: c :: rest)) := by
  have hdr : isDrive (d :: ':' :: c :: rest) = true := by
    rcases hc with rfl | rfl <;> simp [isDrive, hd]
  have hb : d ≠ '[' := by rintro rfl; revert hd; decide
  have h2 : ∀ q r qs, stripPrefix (q :: r :: qs) (d :: ':' :: c :: rest) ≠ none → r = ':' := by
    intro q r qs h
    simp only [stripPrefix] at h
    split at h
    · split at h
      · assumption
      · exact absurd rfl h
    · exact absurd rfl h
  rw [Locator.ofStr, chomp_plain (by simpa using hb)]
  dsimp only
  rw [if_neg (by simp)]
  cases hr : stripPrefix resourcePrefix (d :: ':' :: c :: rest) with
  | some x => exact absurd (h2 'r' 'e' _ (by rw [← resourcePrefix, hr]; simp)) (by decide)
  | none =>
    dsimp only
    cases hp : stripPrefix pseudoPrefix (d :: ':' :: c :: rest) with
    | some x => exact absurd (h2 'p' 's' _ (by rw [← pseudoPrefix, hp]; simp)) (by decide)
    | none => dsimp only; rw [hdr]; rfl

theorem stripPrefix_append : ∀ p s : Str, stripPrefix p (p ++ s) = some s
  | [], _ => rfl
  | c :: p, s => by simp [stripPrefix, stripPrefix_append p s]

/-- `resource:`, `pseudo:` and `-` are recognised whatever the URL parser says. -/
theorem special_locators (parse : UrlParser) (s : Str) :
    Locator.ofStr parse (resourcePrefix ++ s) = some (.resource (trim s)) ∧
    Locator.ofStr parse (pseudoPrefix ++ s) = some (.pseudo (trim s)) ∧
    Locator.ofStr parse ['-'] = some .stdin := by
  refine ⟨?_, ?_, rfl⟩
  · rw [Locator.ofStr, chomp_plain (by simp [resourcePrefix])]
    dsimp only
    rw [if_neg (by simp [resourcePrefix]), stripPrefix_append]
  · rw [Locator.ofStr, chomp_plain (by simp [pseudoPrefix])]
    dsimp only
    rw [if_neg (by simp [pseudoPrefix]),
      show stripPrefix resourcePrefix (pseudoPrefix ++ s) = none from rfl, stripPrefix_append]

/-- Square brackets around a locator are ignored. -/
theorem brackets_ignored (parse : UrlParser) (t : Str) (h : t.head? ≠ some '[') :
    Locator.ofStr parse ('[' :: (t ++ [']'])) = Locator.ofStr parse t := by
  rw [Locator.ofStr, Locator.ofStr, chomp_plain h]
  have : chomp ('[' :: (t ++ [']'])) = some t := by
    simp only [chomp, List.getLast?_append, List.getLast?_singleton, Option.some_or,
      List.dropLast_concat]
    rfl
  rw [this]

/-- … but an unclosed bracket costs the last character: `[a.eu` is read as the
file `a.e`. -/
theorem unclosed_bracket_loses_character :
    Locator.ofStr (fun _ => none) ['[', 'a', '.', 'e', 'u'] = some (.fs ['a', '.', 'e']) := by decide

/-! ## Showing and reading back -/

/-- Shown and read back, an input from a file is the same input. -/
theorem file_input_round_trip (parse : UrlParser) (p : Str) (name : Option Str) (fmt : Str)
    (hp : Plain parse p) (hn : ∀ n ∈ name, trim n = n ∧ '=' ∉ n)
    (hf : trim fmt = fmt ∧ '@' ∉ fmt) (hno : name = none → '=' ∉ fmt ∧ '=' ∉ p) :
    Input.ofStr parse (Input.display ⟨.fs p, name, fmt⟩) = some ⟨.fs p, name, fmt⟩ := by
  cases name with
  | some n =>
    have h := full_form parse n fmt p (hn n rfl).2 hf.2
    simp only [Parsed, hp.trimmed, plain_is_file hp, Option.map_some, (hn n rfl).1, hf.1] at h
    exact h
  | none =>
    have h := format_form parse fmt p hf.2 (hno rfl).1 (hno rfl).2
    simp only [Parsed, hp.trimmed, plain_is_file hp, Option.map_none, hf.1] at h
    exact h

/-- An input from a resource is not: it comes back as a file. -/
theorem resource_input_becomes_file (parse : UrlParser) (s : Str) (fmt : Str) (hs : Plain parse s)
    (hf : trim fmt = fmt ∧ '@' ∉ fmt ∧ '=' ∉ fmt) (hno : '=' ∉ s) :
    Input.ofStr parse (Input.display ⟨.resource s, none, fmt⟩) = some ⟨.fs s, none, fmt⟩ := by
  have ht : trim ('[' :: (s ++ [']'])) = '[' :: (s ++ [']']) := by
    have h1 : trimStart ('[' :: (s ++ [']'])) = '[' :: (s ++ [']']) := rfl
    have h2 : ('[' :: (s ++ [']'])).reverse = ']' :: (s.reverse ++ ['[']) := by simp
    have h3 : trimStart (']' :: (s.reverse ++ ['['])) = ']' :: (s.reverse ++ ['[']) := rfl
    rw [trim, h1, h2, h3, ← h2, List.reverse_reverse]
  have h := format_form parse fmt ('[' :: (s ++ [']'])) hf.2.1 hf.2.2 (by simp [hno])
  simp only [Parsed, ht, brackets_ignored parse s hs.bracket, plain_is_file hs, hf.1] at h
  exact h

example : Plain (fun _ => none) ['a', '.', 'j', 's', 'o', 'n'] :=
  ⟨by decide, by decide, by decide, by decide, by decide, by decide⟩

/-! ## Formats -/

theorem splitSlash_noslash : ∀ {s : Str}, '/' ∉ s → splitSlash s = (s, [])
  | [], _ => rfl
  | c :: s, h => by
    simp only [List.mem_cons, not_or] at h
    simp only [splitSlash, splitSlash_noslash h.2]
    rw [if_neg (Ne.symm h.1)]

theorem splitSlash_append : ∀ (d f : Str), '/' ∉ f →
    ∃ x xs, splitSlash (d ++ '/' :: f) = (x, xs ++ [f])
  | [], f, h => ⟨[], [], by simp [splitSlash, splitSlash_noslash h]⟩
  | c :: d, f, h => by
    obtain ⟨x, xs, hx⟩ := splitSlash_append d f h
    simp only [List.cons_append, splitSlash, hx]
    split
    · exact ⟨[], x :: xs, rfl⟩
    · exact ⟨c :: x, xs, rfl⟩

theorem fileName_last {x : Str} {xs : List Str} {p f : Str} (h : splitSlash p = (x, xs ++ [f]))
    (h1 : f ≠ []) (h2 : f ≠ ['.']) (h3 : f ≠ ['.', '.']) : fileName p = some f := by
  simp only [fileName, h]
  rw [← List.cons_append, List.reverse_append]
  simp [h1, h2, h3]

theorem takeWhile_ext {stem ext : Str} (h : '.' ∉ ext) :
    ((stem ++ '.' :: ext).reverse.takeWhile (· ≠ '.')).reverse = ext := by
  have : (stem ++ '.' :: ext).reverse = ext.reverse ++ '.' :: stem.reverse := by simp
  rw [this, List.takeWhile_append_of_pos]
  · simp
  · intro c hc
    simp only [List.mem_reverse] at hc
    simp only [ne_eq, decide_not, Bool.not_eq_eq_eq_not, Bool.not_true, decide_eq_false_iff_not]
    rintro rfl
    exact h hc

/-- The extension of `stem.ext`, in any directory. -/
theorem extension_spec (dir : Option Str) (stem ext : Str) (hs : stem ≠ []) (hss : '/' ∉ stem)
    (he : '.' ∉ ext) (hes : '/' ∉ ext) (hdots : stem ++ '.' :: ext ≠ ['.', '.']) :
    extension ((dir.map (· ++ ['/'])).getD [] ++ (stem ++ '.' :: ext)) = some ext := by
  have hf : '/' ∉ stem ++ '.' :: ext := by simp [hss, hes]
  have hne : stem ++ '.' :: ext ≠ [] := by simp
  have hne1 : stem ++ '.' :: ext ≠ ['.'] := by
    intro h
    have := congrArg List.length h
    cases stem with
    | nil => exact hs rfl
    | cons a s => simp at this
  have hfn : fileName ((dir.map (· ++ ['/'])).getD [] ++ (stem ++ '.' :: ext))
      = some (stem ++ '.' :: ext) := by
    cases dir with
    | none =>
      simp only [Option.map_none, Option.getD_none, List.nil_append]
      generalize stem ++ '.' :: ext = w at hf hne hne1 hdots
      simp only [fileName, splitSlash_noslash hf]
      simp [hdots, hne, hne1]
    | some d =>
      obtain ⟨x, xs, hx⟩ := splitSlash_append d _ hf
      simp only [Option.map_some, Option.getD_some, List.append_assoc, List.singleton_append]
      exact fileName_last hx hne hne1 hdots
  simp only [extension, hfn, takeWhile_ext he]
  rw [if_pos]
  cases stem with
  | nil => exact absurd rfl hs
  | cons a s => simp only [List.cons_append, List.length_cons, List.length_append]; omega

/-- A name that only starts with a dot has no extension. -/
theorem hidden_file_no_extension (name : Str) (h : '.' ∉ name) (hs : '/' ∉ name) :
    extension ('.' :: name) = none := by
  by_cases hn : name = []
  · subst hn; decide
  · have hf : fileName ('.' :: name) = some ('.' :: name) := by
      have hd : name ≠ ['.'] := by rintro rfl; simp at h
      simp only [fileName, splitSlash_noslash (show '/' ∉ '.' :: name by simp [hs])]
      simp [hn, hd]
    have := takeWhile_ext (stem := []) h
    simp only [List.nil_append] at this
    simp only [extension, hf, this]
    simp

/-- C32: a file's format comes from its extension when none is given. -/
theorem format_inferred (parse : UrlParser) (dir : Option Str) (stem ext f : Str) (hs : stem ≠ [])
    (hss : '/' ∉ stem) (he : '.' ∉ ext) (hes : '/' ∉ ext) (hdots : stem ++ '.' :: ext ≠ ['.', '.'])
    (hf : extToFormat ext = some f)
    (hp : Plain parse ((dir.map (· ++ ['/'])).getD [] ++ (stem ++ '.' :: ext)))
    (hq : '=' ∉ (dir.map (· ++ ['/'])).getD [] ++ (stem ++ '.' :: ext))
    (hq' : '@' ∉ (dir.map (· ++ ['/'])).getD [] ++ (stem ++ '.' :: ext)) :
    ∃ i, Input.ofStr parse ((dir.map (· ++ ['/'])).getD [] ++ (stem ++ '.' :: ext)) = some i ∧
      i.format = f ∧ i.name = none := by
  have h := bare_form parse _ hq hq'
  simp only [Parsed, hp.trimmed, plain_is_file hp] at h
  refine ⟨_, h, ?_, rfl⟩
  simp [Locator.inferFormat, extension_spec dir stem ext hs hss he hes hdots, hf]

example : extToFormat ['y', 'm', 'l'] = some Fmt.yaml.str := by decide
example : extension ['.', 'j', 's', 'o', 'n'] = none := by decide
example : extension ['d', '/', 'x', '.', 'y', '.', 'e', 'u', '/'] = some ['e', 'u'] := by decide

end Verif.Input
