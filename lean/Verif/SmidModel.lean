/-!
# Source locations, closure descriptors and trace abbreviation

Transcription of `src/common/sourcemap.rs` and `src/eval/memory/infotable.rs`.
-/

namespace Verif.Smid

/-! `Smid`, sourcemap.rs:26: `Option<NonZeroU32>`, as the `u32` it converts to
(sourcemap.rs:44-61), a `Nat`; 0 is the invalid one. -/

def tag : Nat := 0x80000000

/-- `Smid::new`, sourcemap.rs:73-75: `none` is the panic (overflow of `index as u32 + 1`). -/
def new (index : Nat) : Option Nat :=
  if index % 2 ^ 32 + 1 < 2 ^ 32 then some (index % 2 ^ 32 + 1) else none

/-- `Smid::get`, sourcemap.rs:105-107. -/
def get (s : Nat) : Option Nat := if s = 0 then none else some (s - 1)

/-- `Smid::global_slot`, sourcemap.rs:135-137. -/
def globalSlot (slot : Nat) : Nat := tag ||| (slot &&& (2 ^ 32 - 1 - tag))

/-- `Smid::as_global_slot`, sourcemap.rs:142-151. -/
def asGlobalSlot (s : Nat) : Option Nat :=
  if s = 0 then none
  else if s &&& tag ≠ 0 then some (s &&& (2 ^ 32 - 1 - tag)) else none

/-- `Smid::is_source_location`, sourcemap.rs:92-94. -/
def isSourceLocation (s : Nat) : Bool := s ≠ 0 && (asGlobalSlot s).isNone

/-- `Span`: byte offsets. -/
structure Span where
  start : Nat
  stop : Nat
deriving DecidableEq, Repr

/-- `SourceInfo`, sourcemap.rs:188-195. -/
structure Info where
  file : Option Nat
  span : Option Span
  annotation : Option String
deriving DecidableEq, Repr

/-- `FrameKind`, src/common/diagnostic_json.rs:25-49. -/
inductive FrameKind where
  | user | boundary | transparent | force
deriving DecidableEq, Repr

/-- `SourceMap`, sourcemap.rs:199-251.  The hash tables are functions. -/
structure SourceMap where
  source : List Info := []
  resourceFile : Nat → Bool := fun _ => false
  blame : String → Option FrameKind := fun _ => none
  slotName : Nat → Option String := fun _ => none
  slotSpan : Nat → Option Span := fun _ => none
  preludeFile : Option Nat := none
  foreignFloor : Nat := 0

/-- `next_smid`, sourcemap.rs:260-262. -/
def SourceMap.nextSmid (m : SourceMap) : Option Nat := new (m.foreignFloor + m.source.length)

/-- `info_at`, sourcemap.rs:266-270. -/
def SourceMap.infoAt (m : SourceMap) (absolute : Nat) : Option Info :=
  if m.foreignFloor ≤ absolute then m.source[absolute - m.foreignFloor]? else none

/-- `source_info_for_smid`, sourcemap.rs:450-466. -/
def SourceMap.lookup (m : SourceMap) (s : Nat) : Option Info :=
  if (asGlobalSlot s).isSome then none
  else (get s).bind m.infoAt

/-- Pushing an entry and returning its handle: the body shared by `add`, `add_annotated`,
`add_synthetic` and `annotated`. -/
def SourceMap.push (m : SourceMap) (i : Info) : Option (Nat × SourceMap) :=
  m.nextSmid.map fun s => (s, { m with source := m.source ++ [i] })

/-- `add`, sourcemap.rs:325-333. -/
def SourceMap.add (m : SourceMap) (file : Nat) (span : Span) : Option (Nat × SourceMap) :=
  m.push ⟨some file, some span, none⟩

/-- `add_annotated`, sourcemap.rs:404-412. -/
def SourceMap.addAnnotated (m : SourceMap) (file : Nat) (span : Span) (ann : String) : Option (Nat × SourceMap) :=
  m.push ⟨some file, some span, some ann⟩

/-- `add_synthetic`, sourcemap.rs:415-423. -/
def SourceMap.addSynthetic (m : SourceMap) (ann : String) : Option (Nat × SourceMap) :=
  m.push ⟨none, none, some ann⟩

/-- `annotated`, sourcemap.rs:427-444. -/
def SourceMap.annotated (m : SourceMap) (s : Nat) (ann : String) : Option (Nat × SourceMap) :=
  m.push (match m.lookup s with
    | some i => { i with annotation := some ann }
    | none => ⟨none, none, some ann⟩)

/-- `merge`, sourcemap.rs:359-382.  `Span::new(start, end)` requires `start ≤ end`, which holds
for spans made that way. -/
def SourceMap.merge (m : SourceMap) (first second : Nat) : Option (Nat × SourceMap) :=
  match m.lookup first, m.lookup second with
  | some a, some b =>
    match a.file, a.span, b.span with
    | some file, some aSpan, some bSpan =>
      if a.file ≠ b.file then some (first, m)
      else
        let span : Span := ⟨min aSpan.start bSpan.start, max aSpan.stop bSpan.stop⟩
        match a.annotation.or b.annotation with
        | some ann => m.addAnnotated file span ann
        | none => m.add file span
    | _, _, _ => some (first, m)
  | _, _ => some (first, m)

/-- `reserve_foreign_range`, sourcemap.rs:309-322: `none` is the failed assertion. -/
def SourceMap.reserve (m : SourceMap) (highest : Nat) : Option SourceMap :=
  if (asGlobalSlot highest).isSome then some m
  else if highest ≤ m.foreignFloor then some m
  else if m.source = [] then some { m with foreignFloor := highest }
  else none

/-- `mark_resource_file`, `set_prelude_file`, sourcemap.rs:533-535, 575-578. -/
def SourceMap.markResource (m : SourceMap) (file : Nat) : SourceMap :=
  { m with resourceFile := fun f => if f = file then true else m.resourceFile f }

def SourceMap.setPreludeFile (m : SourceMap) (file : Nat) : SourceMap :=
  { m.markResource file with preludeFile := some file }

/-- `is_user_file`, sourcemap.rs:539-541. -/
def SourceMap.isUserFile (m : SourceMap) (file : Nat) : Bool := !m.resourceFile file

/-- `global_slot_info`, sourcemap.rs:601-613. -/
def SourceMap.globalSlotInfo (m : SourceMap) (s : Nat) : Option Info :=
  (asGlobalSlot s).bind fun slot =>
    (m.slotName slot).map fun name =>
      { file := (m.slotSpan slot).bind fun _ => m.preludeFile
        span := m.preludeFile.bind fun _ => m.slotSpan slot
        annotation := some name }

/-- `classify_frame`, sourcemap.rs:634-657. -/
def SourceMap.classify (m : SourceMap) (s : Nat) : FrameKind :=
  match m.lookup s with
  | some info =>
    if (info.file.any m.isUserFile) then .user
    else (info.annotation.bind m.blame).getD .transparent
  | none => (((asGlobalSlot s).bind m.slotName).bind m.blame).getD .transparent

/-- `first_source_smid`, sourcemap.rs:664-672. -/
def SourceMap.firstSource (m : SourceMap) (trace : List Nat) : Option Nat :=
  trace.find? fun s => match m.lookup s with
    | some i => i.file.isSome && i.span.isSome
    | none => false

/-- `first_user_source_smid`, sourcemap.rs:679-691. -/
def SourceMap.firstUser (m : SourceMap) (trace : List Nat) : Option Nat :=
  trace.find? fun s => match m.lookup s with
    | some i => match i.file with
      | some f => i.span.isSome && m.isUserFile f
      | none => false
    | none => false

/-! ## Closure descriptors, src/eval/memory/infotable.rs -/

/-- `InfoFlags::new`, infotable.rs:16-23. -/
def flags (update : Bool) (arity : Nat) (annotation : Nat) : Nat :=
  let value := (annotation <<< 32) ||| (arity <<< 24)
  if update then value + 1 else value

/-- `update`, `arity`, `annotation`, infotable.rs:27-37. -/
def flagsUpdate (w : Nat) : Bool := w &&& 1 == 1
def flagsArity (w : Nat) : Nat := ((w &&& 0xff000000) >>> 24) % 256
def flagsAnnotation (w : Nat) : Nat := (w >>> 32) % 2 ^ 32

/-! ## Abbreviating traces -/

/-- `CycleRun`, sourcemap.rs:847-850. -/
structure Run (α : Type) where
  pattern : List α
  count : Nat
deriving Repr

variable {α : Type} [DecidableEq α]

/-- The inner `while`, sourcemap.rs:885-888: how many further times the pattern occurs at the
front, and what follows. -/
def repeats (pat : List α) (xs : List α) : Nat × List α :=
  if h : pat ≠ [] ∧ pat.length ≤ xs.length ∧ xs.take pat.length = pat then
    let r := repeats pat (xs.drop pat.length)
    (r.1 + 1, r.2)
  else (0, xs)
termination_by xs.length
decreasing_by
  have := List.length_pos_iff.mpr h.1
  have := h.2.1
  simp only [List.length_drop]; omega

/-- The `for` loop over pattern lengths, sourcemap.rs:880-898, for lengths `len, len + 1, …`,
`fuel` of them: a run and the rest, or `none` if no pattern repeats. -/
def tryPatterns (xs : List α) : (fuel len : Nat) → Option (Run α × List α)
  | 0, _ => none
  | fuel + 1, len =>
    let pattern := xs.take len
    let r := repeats pattern (xs.drop len)
    if 2 ≤ 1 + r.1 then some (⟨pattern, 1 + r.1⟩, r.2) else tryPatterns xs fuel (len + 1)

theorem repeats_length (pat xs : List α) : (repeats pat xs).2.length ≤ xs.length := by
  induction xs using repeats.induct (pat := pat) with
  | case1 xs h ih =>
    rw [repeats, dif_pos h]
    simp only [List.length_drop] at ih ⊢
    omega
  | case2 xs h => rw [repeats, dif_neg h]; exact Nat.le_refl _

theorem tryPatterns_length {xs : List α} {fuel len : Nat} {r : Run α} {rest : List α} (hl : 0 < len) (hx : xs ≠ [])
    (h : tryPatterns xs fuel len = some (r, rest)) : rest.length < xs.length := by
  induction fuel generalizing len with
  | zero => cases h
  | succ n ih =>
    rw [tryPatterns] at h
    split at h
    · injection h with h
      injection h with _ h; subst h
      have := repeats_length (xs.take len) (xs.drop len)
      have := List.length_pos_iff.mpr hx
      simp only [List.length_drop] at *
      omega
    · exact ih (by omega) h

/-- `compress_cycles`, sourcemap.rs:866-913. -/
def compress (xs : List α) : List (Run α) :=
  match xs with
  | [] => []
  | x :: xs' =>
    match _h : tryPatterns (x :: xs') (min ((x :: xs').length / 2) 8) 1 with
    | some (r, rest) => r :: compress rest
    | none => ⟨[x], 1⟩ :: compress xs'
termination_by xs.length
decreasing_by
  · exact tryPatterns_length (by decide) (by simp) _h
  · simp

/-- The line for the elided frames: their number and how often the pattern occurs,
sourcemap.rs:937-943. -/
inductive Line (α : Type) where
  | frame (x : α)
  | elided (frames repetition : Nat)
deriving DecidableEq, Repr

/-- `compress_trace_cycles`, sourcemap.rs:924-948. -/
def compressTrace (xs : List α) : List (Line α) :=
  if xs.length < 2 then xs.map .frame
  else (compress xs).flatMap fun r =>
    r.pattern.map .frame ++
      if 2 ≤ r.count then [.elided ((r.count - 1) * r.pattern.length) r.count] else []

/-! ## Curating traces, src/eval/error.rs -/

/-- `FramePosition` and `frame_position`, error.rs:51-60: file, start of the span, name. -/
def SourceMap.position (m : SourceMap) (s : Nat) : Option (Option Nat × Option Nat × Option String) :=
  (m.lookup s).map fun i => (i.file, i.span.map (·.start), i.annotation)

/-- The demand site, error.rs:131-143: the index of the first user frame, if some later frame is
not a user frame. -/
def demandSite (raw : List (Nat × FrameKind)) : Option Nat :=
  (raw.findIdx? (fun p => p.2 == .user)).filter fun i => (raw.drop (i + 1)).any fun p => p.2 != .user

/-- The `filter_map`, error.rs:145-170: frames from index `i` on, `prev` being the last recorded
position. -/
def SourceMap.keepFrames (m : SourceMap) (site : Option Nat) :
    Option (Option Nat × Option Nat × Option String) → Nat → List (Nat × FrameKind) → List (Nat × FrameKind)
  | _, _, [] => []
  | prev, i, (s, k) :: rest =>
    if k = .transparent then m.keepFrames site prev (i + 1) rest
    else
      let pos := m.position s
      if pos.isSome ∧ pos = prev then m.keepFrames site prev (i + 1) rest
      else (if some i = site then (s, .force) else (s, k)) :: m.keepFrames site pos (i + 1) rest

/-- `CuratedTrace`, error.rs:25-40. -/
structure Curated where
  frames : List (Nat × FrameKind)
  primary : Option Nat
deriving DecidableEq, Repr

/-- `curate`, error.rs:108-192.  The count of dropped frames, used in debugging only, is left
out. -/
def SourceMap.curate (m : SourceMap) (raw : List Nat) (budget : Nat) (rule : Bool) : Curated :=
  let classified := raw.map fun s => (s, m.classify s)
  let site := if rule then demandSite classified else none
  let kept := m.keepFrames site none 0 classified
  let collapsed := (compress kept).flatMap (·.pattern)
  { frames := collapsed.take budget
    primary := if site.isSome then none else (collapsed.find? fun p => p.2 == .user).map (·.1) }

/-- `curate_trace`, `curate_stack_trace`, error.rs:75-77, 104-106. -/
def SourceMap.curateTrace (m : SourceMap) (raw : List Nat) (budget : Nat) : Curated := m.curate raw budget false
def SourceMap.curateStack (m : SourceMap) (raw : List Nat) (budget : Nat) : Curated := m.curate raw budget true

/-- `curate_trace_with_env`, error.rs:217-246. -/
def SourceMap.curateWithEnv (m : SourceMap) (stack env : List Nat) (budget : Nat) : Curated :=
  let c := m.curateStack stack budget
  let hasUser := c.frames.any fun p => p.2 == .user || p.2 == .force
  let hasBoundary := c.frames.any fun p => p.2 == .boundary
  if !hasUser || hasBoundary then c
  else
    match (m.curateTrace env budget).frames.find? fun p => p.2 == .boundary with
    | some f => { c with frames := (f :: c.frames).take budget }
    | none => c

/-- The choice of the location blamed for an error, error.rs:1256-1262: the stack trace's
candidate, failing which the scope trace's. -/
def SourceMap.blamed (m : SourceMap) (stack env : List Nat) (budget : Nat) : Option Nat :=
  (m.curateStack stack budget).primary.or (m.curateTrace env budget).primary

end Verif.Smid
