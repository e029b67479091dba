import Verif.ParProper

/-!
# The parallel map: one result, no bad handle, nothing outside a segment, and what it shows

The specification of what is shown is in `ParSpec`.
-/

namespace Verif.Par

/-! ## C74: the same wherever and however it is run -/

/-- However many workers there are, whether they may be forked, can be forked, die, run out of room or read a stream, and in
whatever order their writes reach the memory: the parallel map has the same outcome, value or error.  `n1` and `n2` are fuel:
enough of it exists for every call. -/
theorem par_same (ap : Clo → Clo → Clo) (f xs : Clo) (w : Bool) : ∃ N, ∀ (h1 h2 : Host) (n1 n2 : Nat) (m1 m2 m1' m2' : M)
    (r1 r2 : Except Fault Clo), N ≤ n1 → N ≤ n2 → h1.strict = false → h2.strict = false → h1.toTexts = h2.toTexts →
    m1.worker = w → m2.worker = w → ParMap h1 ap n1 f xs m1 (r1, m1') → ParMap h2 ap n2 f xs m2 (r2, m2') → r1 = r2 := by
  refine ⟨enough ap f xs w, ?_⟩
  intro h1 h2 n1 n2 m1 m2 m1' m2' r1 r2 hn1 hn2 hs1 hs2 ht hw1 hw2 hr1 hr2
  subst hw1
  rw [← hw2] at hn2
  rw [(parMap_pure hn1 hs1 hr1).1, (parMap_pure hn2 hs2 hr2).1, ht, hw2]

/-- There is an outcome. -/
theorem par_ends (h : Host) (ap : Clo → Clo → Clo) (n : Nat) (f xs : Clo) (m : M) : ∃ q, ParMap h ap n f xs m q :=
  parMap_total h ap n f xs m

/-- Two machines that fork nothing and that fork four workers. -/
def alone : Host := ⟨⟨fun _ => "", fun _ => none⟩, fun _ => 1, false, false, false, fun _ => .runs, false⟩
def four : Host := ⟨⟨fun _ => "", fun _ => none⟩, fun _ => 4, true, true, true, fun _ => .runs, false⟩

/-- A list of five numbers, the third of which is read from a stream; and a machine. -/
def five : Clo := .cons (.nat (.num (.pos 1))) (.cons .tt (.cons (.pull (.nat (.num (.pos 3)))) (.cons .ff (.cons .unit .nil))))
def start : M := ⟨0, [], none, false⟩

example : ∃ N, ∀ n, N ≤ n → ∀ r1 r2 m1' m2',
    ParMap alone (fun _ x => x) n .unit five start (r1, m1') → ParMap four (fun _ x => x) n .unit five start (r2, m2') → r1 = r2 := by
  obtain ⟨N, h⟩ := par_same (fun _ x => x) .unit five false
  exact ⟨N, fun n hn r1 r2 m1' m2' h1 h2 => h alone four n n start start m1' m2' r1 r2 hn hn rfl rfl rfl rfl rfl h1 h2⟩

/-! ## C75: nothing outside a segment -/

/-- Whatever is in the shared memory — a worker may have been ended in the middle of a write, or have gone wrong — every record
the parent reads lies in the segment, after its count; and the records do not overlap. -/
theorem reader_within (mem : Mem) (seg k : Nat) : ∀ r ∈ reader mem seg k, k * seg + 16 ≤ r.1 ∧ r.1 + r.2 ≤ k * seg + seg := by
  have hrec : ∀ (n cursor last : Nat), ∀ r ∈ records mem last n cursor, cursor + 8 ≤ r.1 ∧ r.1 + r.2 ≤ last := by
    intro n
    induction n with
    | zero => intro c l r h; cases h
    | succ n ih =>
      intro c l r h
      simp only [records] at h
      split at h
      · cases h
      · split at h
        · cases h
        · rcases List.mem_cons.1 h with rfl | h
          · exact ⟨Nat.le_refl _, by dsimp only; omega⟩
          · have := ih _ _ r h; omega
  intro r h
  have := hrec _ _ _ r h
  omega

theorem reader_apart (mem : Mem) (seg k : Nat) : (reader mem seg k).Pairwise fun a b => a.1 + a.2 ≤ b.1 := by
  have hge : ∀ (n cursor last : Nat), ∀ r ∈ records mem last n cursor, cursor ≤ r.1 := by
    intro n
    induction n with
    | zero => intro c l r h; cases h
    | succ n ih =>
      intro c l r h
      simp only [records] at h
      split at h
      · cases h
      · split at h
        · cases h
        · rcases List.mem_cons.1 h with rfl | h
          · dsimp only; omega
          · have := ih _ _ r h; omega
  have hrec : ∀ (n cursor last : Nat), (records mem last n cursor).Pairwise fun a b => a.1 + a.2 ≤ b.1 := by
    intro n
    induction n with
    | zero => intro c l; exact .nil
    | succ n ih =>
      intro c l
      simp only [records]
      split
      · exact .nil
      · split
        · exact .nil
        · exact .cons (fun r h => by have := hge _ _ _ r h; exact this) (ih _ _)
  exact hrec _ _ _

/-- All of some buffers pushed. -/
def pushAll : List Bytes → Writer → Option Writer
  | [], w => some w
  | b :: bs, w => (w.push b).bind (pushAll bs)

theorem pushAll_wrote {seg k : Nat} : ∀ (bs done : List Bytes) (w w' : Writer), Wrote seg k done w → pushAll bs w = some w' →
    Wrote seg k (done ++ bs) w'
  | [], done, w, w', h, hp => by cases hp; simpa using h
  | b :: bs, done, w, w', h, hp => by
    simp only [pushAll] at hp
    cases hb : w.push b with
    | none => rw [hb] at hp; cases hp
    | some w1 =>
      rw [hb] at hp
      have := pushAll_wrote bs (done ++ [b]) w1 w' (wrote_push h hb) hp
      simpa using this

/-- Whatever a worker pushes, it writes to its own segment only. -/
theorem writer_within {seg k : Nat} (hs : 16 ≤ seg) (bs : List Bytes) (w : Writer) (h : pushAll bs (writer seg k) = some w) :
    ∀ x ∈ w.finish, k * seg ≤ x.at_ ∧ x.at_ + x.bytes.length ≤ k * seg + seg :=
  finish_within (by simpa using pushAll_wrote bs [] _ w (wrote_new hs) h) hs

/-- What each worker pushed is what is read from its segment, whatever was in the memory before and in whatever order the writes
of all the workers reach it. -/
theorem arena_back {seg : Nat} (hs : 16 ≤ seg) (hl : seg < 2 ^ 64) (bufs : List (List Bytes)) (ws : List Writer)
    (hlen : ws.length = bufs.length)
    (hw : ∀ (k : Nat) (w : Writer) (b : List Bytes), ws[k]? = some w → bufs[k]? = some b → pushAll b (writer seg k) = some w)
    (log : List Write) (hlog : Interleave (ws.map Writer.finish) log) (mem : Mem) :
    ∀ (k : Nat) (b : List Bytes), bufs[k]? = some b →
      (reader (log.foldl Mem.write mem) seg k).map (fun r => (log.foldl Mem.write mem).slice r.1 r.2) = b := by
  have hwrote : ∀ (k : Nat) (w : Writer), ws[k]? = some w → ∃ b, bufs[k]? = some b ∧ Wrote seg k b w := by
    intro k w hk
    have : k < bufs.length := by
      have := (List.getElem?_eq_some_iff.1 hk).1
      omega
    have hb : bufs[k]? = some bufs[k] := List.getElem?_eq_getElem this
    exact ⟨_, hb, by simpa using pushAll_wrote _ [] _ w (wrote_new hs) (hw k w _ hk hb)⟩
  intro k b hb
  have hk : k < ws.length := by
    have := (List.getElem?_eq_some_iff.1 hb).1
    omega
  have hwk : ws[k]? = some ws[k] := List.getElem?_eq_getElem hk
  obtain ⟨b', hb', h2⟩ := hwrote k _ hwk
  rw [hb] at hb'
  cases hb'
  have hfit : 8 + (frames b).length ≤ seg := by
    have := h2.fits
    rw [h2.cursor, h2.last] at this
    omega
  refine reader_holds hl (holds_congr (finish_holds h2 mem) ?_) hfit
  intro a ha1 ha2
  refine interleave_local hlog ?_ _ k _ a ?_ ha1 ?_
  · intro j x hx
    rw [List.getElem?_map] at hx
    obtain ⟨w, hw', rfl⟩ := Option.map_eq_some_iff.1 hx
    obtain ⟨_, _, h3⟩ := hwrote j w hw'
    exact finish_within h3 hs
  · rw [List.getElem?_map, hwk]; rfl
  · simp only [List.length_append, le_len] at ha2; omega

/-- Two workers with two and one buffers in segments of forty bytes. -/
example : ∃ w0 w1, pushAll [[1, 2], [3]] (writer 40 0) = some w0 ∧ pushAll [[4, 5, 6]] (writer 40 1) = some w1 ∧
    pushAll [List.replicate 25 0] (writer 40 1) = none := ⟨_, _, rfl, rfl, by decide⟩

/-! ## C77: no bad handle, and the root set as it was -/

/-- However it is run, no handle that the collector has left behind is used, no root is read that is not there, and the work
never runs out; and when it ends, with a value or with an error, the root set is what it was. -/
theorem par_handles (ap : Clo → Clo → Clo) (f xs : Clo) (w : Bool) : ∃ N, ∀ (h : Host) (n : Nat) (m m' : M) (r : Except Fault Clo),
    N ≤ n → h.strict = false → m.worker = w → ParMap h ap n f xs m (r, m') →
    (∀ e, r = .error e → e.Proper) ∧ m'.roots = m.roots ∧ m'.worker = m.worker := by
  refine ⟨enough ap f xs w, ?_⟩
  intro h n m m' r hn hs hw hr
  subst hw
  obtain ⟨h1, h2, h3⟩ := parMap_pure hn hs hr
  exact ⟨fun e he => pureMap_proper (h1.symm.trans he), h2, h3⟩

/-- A list that is not one: an error of the program. -/
example : ∃ N, ∀ n, N ≤ n → ∀ r m', ParMap four (fun _ x => x) n .unit .tt start (r, m') → ∀ e, r = .error e → e.Proper := by
  obtain ⟨N, h⟩ := par_handles (fun _ x => x) .unit .tt false
  exact ⟨N, fun n hn r m' hr => (h four n start m' r hn rfl rfl hr).1⟩

/-! ## C76: it shows what `map` shows -/

/-- The list that `map` gives: each element with the function applied to it, nothing evaluated. -/
def mapped (ap : Clo → Clo → Clo) (f : Clo) (es : List Clo) : Clo := (es.map (ap f)).foldr .cons .nil

/-- The parallel map shows what `map` shows, for results of some kind `Q`: wherever the elements can be had and each result can be
shown. -/
def ParShows (Q : Texts → Clo → Prop) : Prop := ∀ (ap : Clo → Clo → Clo) (f xs : Clo) (es : List Clo) (τ : Texts),
  elements xs = some es → (∀ x ∈ es, ∃ d, shown (ap f x) = some d) → (∀ x ∈ es, Q τ (ap f x)) →
  ∃ N, ∀ (h : Host) (n : Nat) (m m' : M) (r : Except Fault Clo), N ≤ n → h.toTexts = τ → h.strict = false → m.worker = false →
    ParMap h ap n f xs m (r, m') → ∃ v, r = .ok v ∧ shown v = shown (mapped ap f es)

/-- Shown so far: for tame results within the limits.  Missing: everything else, of which it is false, see below. -/
theorem par_shows_partial : ParShows fun τ c => tame c = true ∧ ∀ d, shown c = some d → Fits τ d := by
  intro ap f xs es τ hes hshow hQ
  refine ⟨enough ap f xs false, ?_⟩
  intro h n m m' r hn ht hs hw hr
  rw [← hw] at hn
  obtain ⟨h1, _, _⟩ := parMap_pure hn hs hr
  rw [hw] at h1
  subst ht
  have hall : ∀ es : List Clo, (∀ x ∈ es, ∃ d, shown (ap f x) = some d) →
      (∀ x ∈ es, tame (ap f x) = true ∧ ∀ d, shown (ap f x) = some d → Fits h.toTexts d) →
      ∃ vs, allOf (es.map fun x => again h.toTexts false (ap f x)) = .ok vs ∧ items (buildList vs) = items (mapped ap f es) := by
    intro es
    induction es with
    | nil => intro _ _; exact ⟨[], rfl, rfl⟩
    | cons x es ih =>
      intro hsh hq
      obtain ⟨d, hd⟩ := hsh x (List.mem_cons_self ..)
      obtain ⟨ht, hf⟩ := hq x (List.mem_cons_self ..)
      obtain ⟨vs, h1, h2⟩ := ih (fun y hy => hsh y (List.mem_cons_of_mem _ hy)) (fun y hy => hq y (List.mem_cons_of_mem _ hy))
      refine ⟨build d :: vs, ?_, ?_⟩
      · simp only [List.map_cons, again_shown ht hd (hf d hd), allOf, h1]
      · unfold buildList mapped at h2
        simp only [buildList, mapped, List.map_cons, List.foldr_cons, items, h2, shown_build _ d (hf d hd), hd]
  obtain ⟨vs, hv, hi⟩ := hall es hshow hQ
  refine ⟨buildList vs, ?_, ?_⟩
  · rw [h1, pureMap, spine_ok hes]
    simp only [hv, listOf]
  · have : mapped ap f es = buildList (es.map (ap f)) := rfl
    rw [shown_list, hi, this, shown_list]

/-- Numbers and a documented block, one of them read from a stream. -/
def goods : Clo := .cons (.pull (.box .number (.nat (.num (.pos 7))))) (.cons (.ann (.box .string (.nat (.str "doc")))
  (.block (.cons (.pair (.nat (.sym "a")) .tt) .nil))) .nil)

example : ∃ es, elements goods = some es ∧ es.length = 2 ∧ (∀ x ∈ es, (shown x).isSome = true ∧ tame x = true) ∧
    ∀ τ, ∀ x ∈ es, ∀ d, shown x = some d → Fits τ d := by
  refine ⟨_, rfl, rfl, ?_, ?_⟩
  · intro x hx
    simp only [List.mem_cons, List.not_mem_nil, or_false] at hx
    rcases hx with rfl | rfl <;> exact ⟨rfl, rfl⟩
  · intro τ x hx d hd
    have short : ∀ s : String, s.toUTF8.size < 4294967296 → Short s := fun s h => h
    simp only [List.mem_cons, List.not_mem_nil, or_false] at hx
    rcases hx with rfl | rfl
    · cases hd; trivial
    · cases hd
      exact ⟨short _ (by decide +kernel), by simp [Entries.length], short _ (by decide +kernel), trivial, trivial⟩

/-! ### Where it is false -/

theorem again_eval {τ : Texts} {c c' : Clo} (h : eval false c none = eval false c' none) : again τ false c = again τ false c' := by
  rw [again, again, enc_eval h]

/-- One element, not changed: what becomes of it. -/
theorem one {τ : Texts} {c : Clo} {Q : Texts → Clo → Prop} (h : ParShows Q) (hq : Q τ c) {d : Shown} (hd : shown c = some d) :
    ∃ v, again τ false c = .ok v ∧ shown v = some d := by
  obtain ⟨N, hN⟩ := h (fun _ x => x) .unit (.cons c .nil) [c] τ rfl
    (fun x hx => by simp only [List.mem_cons, List.not_mem_nil, or_false] at hx; subst hx; exact ⟨d, hd⟩)
    (fun x hx => by simp only [List.mem_cons, List.not_mem_nil, or_false] at hx; subst hx; exact hq)
  let host : Host := ⟨τ, fun _ => 1, false, false, false, fun _ => .runs, false⟩
  let n := max N (enough (fun _ x => x) .unit (.cons c .nil) false)
  obtain ⟨⟨r, m'⟩, hr⟩ := parMap_total host (fun _ x => x) n .unit (.cons c .nil) start
  obtain ⟨v, hv, hs⟩ := hN host n start m' r (Nat.le_max_left ..) rfl rfl rfl hr
  have h1 := (parMap_pure (m := start) (Nat.le_max_right ..) rfl hr).1
  have hsw : start.worker = false := rfl
  rw [hv, pureMap, hsw, spine_ok (xs := [c]) rfl] at h1
  simp only [List.map_cons, List.map_nil] at h1
  have hτ : host.toTexts = τ := rfl
  rw [hτ] at h1
  cases ha : again τ false c with
  | error e => rw [ha] at h1; cases h1
  | ok u =>
    rw [ha] at h1
    cases h1
    refine ⟨u, rfl, ?_⟩
    simp only [buildList, mapped, List.map_cons, List.map_nil, List.foldr_cons, List.foldr_nil, shown, items, hd] at hs
    cases hu : shown u with
    | none => rw [hu] at hs; cases hs
    | some y => rw [hu] at hs; cases hs; rfl

/-- A text of four gigabytes. -/
theorem long_text : ∃ s : String, s.toUTF8.size = 2 ^ 32 := by
  have : ∀ n, ∃ s : String, s.toUTF8.size = n := by
    intro n
    induction n with
    | zero => exact ⟨"", rfl⟩
    | succ n ih =>
      obtain ⟨s, hs⟩ := ih
      refine ⟨s.push 'a', ?_⟩
      have h : ∀ t : String, t.toUTF8.size = t.utf8ByteSize := fun t => rfl
      rw [h, String.utf8ByteSize_push, ← h, hs]
      rfl
  exact this _

def texts : Texts := ⟨fun _ => "", fun _ => none⟩

/-- A block made from lists of a key and a value, as by `block`, is refused. -/
theorem par_block_refused : ¬ ParShows fun _ c => c = .block (.cons (.kvlist (.cons (.nat (.sym "a")) (.cons .tt .nil))) .nil) := by
  intro h
  obtain ⟨v, h1, _⟩ := one (τ := texts) h rfl (d := .block (.cons (.sym "a") (.bool true) .nil)) rfl
  have he : again texts false (.block (.cons (.kvlist (.cons (.nat (.sym "a")) (.cons .tt .nil))) .nil)) = .error .notSerialisable := by
    rw [again, enc_value rfl, encV]
    simp only [eval]
    rw [encPairs]
    simp only [eval]
    rfl
  rw [he] at h1
  cases h1

/-- Of two layers of metadata the outer one is lost. -/
theorem par_meta_stack : ¬ ParShows fun _ c => c = .ann .tt (.ann .ff .unit) := by
  intro h
  obtain ⟨v, h1, h2⟩ := one (τ := texts) h rfl (d := .ann (.bool true) (.ann (.bool false) .null)) rfl
  rw [again_eval (c := .ann .tt (.ann .ff .unit)) (c' := .ann .ff .unit) rfl, again_shown (d := .ann (.bool false) .null) rfl rfl ⟨trivial, trivial⟩] at h1
  cases h1
  cases h2

/-- Metadata is lost when an intrinsic on the way to the value forces another. -/
theorem par_meta_lost : ¬ ParShows fun _ c => c = .ann .tt (.run .unit .ff) := by
  intro h
  obtain ⟨v, h1, h2⟩ := one (τ := texts) h rfl (d := .ann (.bool true) (.bool false)) rfl
  rw [again_eval (c := .ann .tt (.run .unit .ff)) (c' := .ff) rfl, again_shown (d := .bool false) rfl rfl trivial] at h1
  cases h1
  cases h2

/-- A value takes on the metadata of another that was forced on the way to it. -/
theorem par_meta_gained : ¬ ParShows fun _ c => c = .run (.ann .tt .unit) .ff := by
  intro h
  obtain ⟨v, h1, h2⟩ := one (τ := texts) h rfl (d := .bool false) rfl
  rw [again_eval (c := .run (.ann .tt .unit) .ff) (c' := .ann .tt .ff) rfl, again_shown (d := .ann (.bool true) (.bool false)) rfl rfl ⟨trivial, trivial⟩] at h1
  cases h1
  cases h2

/-- A text of four gigabytes comes back empty. -/
theorem par_text_cut : ¬ ParShows fun _ c => ∃ s, c = .nat (.str s) ∧ s.toUTF8.size = 2 ^ 32 := by
  intro h
  obtain ⟨s, hs⟩ := long_text
  obtain ⟨v, h1, h2⟩ := one (τ := texts) (c := .nat (.str s)) h ⟨s, rfl, hs⟩ (d := .str s) rfl
  have hb : lenBytes s = lenBytes "" ++ utf8 s := by
    have h4 : le 4 (2 ^ 32) = le 4 0 := by decide
    have h5 : lenBytes "" = le 4 0 := by decide +kernel
    rw [h5, lenBytes, utf8_len, hs, h4]
  have hshort : Short "" := by show "".toUTF8.size < 4294967296; decide +kernel
  rw [again, enc_value rfl, encV, encScalar] at h1
  simp only [hb, List.length_cons, dec, readLe_one, bind, Except.bind] at h1
  simp [readStr_app hshort] at h1
  subst h1
  have hempty : s = "" := by
    have : some (Shown.str "") = some (Shown.str s) := h2
    cases this
    rfl
  subst hempty
  exact absurd hs (by decide +kernel)

end Verif.Par
