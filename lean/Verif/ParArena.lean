import Verif.ParEnc

/-!
# Proofs only.

The shared memory: what the workers write is what is read, in whatever order their writes come about.
-/

namespace Verif.Par

/-! ## Numbers as bytes -/

theorem unLe_le : ∀ (k n : Nat), unLe (le k n) = n % 256 ^ k
  | 0, n => by simp [le, unLe, Nat.mod_one]
  | k + 1, n => by
    simp only [le, unLe, unLe_le k, UInt8.toNat_ofNat']
    rw [show 256 ^ (k + 1) = 256 * 256 ^ k by rw [Nat.pow_succ, Nat.mul_comm], Nat.mod_mul]

/-! ## Chunks -/

theorem chunk_first (n w : Nat) : (chunkBounds n w 0).1 = 0 := by simp [chunkBounds]

theorem chunk_next (n w i : Nat) : (chunkBounds n w (i + 1)).1 = (chunkBounds n w i).2 := by
  simp only [chunkBounds, Nat.succ_mul]
  split <;> omega

theorem chunk_le (n w i : Nat) : (chunkBounds n w i).1 ≤ (chunkBounds n w i).2 := Nat.le_add_right ..

theorem chunk_last {n w : Nat} (h : 0 < w) : (chunkBounds n w w).1 = n := by
  have := Nat.mod_lt n h
  simp only [chunkBounds]
  rw [Nat.min_eq_right (by omega), Nat.div_add_mod n w]

theorem chunk_start_le {n w : Nat} (h : 0 < w) {i : Nat} (hi : i < w) : (chunkBounds n w i).2 ≤ n := by
  obtain ⟨d, hd⟩ : ∃ d, w = i + 1 + d := ⟨w - (i + 1), by omega⟩
  have hmono : ∀ d, (chunkBounds n w (i + 1)).1 ≤ (chunkBounds n w (i + 1 + d)).1 := by
    intro d
    induction d with
    | zero => exact Nat.le_refl _
    | succ d ih =>
      refine Nat.le_trans ih ?_
      have := chunk_next n w (i + 1 + d)
      have h2 := chunk_le n w (i + 1 + d)
      rw [show i + 1 + (d + 1) = i + 1 + d + 1 by omega]
      omega
  have h1 := hmono d
  rw [← chunk_next, ← hd] at *
  rw [← hd] at h1
  rw [chunk_last h] at h1
  exact h1

/-- The chunk of a list. -/
def chunk {α : Type} (xs : List α) (n w i : Nat) : List α :=
  (xs.drop (chunkBounds n w i).1).take ((chunkBounds n w i).2 - (chunkBounds n w i).1)

theorem chunks_upto {α : Type} (xs : List α) (n w : Nat) : ∀ k,
    ((List.range k).map (chunk xs n w)).flatten = xs.take (chunkBounds n w k).1
  | 0 => by simp [chunk_first]
  | k + 1 => by
    rw [List.range_succ, List.map_append, List.flatten_append, chunks_upto xs n w k, chunk_next]
    simp only [List.map_cons, List.map_nil, List.flatten_cons, List.flatten_nil, List.append_nil, chunk]
    have := chunk_le n w k
    rw [← List.take_append_drop (chunkBounds n w k).1 (xs.take (chunkBounds n w k).2)]
    rw [List.take_take, Nat.min_eq_left this, List.drop_take]

theorem chunks_all {α : Type} (xs : List α) {w : Nat} (h : 0 < w) :
    ((List.range w).map (chunk xs xs.length w)).flatten = xs := by
  rw [chunks_upto, chunk_last h, List.take_length]

/-! ## Writes -/

/-- The bytes lie at a place. -/
def Holds (mem : Mem) (a : Nat) (bs : Bytes) : Prop := ∀ (j : Nat) (h : j < bs.length), mem (a + j) = bs[j]

theorem slice_holds {mem : Mem} {a : Nat} {bs : Bytes} (h : Holds mem a bs) : mem.slice a bs.length = bs := by
  apply List.ext_getElem
  · simp [Mem.slice]
  · intro i h1 h2
    simp only [Mem.slice, List.getElem_map, List.getElem_range]
    exact h i h2

theorem holds_append {mem : Mem} {a : Nat} {bs cs : Bytes} : Holds mem a (bs ++ cs) ↔ Holds mem a bs ∧ Holds mem (a + bs.length) cs := by
  constructor
  · intro h
    refine ⟨fun j hj => ?_, fun j hj => ?_⟩
    · have := h j (by simp; omega)
      rw [this, List.getElem_append_left hj]
    · have := h (bs.length + j) (by simp; omega)
      rw [Nat.add_assoc, this, List.getElem_append_right (by omega)]
      simp
  · intro ⟨h1, h2⟩ j hj
    by_cases hb : j < bs.length
    · rw [h1 j hb, List.getElem_append_left hb]
    · have := h2 (j - bs.length) (by simp at hj; omega)
      rw [List.getElem_append_right (by omega), ← this]
      congr 1; omega

theorem write_in (mem : Mem) (w : Write) : Holds (mem.write w) w.at_ w.bytes := by
  intro j hj
  have h1 : w.at_ + j - w.at_ = j := by omega
  simp [Mem.write, h1, hj]

theorem write_out {mem : Mem} {w : Write} {i : Nat} (h : i < w.at_ ∨ w.at_ + w.bytes.length ≤ i) : mem.write w i = mem i := by
  simp only [Mem.write]
  split
  · rw [List.getElem?_eq_none (by omega)]; rfl
  · rfl

theorem write_keeps {mem : Mem} {w : Write} {a : Nat} {bs : Bytes} (hm : Holds mem a bs)
    (h : a + bs.length ≤ w.at_ ∨ w.at_ + w.bytes.length ≤ a) : Holds (mem.write w) a bs := by
  intro j hj
  rw [write_out (by omega), hm j hj]

theorem write_local {m1 m2 : Mem} {w : Write} {i : Nat} (h : m1 i = m2 i) : m1.write w i = m2.write w i := by
  simp only [Mem.write, h]

theorem writes_local {i : Nat} : ∀ (ws : List Write) {m1 m2 : Mem}, m1 i = m2 i →
    ws.foldl Mem.write m1 i = ws.foldl Mem.write m2 i
  | [], _, _, h => h
  | _ :: ws, _, _, h => writes_local ws (write_local h)

/-- The writes stay within a region. -/
def Within (a b : Nat) (ws : List Write) : Prop := ∀ w ∈ ws, a ≤ w.at_ ∧ w.at_ + w.bytes.length ≤ b

theorem interleave_local {seg : Nat} {ls : List (List Write)} {log : List Write} (h : Interleave ls log) :
    (∀ (k : Nat) (ws : List Write), ls[k]? = some ws → Within (k * seg) (k * seg + seg) ws) →
    ∀ (mem : Mem) (k : Nat) (ws : List Write) (a : Nat), ls[k]? = some ws → k * seg ≤ a → a < k * seg + seg →
      log.foldl Mem.write mem a = ws.foldl Mem.write mem a := by
  induction h with
  | done hall =>
    intro _ mem k ws a hk _ _
    rw [hall ws (List.mem_of_getElem? hk)]
  | @step ls rest i w l hi _ ih =>
    intro hin mem k ws a hk h1 h2
    have hlt : i < ls.length := (List.getElem?_eq_some_iff.1 hi).1
    have hin' : ∀ (k : Nat) (ws : List Write), (ls.set i l)[k]? = some ws → Within (k * seg) (k * seg + seg) ws := by
      intro k ws hk
      by_cases hki : i = k
      · subst hki
        rw [List.getElem?_set_self hlt] at hk
        cases hk
        exact fun w' hw' => hin i _ hi w' (List.mem_cons_of_mem _ hw')
      · rw [List.getElem?_set_ne hki] at hk
        exact hin k ws hk
    simp only [List.foldl_cons]
    by_cases hki : i = k
    · subst hki
      rw [hi] at hk; cases hk
      exact ih hin' _ i l a (List.getElem?_set_self hlt) h1 h2
    · rw [ih hin' _ k ws a (by rw [List.getElem?_set_ne hki]; exact hk) h1 h2]
      apply writes_local
      apply write_out
      have := hin i _ hi w (List.mem_cons_self ..)
      rcases Nat.lt_or_gt_of_ne hki with hlt' | hgt
      · right
        have : (i + 1) * seg ≤ k * seg := Nat.mul_le_mul_right _ hlt'
        rw [Nat.succ_mul] at this
        omega
      · left
        have : (k + 1) * seg ≤ i * seg := Nat.mul_le_mul_right _ hgt
        rw [Nat.succ_mul] at this
        omega

theorem interleave_exists : ∀ (n : Nat) (ls : List (List Write)), (ls.map List.length).sum = n → ∃ log, Interleave ls log := by
  intro n
  induction n with
  | zero =>
    intro ls h
    refine ⟨[], .done fun l hl => ?_⟩
    induction ls with
    | nil => cases hl
    | cons a as iha =>
      simp only [List.map_cons, List.sum_cons] at h
      rcases List.mem_cons.1 hl with rfl | hl
      · exact List.eq_nil_of_length_eq_zero (by omega)
      · exact iha (by omega) hl
  | succ n ih =>
    intro ls h
    have : ∃ (i : Nat) (w : Write) (l : List Write), ls[i]? = some (w :: l) ∧ ((ls.set i l).map List.length).sum = n := by
      clear ih
      induction ls with
      | nil => simp at h
      | cons a as iha =>
        cases a with
        | nil =>
          simp only [List.map_cons, List.length_nil, List.sum_cons, Nat.zero_add] at h
          obtain ⟨i, w, l, h1, h2⟩ := iha h
          exact ⟨i + 1, w, l, by simpa using h1, by simpa using h2⟩
        | cons w l =>
          refine ⟨0, w, l, rfl, ?_⟩
          simp only [List.map_cons, List.length_cons, List.sum_cons, List.set_cons_zero] at h ⊢
          omega
    obtain ⟨i, w, l, h1, h2⟩ := this
    obtain ⟨log, hl⟩ := ih _ h2
    exact ⟨w :: log, .step h1 hl⟩

/-! ## Segments -/

/-- The records of a segment, one after another. -/
def frames : List Bytes → Bytes
  | [] => []
  | b :: bs => le 8 b.length ++ b ++ frames bs

theorem frames_append : ∀ (as bs : List Bytes), frames (as ++ bs) = frames as ++ frames bs
  | [], _ => rfl
  | a :: as, bs => by simp [frames, frames_append as bs]

theorem frames_len : ∀ (bs : List Bytes), 8 * bs.length ≤ (frames bs).length
  | [] => by simp [frames]
  | b :: bs => by
    have := frames_len bs
    simp only [frames, List.length_append, le_len, List.length_cons]
    omega

theorem frames_mem {b : Bytes} : ∀ {bs : List Bytes}, b ∈ bs → b.length ≤ (frames bs).length
  | c :: bs, h => by
    simp only [frames, List.length_append, le_len]
    rcases List.mem_cons.1 h with rfl | h
    · omega
    · have := frames_mem h; omega

/-- What a writer that has pushed some records is like. -/
structure Wrote (seg k : Nat) (bufs : List Bytes) (w : Writer) : Prop where
  base : w.base = k * seg
  last : w.last = k * seg + seg
  count : w.count = bufs.length
  cursor : w.cursor = k * seg + 8 + (frames bufs).length
  fits : w.cursor ≤ w.last
  within : Within (k * seg) (k * seg + seg) w.log
  holds : ∀ mem, Holds (w.log.foldl Mem.write mem) (k * seg + 8) (frames bufs)

theorem wrote_new {seg k : Nat} (h : 16 ≤ seg) : Wrote seg k [] (writer seg k) := by
  refine ⟨rfl, rfl, rfl, rfl, ?_, ?_, ?_⟩
  · simp only [writer]; omega
  · intro w hw; simp [writer] at hw
  · intro mem j hj; simp [frames] at hj

theorem wrote_push {seg k : Nat} {bufs : List Bytes} {w w' : Writer} {b : Bytes} (h : Wrote seg k bufs w)
    (hp : w.push b = some w') : Wrote seg k (bufs ++ [b]) w' := by
  simp only [Writer.push] at hp
  split at hp
  · cases hp
  · next hfit =>
    cases hp
    have hc := h.cursor
    have hl := h.last
    have hfr : frames [b] = le 8 b.length ++ b := by simp [frames]
    refine ⟨h.base, h.last, by simp [h.count], ?_, ?_, ?_, ?_⟩
    · simp only [frames_append, hfr, List.length_append, le_len, hc]; omega
    · simp only; omega
    · intro x hx
      simp only [List.mem_append, List.mem_cons, List.not_mem_nil, or_false] at hx
      rcases hx with hx | rfl | rfl
      · exact h.within x hx
      · simp only [le_len]; omega
      · simp only; omega
    · intro mem
      simp only [List.foldl_append, List.foldl_cons, List.foldl_nil]
      rw [frames_append, hfr, holds_append, holds_append]
      have h0 := h.holds mem
      have e1 : k * seg + 8 + (frames bufs).length = w.cursor := hc.symm
      refine ⟨?_, ?_, ?_⟩
      · refine write_keeps (write_keeps h0 ?_) ?_
        · simp only; omega
        · simp only; omega
      · rw [e1]
        refine write_keeps (write_in _ ⟨w.cursor, le 8 b.length⟩) ?_
        simp only [le_len]; omega
      · rw [e1, le_len]
        exact write_in _ ⟨w.cursor + 8, b⟩

theorem finish_within {seg k : Nat} {bufs : List Bytes} {w : Writer} (h : Wrote seg k bufs w) (hs : 16 ≤ seg) :
    Within (k * seg) (k * seg + seg) w.finish := by
  intro x hx
  simp only [Writer.finish, List.mem_append, List.mem_cons, List.not_mem_nil, or_false] at hx
  rcases hx with hx | rfl
  · exact h.within x hx
  · simp only [le_len, h.base]; omega

theorem finish_holds {seg k : Nat} {bufs : List Bytes} {w : Writer} (h : Wrote seg k bufs w) (mem : Mem) :
    Holds (w.finish.foldl Mem.write mem) (k * seg) (le 8 bufs.length ++ frames bufs) := by
  simp only [Writer.finish, List.foldl_append, List.foldl_cons, List.foldl_nil, holds_append]
  refine ⟨?_, ?_⟩
  · have := write_in (w.log.foldl Mem.write mem) ⟨w.base, le 8 w.count⟩
    simp only [h.base, h.count] at this ⊢
    exact this
  · rw [le_len]
    refine write_keeps (h.holds mem) ?_
    simp only [le_len, h.base]; omega

theorem u64_holds {mem : Mem} {a n : Nat} (h : Holds mem a (le 8 n)) (hn : n < 2 ^ 64) : mem.u64 a = n := by
  have := slice_holds h
  rw [le_len] at this
  rw [Mem.u64, this, unLe_le]
  exact Nat.mod_eq_of_lt hn

theorem records_hold {mem : Mem} {last : Nat} : ∀ (bufs : List Bytes) (cursor : Nat), (frames bufs).length < 2 ^ 64 →
    Holds mem cursor (frames bufs) → cursor + (frames bufs).length ≤ last →
    (records mem last bufs.length cursor).map (fun r => mem.slice r.1 r.2) = bufs
  | [], _, _, _, _ => rfl
  | b :: bufs, cursor, hl, h, hfit => by
    simp only [frames, holds_append, List.length_append, le_len] at h hfit hl
    obtain ⟨⟨h1, h2⟩, h3⟩ := h
    have hlen : mem.u64 cursor = b.length := u64_holds h1 (by omega)
    simp only [List.length_cons, records, hlen]
    rw [if_neg (by omega), if_neg (by omega)]
    simp only [List.map_cons]
    rw [slice_holds h2]
    congr 1
    refine records_hold bufs _ (by omega) ?_ (by omega)
    rwa [Nat.add_assoc]

theorem reader_holds {mem : Mem} {seg k : Nat} {bufs : List Bytes} (hs : seg < 2 ^ 64)
    (h : Holds mem (k * seg) (le 8 bufs.length ++ frames bufs)) (hfit : 8 + (frames bufs).length ≤ seg) :
    (reader mem seg k).map (fun r => mem.slice r.1 r.2) = bufs := by
  rw [holds_append, le_len] at h
  have := frames_len bufs
  have hc : mem.u64 (k * seg) = bufs.length := u64_holds h.1 (by omega)
  unfold reader
  rw [hc, Nat.min_eq_left (by omega)]
  exact records_hold bufs _ (by omega) h.2 (by omega)

end Verif.Par
