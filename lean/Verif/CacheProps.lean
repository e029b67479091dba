import Verif.CacheModel

/-!
# The prelude cache: properties (C29, C30)
-/

namespace Verif.Cache

/-! ## Freshness -/

theorem leBytes_length (k n : Nat) : (leBytes k n).length = k := by
  induction k generalizing n with
  | zero => rfl
  | succ k ih => simp [leBytes, ih]

theorem ofNat_inj {a b : Nat} (ha : a < 256) (hb : b < 256) (h : UInt8.ofNat a = UInt8.ofNat b) :
    a = b := by
  have := congrArg UInt8.toNat h
  simp only [UInt8.toNat_ofNat'] at this
  omega

theorem leBytes_inj (k : Nat) : ∀ {m n : Nat}, m < 256 ^ k → n < 256 ^ k →
    leBytes k m = leBytes k n → m = n := by
  induction k with
  | zero => intro m n hm hn _; simp at hm hn; omega
  | succ k ih =>
    intro m n hm hn h
    simp only [leBytes, List.cons.injEq] at h
    have h1 := ofNat_inj (by omega) (by omega) h.1
    have h2 := ih (m := m / 256) (n := n / 256)
      (by rw [Nat.pow_succ] at hm; omega) (by rw [Nat.pow_succ] at hn; omega) h.2
    omega

/-- A labelled field can be read off the front of a stream. -/
theorem absorb_inj {tag x y r s : Bytes} (hx : x.length < 2 ^ 64) (hy : y.length < 2 ^ 64)
    (h : absorb tag x ++ r = absorb tag y ++ s) : x = y ∧ r = s := by
  simp only [absorb, List.append_assoc] at h
  have h1 := List.append_cancel_left h
  have h2 := List.append_cancel_left h1
  have hl := List.append_inj h2 (by simp [leBytes_length])
  have hlen := leBytes_inj 8 hx hy hl.1
  exact List.append_inj hl.2 hlen

/-- C29: different versions, sources or tables give different bytes to hash. -/
theorem hashed_bytes_determine_inputs (i j : Inputs)
    (hi : i.prelude.length < 2 ^ 64 ∧ i.table.length < 2 ^ 64)
    (hj : j.prelude.length < 2 ^ 64 ∧ j.table.length < 2 ^ 64)
    (h : hashed i = hashed j) : i = j := by
  have h1 := absorb_inj (by simp [leBytes_length]) (by simp [leBytes_length]) h
  have h2 := absorb_inj hi.1 hj.1 h1.2
  have h3 := absorb_inj (r := []) (s := []) hi.2 hj.2 (by simpa using h2.2)
  have hv := leBytes_inj 4 (i.version.toNat_lt) (j.version.toNat_lt) h1.1
  cases i; cases j
  simp only [Inputs.mk.injEq]
  exact ⟨UInt32.toNat_inj.1 hv, h2.1, h3.1⟩

/-- A blob counts as fresh exactly when it begins with the expected hash. -/
theorem fresh_iff (blob : Option Bytes) (expected : Bytes) (he : expected.length = 32) :
    classify blob expected = .fresh ↔ ∃ rest, blob = some (expected ++ rest) := by
  cases blob with
  | none => simp [classify]
  | some b =>
    simp only [classify, readHash]
    by_cases hl : b.length < 32
    · simp only [hl, if_true]
      constructor
      · intro h; cases h
      · rintro ⟨r, h⟩
        cases h
        simp [he] at hl
        omega
    · simp only [hl, if_false]
      constructor
      · intro h
        split at h
        · next h' => exact ⟨b.drop 32, by rw [← h', List.take_append_drop]⟩
        · cases h
      · rintro ⟨r, h⟩
        cases h
        simp [← he]

/-- C29: an image is used only if it was built from the same version, prelude
source and intrinsic table — unless two different byte strings with the same
hash have been found. -/
theorem used_only_if_same_inputs (sha : Bytes → Bytes) (hsha : ∀ x, (sha x).length = 32)
    (i j : Inputs) (payload : Bytes)
    (hi : i.prelude.length < 2 ^ 64 ∧ i.table.length < 2 ^ 64)
    (hj : j.prelude.length < 2 ^ 64 ∧ j.table.length < 2 ^ 64)
    (h : verify sha j.version (some j.prelude) (some j.table) (some (stamp sha i payload)) = true) :
    i = j ∨ (hashed i ≠ hashed j ∧ sha (hashed i) = sha (hashed j)) := by
  simp only [verify, decide_eq_true_eq] at h
  obtain ⟨rest, hr⟩ := (fresh_iff _ _ (hsha _)).1 h
  have := (List.append_inj (Option.some.inj hr) (by simp [sourceHash, hsha])).1
  by_cases he : i = j
  · exact .inl he
  · exact .inr ⟨fun hh => he (hashed_bytes_determine_inputs i j hi hj hh), this⟩

/-- C29: an image built from the current inputs is used. -/
theorem same_inputs_are_used (sha : Bytes → Bytes) (hsha : ∀ x, (sha x).length = 32)
    (i : Inputs) (payload : Bytes) :
    verify sha i.version (some i.prelude) (some i.table) (some (stamp sha i payload)) = true := by
  simp only [verify, decide_eq_true_eq]
  exact (fresh_iff _ _ (hsha _)).2 ⟨payload, rfl⟩

/-- C29: without an image, or without the sources to check it against, none is
used; a truncated image is never used. -/
theorem unverifiable_never_used (sha : Bytes → Bytes) (hsha : ∀ x, (sha x).length = 32)
    (v : UInt32) (p t b : Option Bytes)
    (h : p = none ∨ t = none ∨ b = none ∨ ∃ x, b = some x ∧ x.length < 32) :
    verify sha v p t b = false := by
  cases p with
  | none => rfl
  | some p =>
    cases t with
    | none => rfl
    | some t =>
      simp only [verify, decide_eq_false_iff_not]
      intro hf
      obtain ⟨r, hr⟩ := (fresh_iff _ _ (hsha _)).1 hf
      rcases h with h | h | h | ⟨x, h, hx⟩
      · cases h
      · cases h
      · rw [hr] at h; cases h
      · rw [hr] at h; cases h
        simp [hsha] at hx
        omega

example : hashed ⟨8, [97, 98], [99]⟩ ≠ hashed ⟨8, [97], [98, 99]⟩ := by decide
example : hashed ⟨8, [97], [98]⟩ ≠ hashed ⟨9, [97], [98]⟩ := by decide

/-! ## Sorted serialisation -/

theorem varint_take (k : Nat) : ∀ (n : Nat) (rest : Bytes), n < 2 * 128 ^ k →
    takeVarint (k + 1) (varint (k + 1) n ++ rest) = some (n, rest) := by
  induction k with
  | zero =>
    intro n rest h
    have h2 : n < 2 := by simpa using h
    have h128 : n < 128 := by omega
    have hn : (UInt8.ofNat n).toNat = n := by simp only [UInt8.toNat_ofNat']; omega
    simp only [varint, h128, if_true, List.singleton_append, takeVarint, hn]
    rw [if_neg (by omega)]
  | succ k ih =>
    intro n rest h
    rw [varint]
    by_cases h128 : n < 128
    · have hn : (UInt8.ofNat n).toNat = n := by simp only [UInt8.toNat_ofNat']; omega
      simp only [h128, if_true, List.singleton_append, takeVarint, hn]
      rw [if_neg (by omega)]
    · have hn : (UInt8.ofNat (n % 128 + 128)).toNat = n % 128 + 128 := by
        simp only [UInt8.toNat_ofNat']; omega
      rw [if_neg h128, List.cons_append, takeVarint, hn, if_neg (by omega),
        ih (n / 128) rest (by rw [Nat.pow_succ] at h; omega)]
      simp only [Option.some.injEq, Prod.mk.injEq, and_true]
      omega

theorem takeLen_putLen (n : Nat) (rest : Bytes) (h : n < 2 ^ 64) :
    takeLen (putLen n ++ rest) = some (n, rest) :=
  varint_take 9 n rest (by have : 2 * 128 ^ 9 = 2 ^ 64 := by decide
                           omega)

theorem takeStr_putStr (s rest : Bytes) (h : s.length < 2 ^ 64) :
    takeStr (putStr s ++ rest) = some (s, rest) := by
  simp only [takeStr, putStr, List.append_assoc, takeLen_putLen s.length _ h]
  rw [if_neg (by simp)]
  simp

/-! ### The order of keys -/

theorem ltBytes_irrefl : ∀ a : Bytes, ltBytes a a = false
  | [] => rfl
  | x :: xs => by
    have hx : ¬ x < x := by intro h; exact absurd (UInt8.lt_iff_toNat_lt.1 h) (by omega)
    simp [ltBytes, ltBytes_irrefl xs, hx]

theorem u8_tri (a b : UInt8) : a < b ∨ a = b ∨ b < a := by
  rcases Nat.lt_trichotomy a.toNat b.toNat with h | h | h
  · exact .inl (UInt8.lt_iff_toNat_lt.2 h)
  · exact .inr (.inl (UInt8.toNat_inj.1 h))
  · exact .inr (.inr (UInt8.lt_iff_toNat_lt.2 h))

theorem ltBytes_trans : ∀ {a b c : Bytes}, ltBytes a b = true → ltBytes b c = true →
    ltBytes a c = true
  | _, [], _, h, _ => by cases ‹Bytes› <;> simp [ltBytes] at h
  | [], _ :: _, [], _, h => by simp [ltBytes] at h
  | [], _ :: _, _ :: _, _, _ => rfl
  | _ :: _, _ :: _, [], _, h => by simp [ltBytes] at h
  | x :: xs, y :: ys, z :: zs, h1, h2 => by
    simp only [ltBytes, Bool.or_eq_true, decide_eq_true_eq, Bool.and_eq_true, beq_iff_eq] at h1 h2 ⊢
    rcases h1 with h1 | ⟨h1, h1'⟩
    · rcases h2 with h2 | ⟨h2, h2'⟩
      · left
        rw [UInt8.lt_iff_toNat_lt] at *
        omega
      · subst h2; exact .inl h1
    · subst h1
      rcases h2 with h2 | ⟨h2, h2'⟩
      · exact .inl h2
      · exact .inr ⟨h2, ltBytes_trans h1' h2'⟩

theorem ltBytes_tri : ∀ a b : Bytes, ltBytes a b = true ∨ a = b ∨ ltBytes b a = true
  | [], [] => .inr (.inl rfl)
  | [], _ :: _ => .inl rfl
  | _ :: _, [] => .inr (.inr rfl)
  | x :: xs, y :: ys => by
    simp only [ltBytes, Bool.or_eq_true, decide_eq_true_eq, Bool.and_eq_true, beq_iff_eq,
      List.cons.injEq]
    rcases u8_tri x y with h | h | h
    · exact .inl (.inl h)
    · subst h
      rcases ltBytes_tri xs ys with h | h | h
      · exact .inl (.inr ⟨rfl, h⟩)
      · exact .inr (.inl ⟨rfl, h⟩)
      · exact .inr (.inr (.inr ⟨rfl, h⟩))
    · exact .inr (.inr (.inl h))

/-- In increasing key order. -/
def Sorted {V} (m : List (Bytes × V)) : Prop := m.Pairwise fun a b => ltBytes a.1 b.1 = true

theorem insertKey_mem {V} {k : Bytes} {v : V} : ∀ {m : List (Bytes × V)},
    (∀ e ∈ m, e.1 ≠ k) → ∀ e, e ∈ insertKey k v m ↔ e = (k, v) ∨ e ∈ m
  | [], _, e => by simp [insertKey]
  | (k', v') :: m, h, e => by
    have hk : k' ≠ k := h (k', v') (by simp)
    unfold insertKey
    split
    · simp
    · split
      · have ih := insertKey_mem (k := k) (v := v) (m := m) (fun e he => h e (by simp [he])) e
        simp only [List.mem_cons, ih]
        constructor
        · rintro (h | h | h) <;> simp [h]
        · rintro (h | h | h) <;> simp [h]
      · next h1 h2 =>
        rcases ltBytes_tri k k' with h3 | h3 | h3
        · exact absurd h3 h1
        · exact absurd h3.symm hk
        · exact absurd h3 h2

theorem insertKey_sorted {V} {k : Bytes} {v : V} : ∀ {m : List (Bytes × V)},
    (∀ e ∈ m, e.1 ≠ k) → Sorted m → Sorted (insertKey k v m)
  | [], _, _ => by simp [insertKey, Sorted]
  | (k', v') :: m, h, hs => by
    have hk : k' ≠ k := h (k', v') (by simp)
    have hs' := List.pairwise_cons.1 hs
    unfold insertKey
    split
    · next hlt =>
      refine List.pairwise_cons.2 ⟨?_, hs⟩
      intro e he
      rcases List.mem_cons.1 he with rfl | he
      · exact hlt
      · exact ltBytes_trans hlt (hs'.1 e he)
    · split
      · next hlt =>
        refine List.pairwise_cons.2 ⟨?_, insertKey_sorted (fun e he => h e (by simp [he])) hs'.2⟩
        intro e he
        rcases (insertKey_mem (fun e he => h e (by simp [he])) e).1 he with rfl | he
        · exact hlt
        · exact hs'.1 e he
      · next h1 h2 =>
        rcases ltBytes_tri k k' with h3 | h3 | h3
        · exact absurd h3 h1
        · exact absurd h3.symm hk
        · exact absurd h3 h2

theorem toBTree_spec {V} (m acc : List (Bytes × V)) (hd : ((acc ++ m).map Prod.fst).Nodup)
    (ha : Sorted acc) :
    Sorted (m.foldl (fun t e => insertKey e.1 e.2 t) acc) ∧
      ∀ e, e ∈ m.foldl (fun t e => insertKey e.1 e.2 t) acc ↔ e ∈ acc ∨ e ∈ m := by
  induction m generalizing acc with
  | nil => simp [ha]
  | cons x xs ih =>
    obtain ⟨k, v⟩ := x
    rw [List.map_append, List.nodup_append] at hd
    obtain ⟨d1, d2, d3⟩ := hd
    simp only [List.map_cons, List.nodup_cons] at d2
    have hk : ∀ e ∈ acc, e.1 ≠ k := fun e he =>
      d3 e.1 (List.mem_map.2 ⟨e, he, rfl⟩) k (by simp)
    have hmem := insertKey_mem (v := v) hk
    have hs := insertKey_sorted (v := v) hk ha
    have hnd : ((insertKey k v acc).map Prod.fst).Nodup := by
      rw [List.nodup_iff_pairwise_ne, List.pairwise_map]
      refine hs.imp ?_
      intro a b h e
      rw [e, ltBytes_irrefl] at h
      cases h
    have := ih (insertKey k v acc) (by
      rw [List.map_append, List.nodup_append]
      refine ⟨hnd, d2.2, ?_⟩
      intro a ha' b hb
      obtain ⟨e, he, rfl⟩ := List.mem_map.1 ha'
      rcases (hmem e).1 he with rfl | he
      · rintro rfl; exact d2.1 hb
      · exact d3 e.1 (List.mem_map.2 ⟨e, he, rfl⟩) b (by simp only [List.map_cons, List.mem_cons]; exact .inr hb)) hs
    simp only [List.foldl_cons]
    refine ⟨this.1, fun e => ?_⟩
    rw [this.2, hmem]
    simp only [List.mem_cons]
    constructor
    · rintro ((h | h) | h) <;> simp [h]
    · rintro (h | h | h) <;> simp [h]

theorem sorted_unique {V} {as bs : List (Bytes × V)} (ha : Sorted as) (hb : Sorted bs)
    (h : ∀ e, e ∈ as ↔ e ∈ bs) : as = bs := by
  induction as generalizing bs with
  | nil =>
    cases bs with
    | nil => rfl
    | cons b bs => exact absurd ((h b).2 (by simp)) (by simp)
  | cons a as ih =>
    cases bs with
    | nil => exact absurd ((h a).1 (by simp)) (by simp)
    | cons b bs =>
      have ha' := List.pairwise_cons.1 ha
      have hb' := List.pairwise_cons.1 hb
      have irr : ∀ {x y : Bytes}, ltBytes x y = true → ltBytes y x = true → False := by
        intro x y h1 h2
        have := ltBytes_trans h1 h2
        rw [ltBytes_irrefl] at this
        cases this
      have hab : a = b := by
        rcases List.mem_cons.1 ((h a).1 (by simp)) with h1 | h1
        · exact h1
        · rcases List.mem_cons.1 ((h b).2 (by simp)) with h2 | h2
          · exact h2.symm
          · exact (irr (ha'.1 b h2) (hb'.1 a h1)).elim
      subst hab
      congr 1
      refine ih ha'.2 hb'.2 fun x => ⟨fun hx => ?_, fun hx => ?_⟩
      · rcases List.mem_cons.1 ((h x).1 (by simp [hx])) with rfl | h1
        · exact (irr (ha'.1 x hx) (ha'.1 x hx)).elim
        · exact h1
      · rcases List.mem_cons.1 ((h x).2 (by simp [hx])) with rfl | h1
        · exact (irr (hb'.1 x hx) (hb'.1 x hx)).elim
        · exact h1

/-- C30: whatever order the hash map yields its entries in, the bytes are the
same. -/
theorem serialize_order_free {V} (put : V → Bytes) (m m' : List (Bytes × V))
    (hd : (m.map Prod.fst).Nodup) (hp : m.Perm m') : serialize put m = serialize put m' := by
  have hd' : (m'.map Prod.fst).Nodup := (hp.map Prod.fst).nodup_iff.1 hd
  have h1 := toBTree_spec m [] (by simpa using hd) .nil
  have h2 := toBTree_spec m' [] (by simpa using hd') .nil
  have : toBTree m = toBTree m' := sorted_unique h1.1 h2.1 fun e => by
    simp only [toBTree]
    rw [h1.2, h2.2, hp.mem_iff]
  rw [serialize, serialize, this, hp.length_eq]

theorem nodup_of_keys {V} {m : List (Bytes × V)} (h : (m.map Prod.fst).Nodup) : m.Nodup := by
  rw [List.nodup_iff_pairwise_ne, List.pairwise_map] at h
  rw [List.nodup_iff_pairwise_ne]
  exact h.imp fun h e => h (congrArg Prod.fst e)

theorem takeEntries_put {V} (put : V → Bytes) (take : Bytes → Option (V × Bytes)) (rest : Bytes) :
    ∀ (m : List (Bytes × V)) (acc : Map V),
    (∀ e ∈ m, e.1.length < 2 ^ 64 ∧ ∀ r, take (put e.2 ++ r) = some (e.2, r)) →
    takeEntries take m.length (putEntries put m ++ rest) acc
      = some (m.foldl (fun f e => Map.insert f e.1 e.2) acc, rest)
  | [], acc, _ => rfl
  | (k, v) :: m, acc, h => by
    have h1 := h (k, v) (by simp)
    simp only [putEntries, List.length_cons, takeEntries, List.append_assoc,
      takeStr_putStr k _ h1.1, h1.2, List.foldl_cons]
    exact takeEntries_put put take rest m _ fun e he => h e (by simp [he])

theorem insertAll_get {V} : ∀ (m : List (Bytes × V)) (acc : Map V) (k : Bytes) (v : V),
    (m.map Prod.fst).Nodup →
    ((m.foldl (fun f e => Map.insert f e.1 e.2) acc) k = some v ↔
      (k, v) ∈ m ∨ (k ∉ m.map Prod.fst ∧ acc k = some v))
  | [], acc, k, v, _ => by simp
  | (k', v') :: m, acc, k, v, h => by
    simp only [List.map_cons, List.nodup_cons] at h
    simp only [List.foldl_cons]
    rw [insertAll_get m _ k v h.2]
    have hno : ∀ v, (k', v) ∉ m := fun v hm => h.1 (List.mem_map.2 ⟨_, hm, rfl⟩)
    simp only [Map.insert, List.map_cons, List.mem_cons, Prod.mk.injEq, not_or]
    by_cases hk : k = k'
    · subst hk
      have := hno v
      simp only [h.1, this, if_true, Option.some.injEq, not_true, false_and, or_false, true_and,
        false_or, not_false_eq_true, eq_comm]
    · simp only [hk, if_false, false_and, false_or, not_false_eq_true, true_and]

/-- C30: reading the bytes back gives the same map, for every map with values
that themselves survive the trip, and nothing of what follows is consumed. -/
theorem serialize_round_trip {V} (put : V → Bytes) (take : Bytes → Option (V × Bytes))
    (m : List (Bytes × V)) (rest : Bytes) (hd : (m.map Prod.fst).Nodup)
    (hlen : m.length < 2 ^ 64)
    (hv : ∀ e ∈ m, e.1.length < 2 ^ 64 ∧ ∀ r, take (put e.2 ++ r) = some (e.2, r)) :
    ∃ f, deserialize take (serialize put m ++ rest) = some (f, rest) ∧
      ∀ k v, f k = some v ↔ (k, v) ∈ m := by
  have h1 := toBTree_spec m [] (by simpa using hd) .nil
  have hmem : ∀ e, e ∈ toBTree m ↔ e ∈ m := fun e => by
    rw [toBTree, h1.2]; simp
  have hsnd : ((toBTree m).map Prod.fst).Nodup := by
    rw [List.nodup_iff_pairwise_ne, List.pairwise_map]
    refine h1.1.imp ?_
    intro a b h e
    rw [e, ltBytes_irrefl] at h
    cases h
  have hl : (toBTree m).length = m.length := by
    refine List.Perm.length_eq ?_
    rw [List.perm_ext_iff_of_nodup (nodup_of_keys hsnd) (nodup_of_keys hd)]
    exact hmem
  refine ⟨(toBTree m).foldl (fun f e => Map.insert f e.1 e.2) fun _ => none, ?_, ?_⟩
  · rw [deserialize, serialize, List.append_assoc, takeLen_putLen _ _ hlen]
    dsimp only
    rw [← hl]
    exact takeEntries_put put take rest (toBTree m) _ fun e he => hv e ((hmem e).1 he)
  · intro k v
    rw [insertAll_get _ _ k v hsnd, hmem]
    simp

/-- The values of `name_to_slot`, the first such field, do survive. -/
example : serialize putLen [([122], 1), ([97, 98], 300)]
    = [2, 2, 97, 98, 172, 2, 1, 122, 1] := by decide
example (m : List (Bytes × Nat)) (rest : Bytes) (hd : (m.map Prod.fst).Nodup)
    (hlen : m.length < 2 ^ 64) (hv : ∀ e ∈ m, e.1.length < 2 ^ 64 ∧ e.2 < 2 ^ 64) :
    ∃ f, deserialize takeLen (serialize putLen m ++ rest) = some (f, rest) ∧
      ∀ k v, f k = some v ↔ (k, v) ∈ m :=
  serialize_round_trip putLen takeLen m rest hd hlen
    fun e he => ⟨(hv e he).1, fun r => takeLen_putLen e.2 r (hv e he).2⟩

end Verif.Cache
