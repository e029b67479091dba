import Verif.ParDrive
import Verif.ParSpec

/-!
# Proofs only.

The bytes of what a value shows (`wire`), that copying a tame value gives them, and that reading them gives it back.
-/

namespace Verif.Par

mutual
/-- The bytes. -/
def wire (τ : Texts) : Shown → Bytes
  | .null => [0]
  | .bool true => [1]
  | .bool false => [2]
  | .num n => encNum n
  | .sym s => 4 :: lenBytes s
  | .str s => 5 :: lenBytes s
  | .zdt z => 6 :: lenBytes (τ.print z)
  | .type s => 10 :: lenBytes s
  | .list xs => 7 :: (le 4 xs.length ++ wireItems τ xs)
  | .block es => 8 :: (le 4 es.length ++ wireEntries τ es)
  | .ann m b => 9 :: (wire τ m ++ wire τ b)

def wireItems (τ : Texts) : Items → Bytes
  | .nil => []
  | .cons x xs => wire τ x ++ wireItems τ xs

def wireEntries (τ : Texts) : Entries → Bytes
  | .nil => []
  | .cons k v es => (match k with
    | .sym s => 4 :: lenBytes s
    | .str s => 5 :: lenBytes s
    | _ => []) ++ (wire τ v ++ wireEntries τ es)
end

mutual
/-- The value made of them. -/
def build : Shown → Clo
  | .null => .unit
  | .bool true => .tt
  | .bool false => .ff
  | .num n => .box .number (.nat (.num n))
  | .sym s => .box .symbol (.nat (.sym s))
  | .str s => .box .string (.nat (.str s))
  | .zdt z => .box .zdt (.nat (.zdt z))
  | .type s => .box .typeData (.nat (.str s))
  | .list xs => buildList (buildItems xs)
  | .block es => .block (buildList (buildEntries es))
  | .ann m b => .ann (build m) (build b)

def buildItems : Items → List Clo
  | .nil => []
  | .cons x xs => build x :: buildItems xs

def buildEntries : Entries → List Clo
  | .nil => []
  | .cons k v es => .pair (.nat k) (build v) :: buildEntries es
end

/-! ## Reading -/

theorem take_app (n : Nat) (a rest : Bytes) (h : a.length = n) : take n (a ++ rest) = .ok (a, rest) := by
  subst h
  simp [take]

theorem readLe_app {k n : Nat} (h : n < 256 ^ k) (rest : Bytes) : readLe k (le k n ++ rest) = .ok (n, rest) := by
  simp only [readLe, take_app k (le k n) rest (le_len k n), bind, Except.bind, unLe_le, Nat.mod_eq_of_lt h]

theorem readLe_one (b : UInt8) (rest : Bytes) : readLe 1 (b :: rest) = .ok (b.toNat, rest) := by
  simp [readLe, take, bind, Except.bind, unLe]

theorem utf8_back (s : String) : String.fromUTF8? ⟨(utf8 s).toArray⟩ = some s := by
  unfold utf8 String.fromUTF8? String.toUTF8
  simp [s.isValidUTF8]
  rfl

theorem utf8_len (s : String) : (utf8 s).length = s.toUTF8.size := rfl

theorem readStr_app {s : String} (h : Short s) (rest : Bytes) : readStr (lenBytes s ++ rest) = .ok (s, rest) := by
  have h' : (utf8 s).length < 256 ^ 4 := h
  simp only [readStr, lenBytes, List.append_assoc, readLe_app h', bind, Except.bind, take_app _ (utf8 s) rest rfl, utf8_back]

theorem decNum_app {n : Num} (h : n.Ok) (rest : Bytes) : decNum ((encNum n).tail ++ rest) = .ok (n, rest) := by
  have hb : ∀ n : UInt64, n.toNat < 256 ^ 8 := fun n => n.toNat_lt
  cases n with
  | pos n =>
    simp only [encNum, List.tail_cons, List.cons_append, List.nil_append, decNum, readLe_one, bind, Except.bind]
    simp [readLe_app (hb n)]
  | neg n =>
    simp only [encNum, List.tail_cons, List.cons_append, List.nil_append, decNum, readLe_one, bind, Except.bind]
    have : ¬ n.toNat < 2 ^ 63 := Nat.not_lt.2 h
    simp [readLe_app (hb n)]
    simp only [Num.Ok] at h
    omega
  | flt n =>
    simp only [encNum, List.tail_cons, List.cons_append, List.nil_append, decNum, readLe_one, bind, Except.bind]
    have : finite n.toNat = true := by simpa [finite, Num.Ok] using h
    simp [readLe_app (hb n), this]

theorem wire_pos (τ : Texts) (d : Shown) : 1 ≤ (wire τ d).length := by
  cases d with
  | bool b => cases b <;> simp [wire]
  | num n => cases n <;> simp [wire, encNum]
  | _ => simp [wire]

mutual
theorem dec_wire (τ : Texts) : ∀ (d : Shown) (n : Nat) (rest : Bytes), Fits τ d → (wire τ d).length ≤ n →
    dec τ n (wire τ d ++ rest) = .ok (build d, rest)
  | d, 0, _, _, hn => by have := wire_pos τ d; omega
  | .null, n + 1, rest, _, _ => by simp [wire, dec, readLe_one, bind, Except.bind, build]
  | .bool true, n + 1, rest, _, _ => by simp [wire, dec, readLe_one, bind, Except.bind, build]
  | .bool false, n + 1, rest, _, _ => by simp [wire, dec, readLe_one, bind, Except.bind, build]
  | .num x, n + 1, rest, h, _ => by
    have h2 : wire τ (.num x) = 3 :: (encNum x).tail := by cases x <;> rfl
    rw [h2]
    simp [dec, readLe_one, bind, Except.bind, build, decNum_app h]
  | .sym s, n + 1, rest, h, _ => by simp [wire, dec, readLe_one, bind, Except.bind, build, readStr_app h]
  | .str s, n + 1, rest, h, _ => by simp [wire, dec, readLe_one, bind, Except.bind, build, readStr_app h]
  | .zdt z, n + 1, rest, h, _ => by simp [wire, dec, readLe_one, bind, Except.bind, build, readStr_app h.1, h.2]
  | .type s, n + 1, rest, h, _ => by simp [wire, dec, readLe_one, bind, Except.bind, build, readStr_app h]
  | .list xs, n + 1, rest, h, hn => by
    simp only [wire, List.length_cons, List.length_append, le_len] at hn
    have h1 := h.1
    have hi := decItems_wire τ xs n rest h.2 (by omega)
    simp [wire, dec, readLe_one, bind, Except.bind, build, readLe_app (k := 4) (show xs.length < 256 ^ 4 from h.1), hi]
  | .block es, n + 1, rest, h, hn => by
    simp only [wire, List.length_cons, List.length_append, le_len] at hn
    have hi := decPairs_wire τ es n rest h.2 (by omega)
    simp [wire, dec, readLe_one, bind, Except.bind, build, readLe_app (k := 4) (show es.length < 256 ^ 4 from h.1), hi]
  | .ann m b, n + 1, rest, h, hn => by
    simp only [wire, List.length_cons, List.length_append] at hn
    have h1 := dec_wire τ m n (wire τ b ++ rest) h.1 (by omega)
    have h2 := dec_wire τ b n rest h.2 (by omega)
    simp [wire, dec, readLe_one, bind, Except.bind, build, h1, h2]

theorem decItems_wire (τ : Texts) : ∀ (xs : Items) (n : Nat) (rest : Bytes), FitsItems τ xs → (wireItems τ xs).length + 1 ≤ n →
    decItems τ n xs.length (wireItems τ xs ++ rest) = .ok (buildItems xs, rest)
  | _, 0, _, _, hn => by omega
  | .nil, n + 1, rest, _, _ => by simp [Items.length, decItems, wireItems, buildItems]
  | .cons x xs, n + 1, rest, h, hn => by
    simp only [wireItems, List.length_append] at hn
    have hx := wire_pos τ x
    have h1 := dec_wire τ x n (wireItems τ xs ++ rest) h.1 (by omega)
    have h2 := decItems_wire τ xs n rest h.2 (by omega)
    simp [Items.length, decItems, wireItems, buildItems, bind, Except.bind, h1, h2]

theorem decPairs_wire (τ : Texts) : ∀ (es : Entries) (n : Nat) (rest : Bytes), FitsEntries τ es → (wireEntries τ es).length + 1 ≤ n →
    decPairs τ n es.length (wireEntries τ es ++ rest) = .ok (buildEntries es, rest)
  | _, 0, _, _, hn => by omega
  | .nil, n + 1, rest, _, _ => by simp [Entries.length, decPairs, wireEntries, buildEntries]
  | .cons k v es, n + 1, rest, h, hn => by
    simp only [wireEntries, List.length_append] at hn
    have hx := wire_pos τ v
    have h1 := dec_wire τ v n (wireEntries τ es ++ rest) h.2.1 (by omega)
    have h2 := decPairs_wire τ es n rest h.2.2 (by omega)
    have hk := h.1
    cases k with
    | sym s =>
      simp [Entries.length, decPairs, decKey, readLe_one, readStr_app hk, wireEntries, buildEntries, bind, Except.bind, h1, h2]
    | str s =>
      simp [Entries.length, decPairs, decKey, readLe_one, readStr_app hk, wireEntries, buildEntries, bind, Except.bind, h1, h2]
    | _ => exact hk.elim
end

/-! ## What is read shows the same -/

theorem shown_list : ∀ l : List Clo, shown (buildList l) = (items (buildList l)).map .list
  | [] => rfl
  | c :: l => by
    simp only [buildList, List.foldr_cons, shown, items]
    cases shown c with
    | none => rfl
    | some x => cases items (List.foldr Clo.cons Clo.nil l) <;> rfl

mutual
theorem shown_build (τ : Texts) : ∀ d, Fits τ d → shown (build d) = some d
  | .null, _ => rfl
  | .bool true, _ => rfl
  | .bool false, _ => rfl
  | .num _, _ => rfl
  | .sym _, _ => rfl
  | .str _, _ => rfl
  | .zdt _, _ => rfl
  | .type _, _ => rfl
  | .list xs, h => by
    simp only [build, shown_list, items_build τ xs h.2]; rfl
  | .block es, h => by
    simp only [build, shown, entries_build τ es h.2]
  | .ann m b, h => by
    simp only [build, shown, shown_build τ m h.1, shown_build τ b h.2]

theorem items_build (τ : Texts) : ∀ xs, FitsItems τ xs → items (buildList (buildItems xs)) = some xs
  | .nil, _ => rfl
  | .cons x xs, h => by
    have h2 := items_build τ xs h.2
    unfold buildList at h2
    simp only [buildList, buildItems, List.foldr_cons, items, shown_build τ x h.1, h2]

theorem entries_build (τ : Texts) : ∀ es, FitsEntries τ es → entries (buildList (buildEntries es)) = some es
  | .nil, _ => rfl
  | .cons k v es, h => by
    have h2 := entries_build τ es h.2.2
    unfold buildList at h2
    simp only [buildList, buildEntries, List.foldr_cons, entries, entry, keyOf, shown_build τ v h.2.1, h2]
end

/-! ## Copying -/

theorem eval_ends : ∀ (c : Clo) (r : Option Clo), ends c = true → ∃ v r', eval false c r = (.ok v, r') := by
  intro c
  induction c with
  | ann m b _ ih => intro r h; simp only [eval]; exact ih _ h
  | run i b ihi ih =>
    intro r h
    simp only [ends, Bool.and_eq_true] at h
    obtain ⟨v, r', hi⟩ := ihi none h.1
    simp only [eval, hi]
    exact ih _ h.2
  | pull b ih => intro r h; simp only [eval]; exact ih _ h
  | fail e => intro r h; cases h
  | _ => intro r _; exact ⟨_, _, rfl⟩

theorem eval_silent : ∀ (c : Clo), silent c = true → (eval false c none).2 = none := by
  intro c
  induction c with
  | ann m b _ ih => intro h; cases h
  | run i b ihi ih =>
    intro h
    simp only [silent, Bool.and_eq_true] at h
    have hi := ihi h.1
    simp only [eval]
    cases he : eval false i none with
    | mk x r =>
      rw [he] at hi
      cases hi
      cases x with
      | error e => rfl
      | ok v => exact ih h.2
  | pull b ih => intro h; simp only [eval]; exact ih h
  | _ => intro _; rfl

theorem eval_still : ∀ (c : Clo) (r : Option Clo), still c = true → eval false c r = ((eval false c none).1, r) := by
  intro c
  induction c with
  | ann m b _ ih => intro r h; cases h
  | run i b ihi ih => intro r h; cases h
  | pull b ih => intro r h; simpa [eval] using ih r h
  | _ => intro r _; rfl

theorem enc_eval {τ : Texts} {w : Bool} {c c' : Clo} (h : eval w c none = eval w c' none) : enc τ w c = enc τ w c' := by
  rw [enc, enc, h]

theorem enc_pull {τ : Texts} {b : Clo} : enc τ false (.pull b) = enc τ false b := enc_eval (by simp [eval])

theorem enc_run {τ : Texts} {i b : Clo} (h1 : ends i = true) (h2 : silent i = true) : enc τ false (.run i b) = enc τ false b := by
  obtain ⟨v, r, h⟩ := eval_ends i none h1
  have := eval_silent i h2
  rw [h] at this
  dsimp only at this
  subst this
  exact enc_eval (by simp only [eval, h])

theorem shown_ends : ∀ (c : Clo) (d : Shown), shown c = some d → ends c = true := by
  intro c
  induction c with
  | ann m b _ ih =>
    intro d h
    simp only [shown] at h
    cases hm : shown m with
    | none => rw [hm] at h; cases h
    | some x =>
      rw [hm] at h
      cases hb : shown b with
      | none => rw [hb] at h; cases h
      | some y => exact ih y hb
  | run i b _ ih =>
    intro d h
    simp only [shown] at h
    split at h
    · rename_i hi; simp [ends, hi, ih d h]
    · cases h
  | pull b ih => intro d h; exact ih d h
  | fail e => intro d h; cases h
  | _ => intro _ _; rfl

theorem enc_ann {τ : Texts} {m b : Clo} {x y : Bytes} (h1 : ends b = true) (h2 : still b = true) (hm : enc τ false m = .ok x)
    (hb : enc τ false b = .ok y) : enc τ false (.ann m b) = .ok (9 :: (x ++ y)) := by
  obtain ⟨v, r, h⟩ := eval_ends b none h1
  have hn := eval_still b none h2
  have hs := eval_still b (some m) h2
  rw [h] at hn hs
  dsimp only at hn hs
  cases hn
  rw [enc, h] at hb
  dsimp only at hb
  have hs' : eval false (.ann m b) none = (.ok v, some m) := by simp only [eval]; exact hs
  rw [enc, hs']
  simp only [hm, hb]

theorem enc_value {τ : Texts} {c : Clo} (h : eval false c none = (.ok c, none)) : enc τ false c = encV τ false c := by
  rw [enc, h]

/-- Evaluating to what is in a box. -/
theorem eval_payload : ∀ (p : Clo) (n : Native) (r : Option Clo), payload p = some n → ∃ r', eval false p r = (.ok (.nat n), r') := by
  intro p
  induction p with
  | nat x => intro n r h; cases h; exact ⟨r, rfl⟩
  | ann m b _ ih => intro n r h; simp only [eval]; exact ih n _ h
  | run i b _ ih =>
    intro n r h
    simp only [payload] at h
    split at h
    · rename_i hi
      obtain ⟨v, r', he⟩ := eval_ends i none hi
      simp only [eval, he]
      exact ih n _ h
    · cases h
  | pull b ih => intro n r h; simp only [eval]; exact ih n r h
  | _ => intro n r h; cases h

/-- The bytes of a key. -/
def keyBytes : Native → Bytes
  | .sym s => 4 :: lenBytes s
  | .str s => 5 :: lenBytes s
  | _ => []

/-- Copying does what it should, at every place a value can stand. -/
structure Right (τ : Texts) (c : Clo) : Prop where
  value : ∀ d, tame c = true → shown c = some d → Fits τ d → enc τ false c = .ok (wire τ d)
  items : ∀ xs, tameItems c = true → items c = some xs → FitsItems τ xs → ∀ r, ∃ v r', eval false c r = (.ok v, r') ∧
    encItems τ false v = .ok (wireItems τ xs, xs.length)
  entries : ∀ es, tameEntries c = true → entries c = some es → FitsEntries τ es → ∀ r, ∃ v r', eval false c r = (.ok v, r') ∧
    encPairs τ false v = .ok (wireEntries τ es, es.length)
  entry : ∀ k d, tameEntry c = true → entry c = some (k, d) → Fits τ d → ∀ r, ∃ v r', eval false c r = (.ok (.pair (.nat k) v), r') ∧
    enc τ false v = .ok (wire τ d)

theorem right (τ : Texts) : ∀ c, Right τ c := by
  intro c
  induction c with
  | nat n =>
    refine ⟨?_, ?_, ?_, ?_⟩
    · intro d _ hs hf
      rw [enc_value rfl, encV]
      cases n <;> cases hs <;> rfl
    all_goals intros; simp_all [Par.items, Par.entries, Par.entry]
  | unit =>
    refine ⟨?_, ?_, ?_, ?_⟩
    · intro d _ hs hf; cases hs; rw [enc_value rfl, encV]; rfl
    all_goals intros; simp_all [Par.items, Par.entries, Par.entry]
  | tt =>
    refine ⟨?_, ?_, ?_, ?_⟩
    · intro d _ hs hf; cases hs; rw [enc_value rfl, encV]; rfl
    all_goals intros; simp_all [Par.items, Par.entries, Par.entry]
  | ff =>
    refine ⟨?_, ?_, ?_, ?_⟩
    · intro d _ hs hf; cases hs; rw [enc_value rfl, encV]; rfl
    all_goals intros; simp_all [Par.items, Par.entries, Par.entry]
  | box k p _ =>
    refine ⟨?_, ?_, ?_, ?_⟩
    · intro d _ hs hf
      simp only [shown] at hs
      cases hp : payload p with
      | none => rw [hp] at hs; cases hs
      | some x =>
        rw [hp] at hs
        obtain ⟨r, he⟩ := eval_payload p x none hp
        rw [enc_value rfl]
        cases k <;> cases x <;> first | (cases hs; done) | skip
        all_goals
          simp only [Option.bind_some, boxed, Option.some.injEq] at hs
          subst hs
          simp only [encV, he, valueNative, asNative, encScalar, wire]
    all_goals intros; simp_all [Par.items, Par.entries, Par.entry]
  | nil =>
    refine ⟨?_, ?_, ?_, ?_⟩
    · intro d _ hs hf; cases hs; rw [enc_value rfl, encV]; simp [wire, Items.length, wireItems]
    · intro xs _ hs _ r; cases hs; exact ⟨.nil, r, rfl, by rw [encItems]; rfl⟩
    · intro es _ hs _ r; cases hs; exact ⟨.nil, r, rfl, by rw [encPairs]; rfl⟩
    · intros; simp_all [Par.entry]
  | cons h t ihh iht =>
    have hitems : ∀ xs, tameItems (.cons h t) = true → Par.items (.cons h t) = some xs → FitsItems τ xs →
        encItems τ false (.cons h t) = .ok (wireItems τ xs, xs.length) := by
      intro xs ht hs hf
      simp only [tameItems, Bool.and_eq_true] at ht
      simp only [Par.items] at hs
      cases hh : shown h with
      | none => rw [hh] at hs; cases hs
      | some x =>
        rw [hh] at hs
        cases htl : Par.items t with
        | none => rw [htl] at hs; cases hs
        | some ys =>
          rw [htl] at hs
          cases hs
          obtain ⟨v, r', he, hv⟩ := iht.items ys ht.2 htl hf.2 none
          rw [encItems, ihh.value x ht.1 hh hf.1]
          dsimp only
          rw [he]
          simp only [hv]
          rfl
    refine ⟨?_, ?_, ?_, ?_⟩
    · intro d ht hs hf
      have hs' : shown (.cons h t) = (Par.items (.cons h t)).map .list := by
        simp only [shown, Par.items]
        cases shown h with
        | none => rfl
        | some x => cases Par.items t <;> rfl
      rw [hs'] at hs
      obtain ⟨xs, hx, rfl⟩ := Option.map_eq_some_iff.1 hs
      have := hitems xs (by simpa only [tame, tameItems] using ht) hx hf.2
      rw [enc_value rfl, encV, this]
      rfl
    · intro xs ht hs hf r
      exact ⟨_, r, rfl, hitems xs ht hs hf⟩
    · intro es ht hs hf r
      simp only [tameEntries, Bool.and_eq_true] at ht
      simp only [Par.entries] at hs
      cases hp : Par.entry h with
      | none => rw [hp] at hs; cases hs
      | some kv =>
        obtain ⟨k, d⟩ := kv
        rw [hp] at hs
        cases htl : Par.entries t with
        | none => rw [htl] at hs; cases hs
        | some fs =>
          rw [htl] at hs
          cases hs
          obtain ⟨v, r1, he, hv⟩ := ihh.entry k d ht.1 hp hf.2.1 none
          obtain ⟨v2, r2, he2, hv2⟩ := iht.entries fs ht.2 htl hf.2.2 none
          refine ⟨_, r, rfl, ?_⟩
          have hk := hf.1
          rw [encPairs, he]
          cases k with
          | sym s =>
            have h0 : field (.pair (.nat (.sym s)) v) 0 = some (.nat (.sym s)) := rfl
            have h1 : field (.pair (.nat (.sym s)) v) 1 = some v := rfl
            dsimp only
            rw [h0, h1]
            simp only [Option.bind_some, asNative, encScalar, hv]
            rw [he2]
            simp only [hv2, wireEntries, Entries.length]
          | str s =>
            have h0 : field (.pair (.nat (.str s)) v) 0 = some (.nat (.str s)) := rfl
            have h1 : field (.pair (.nat (.str s)) v) 1 = some v := rfl
            dsimp only
            rw [h0, h1]
            simp only [Option.bind_some, asNative, encScalar, hv]
            rw [he2]
            simp only [hv2, wireEntries, Entries.length]
          | _ => exact hk.elim
    · intros; simp_all [Par.entry]
  | block kvs ih =>
    refine ⟨?_, ?_, ?_, ?_⟩
    · intro d ht hs hf
      simp only [shown] at hs
      cases he : Par.entries kvs with
      | none => rw [he] at hs; cases hs
      | some es =>
        rw [he] at hs
        cases hs
        obtain ⟨v, r', h1, h2⟩ := ih.entries es ht he hf.2 none
        rw [enc_value rfl, encV, h1]
        simp only [h2]
        rfl
    all_goals intros; simp_all [Par.items, Par.entries, Par.entry]
  | pair k v _ ih =>
    refine ⟨?_, ?_, ?_, ?_⟩
    · intro d _ hs _; cases hs
    · intros; simp_all [Par.items]
    · intros; simp_all [Par.entries]
    · intro key d ht hs hf r
      cases k with
      | nat n =>
        simp only [tameEntry] at ht
        simp only [Par.entry, keyOf] at hs
        cases hv : shown v with
        | none => rw [hv] at hs; cases hs
        | some x =>
          rw [hv] at hs
          cases hs
          exact ⟨v, r, rfl, ih.value d ht hv hf⟩
      | _ => simp [tameEntry] at ht
  | ann m b ihm ih =>
    refine ⟨?_, ?_, ?_, ?_⟩
    · intro d ht hs hf
      simp only [tame, Bool.and_eq_true] at ht
      simp only [shown] at hs
      cases hm : shown m with
      | none => rw [hm] at hs; cases hs
      | some x =>
        rw [hm] at hs
        cases hb : shown b with
        | none => rw [hb] at hs; cases hs
        | some y =>
          rw [hb] at hs
          cases hs
          exact enc_ann (shown_ends b y hb) ht.2 (ihm.value x ht.1.1 hm hf.1) (ih.value y ht.1.2 hb hf.2)
    · intro xs ht hs hf r; simp only [eval]; exact ih.items xs ht hs hf _
    · intro xs ht hs hf r; simp only [eval]; exact ih.entries xs ht hs hf _
    · intro k d ht hs hf r; simp only [eval]; exact ih.entry k d (by simpa [tameEntry] using ht) hs hf _
  | run i b _ ih =>
    refine ⟨?_, ?_, ?_, ?_⟩
    · intro d ht hs hf
      simp only [tame, Bool.and_eq_true] at ht
      simp only [shown] at hs
      split at hs
      · rename_i hi; rw [enc_run hi ht.1]; exact ih.value d ht.2 hs hf
      · cases hs
    · intro xs ht hs hf r
      simp only [Par.items] at hs
      split at hs
      · rename_i hi
        obtain ⟨v, r', he⟩ := eval_ends i none hi
        simp only [eval, he]; exact ih.items xs ht hs hf _
      · cases hs
    · intro xs ht hs hf r
      simp only [Par.entries] at hs
      split at hs
      · rename_i hi
        obtain ⟨v, r', he⟩ := eval_ends i none hi
        simp only [eval, he]; exact ih.entries xs ht hs hf _
      · cases hs
    · intro k d ht hs hf r
      simp only [Par.entry] at hs
      split at hs
      · rename_i hi
        obtain ⟨v, r', he⟩ := eval_ends i none hi
        simp only [eval, he]; exact ih.entry k d (by simpa [tameEntry] using ht) hs hf _
      · cases hs
  | pull b ih =>
    refine ⟨?_, ?_, ?_, ?_⟩
    · intro d ht hs hf; rw [enc_pull]; exact ih.value d ht hs hf
    · intro xs ht hs hf r; simp only [eval]; exact ih.items xs ht hs hf _
    · intro xs ht hs hf r; simp only [eval]; exact ih.entries xs ht hs hf _
    · intro k d ht hs hf r; simp only [eval]; exact ih.entry k d (by simpa [tameEntry] using ht) hs hf _
  | kvlist l _ =>
    refine ⟨?_, ?_, ?_, ?_⟩
    · intro d _ hs _; cases hs
    · intros; simp_all [Par.items]
    · intros; simp_all [Par.entries]
    · intro k d ht; simp [tameEntry] at ht
  | _ =>
    refine ⟨?_, ?_, ?_, ?_⟩
    · intro d _ hs _; cases hs
    all_goals intros; simp_all [Par.items, Par.entries, Par.entry]

/-- A tame value comes back showing the same. -/
theorem again_shown {τ : Texts} {c : Clo} {d : Shown} (ht : tame c = true) (hs : shown c = some d) (hf : Fits τ d) :
    again τ false c = .ok (build d) := by
  have h := dec_wire τ d ((wire τ d).length + 1) [] hf (by omega)
  rw [List.append_nil] at h
  simp only [again, (right τ c).value d ht hs hf, h]

theorem spine_elements : ∀ (c : Clo) (xs : List Clo) (r : Option Clo), elements c = some xs →
    ∃ v r', eval false c r = (.ok v, r') ∧ ∀ c', eval false c' none = (.ok v, r') ∨ (∃ s, eval false c' none = (.ok v, s)) →
      spine false c' = .ok xs := by
  intro c
  induction c with
  | nil =>
    intro xs r h; cases h
    refine ⟨.nil, r, rfl, ?_⟩
    rintro c' (h | ⟨s, h⟩) <;> rw [spine, h]
  | cons x t _ ih =>
    intro xs r h
    simp only [elements] at h
    cases ht : elements t with
    | none => rw [ht] at h; cases h
    | some ys =>
      rw [ht] at h; cases h
      obtain ⟨v, r', he, hv⟩ := ih ys none ht
      have hsp := hv t (.inl he)
      refine ⟨.cons x t, r, rfl, ?_⟩
      rintro c' (h | ⟨s, h⟩) <;>
      · rw [spine, h]
        simp only [hsp]
  | ann m b _ ih => intro xs r h; simp only [eval]; exact ih xs _ h
  | run i b _ ih =>
    intro xs r h
    simp only [elements] at h
    split at h
    · rename_i hi
      obtain ⟨v, r', he⟩ := eval_ends i none hi
      simp only [eval, he]; exact ih xs _ h
    · cases h
  | pull b ih => intro xs r h; simp only [eval]; exact ih xs _ h
  | _ => intro xs r h; cases h

theorem spine_ok {c : Clo} {xs : List Clo} (h : elements c = some xs) : spine false c = .ok xs := by
  obtain ⟨v, r, he, hv⟩ := spine_elements c xs none h
  exact hv c (.inl he)

end Verif.Par
