import Verif.DataMaps
/-!
# Properties of data values

C25 structural equality, C26 block merge, C27 lookup after merge, C28 deep merge.
-/

namespace Verif.Data
open Verif.Arith

/-! ## C25 -/

/-- C25: `==` is reflexive, for all data. -/
theorem eq_refl (x : Data) : eqData x x = true := eqData_refl x

/-- C25: `==` is symmetric, for all data. -/
theorem eq_symm (x y : Data) : eqData x y = eqData y x := eqData_comm x y

/-- C25: on plain data `==` says exactly that the two values stand for the same thing; so it is
an equivalence there. -/
theorem eq_iff_same_partial {x y : Data} (hx : Plain x) (hy : Plain y) : eqData x y = true ↔ abs x = abs y :=
  eqData_abs x y hx hy

theorem eq_trans_partial {x y z : Data} (hx : Plain x) (hy : Plain y) (hz : Plain z)
    (h1 : eqData x y = true) (h2 : eqData y z = true) : eqData x z = true := by
  rw [eq_iff_same_partial hx hz, (eq_iff_same_partial hx hy).mp h1, (eq_iff_same_partial hy hz).mp h2]

/-- `{a: x}` written as a block literal. -/
def lit (k : String) (v : Data) : Data := .block (.cons (.pair k v) .nil)

def one : Data := .boxed .num (.num (.pos 1))
def two : Data := .boxed .num (.num (.pos 2))

/-- `{a: 1}`, `[[:a, 1]] block` and the native-number form are plain and equal. -/
example : Plain (lit "a" one) ∧ Plain (.block (.cons (.kvl true "a" (.native (.num (.pos 1))) .nil) .nil)) ∧
    eqData (lit "a" one) (.block (.cons (.kvl true "a" (.native (.num (.pos 1))) .nil) .nil)) = true := by
  refine ⟨?_, ?_, ?_⟩
  · simp [Plain, PlainElems, PlainElem, lit, one, boxFor, PlainAtom, Ok, intVal]
  · simp [Plain, PlainElems, PlainElem, PlainAtom, Ok, intVal]
  · decide +kernel

/-- C25 fails in general: `{a: 1}` equals both `block([[:a, 1]])` and `block([[:a, 1, 2]])`,
which differ. -/
theorem eq_not_transitive_blocks :
    ∃ x y z, eqData x y = true ∧ eqData y z = true ∧ eqData x z = false :=
  ⟨.block (.cons (.kvl true "a" one .nil) .nil), lit "a" one,
    .block (.cons (.kvl true "a" one (.cons two .nil)) .nil), by decide +kernel⟩

/-- Equal boxed values have the same kind of box: a type value never equals the string it is
written as. -/
theorem eq_boxed_kind {b c : Box} {x y : Atom} (h : eqData (.boxed b x) (.boxed c y) = true) : b = c := by
  simp only [eqData] at h; split at h <;> simp_all

/-- C25 fails in general: an unboxed string equals both a string and a type value written the
same, which differ. -/
theorem eq_not_transitive_types : ∃ x y z, eqData x y = true ∧ eqData y z = true ∧ eqData x z = false :=
  ⟨.boxed .str (.str "any"), .native (.str "any"), .boxed .typeData (.str "any"), by decide +kernel⟩

/-- C25 fails in general: equality of numbers is not transitive (see C23). -/
theorem eq_not_transitive_numbers : ∃ x y z : Num, Ok x ∧ Ok y ∧ Ok z ∧
    eqData (.boxed .num (.num x)) (.boxed .num (.num y)) = true ∧
    eqData (.boxed .num (.num y)) (.boxed .num (.num z)) = true ∧
    eqData (.boxed .num (.num x)) (.boxed .num (.num z)) = false := by
  obtain ⟨x, y, z, hx, hy, hz, h1, h2, h3⟩ := numEq_not_transitive
  refine ⟨x, y, z, hx, hy, hz, by simpa [eqData, atomEq] using h1, by simpa [eqData, atomEq] using h2, ?_⟩
  have : numEq x z = false := by
    have := trichotomy hx hz
    cases h : numEq x z <;> simp_all
  simpa [eqData, atomEq] using this

/-! ## C26 -/

/-- Merging succeeds exactly on two blocks. -/
theorem merge_isSome (l r : Data) : (merge l r).isSome = (isBlock l && isBlock r) := by
  cases l <;> cases r <;> rfl

/-- C26: the keys of a merge are the keys of `l` in order then the new keys of `r` in order,
each once. -/
theorem merge_keys {l r m : Data} (h : merge l r = some m) : keys m = firsts (keys l ++ keys r) := by
  match l, r, h with
  | .block l, .block r, h =>
    simp only [merge, Option.some.injEq] at h
    subst h
    have n := insertAll_nodup [] (pack l) (by simp)
    have good := insertAll_all (insertAll [] (pack l)) (pack r)
      (insertAll_all [] _ (by simp) (pack_good l)) (pack_good r)
    have : ∀ es : Elems, keys (.block es) = (pack es).map (·.1) := by
      intro es; simp [keys, entries, pack, Function.comp_def]
    rw [this, this, this, pack_ofList good, insertAll_keys _ _ n, insertAll_keys _ _ (by simp)]
    simp [firsts_firsts_append]

theorem entries_block (es : Elems) : entries (.block es) = pairs es := rfl

/-- C26: the value of a key in a merge is the last one given for it, reading `l` then `r`: so
`r`'s wherever `r` has the key. -/
theorem merge_value {l r m : Data} (h : merge l r = some m) (k : String) :
    lastVal k (entries m) = (lastVal k (entries r)).or (lastVal k (entries l)) := by
  match l, r, h with
  | .block l, .block r, h =>
    simp only [merge, Option.some.injEq] at h
    subst h
    have n := insertAll_nodup [] (pack l) (by simp)
    have good := insertAll_all (insertAll [] (pack l)) (pack r)
      (insertAll_all [] _ (by simp) (pack_good l)) (pack_good r)
    rw [entries_block, entries_block, entries_block, pairs_pack, pairs_pack, pairs_pack, pack_ofList good,
      lastVal_map, lastVal_map, lastVal_map, insertAll_val _ _ n, lastVal_append, insertAll_val _ _ (by simp)]
    cases lastVal k (pack r) <;> rfl

/-- C26: a merge has no repeated keys, even if its arguments have. -/
theorem merge_noRepeats {l r m : Data} (h : merge l r = some m) : NoRepeats m := by
  rw [NoRepeats, merge_keys h]; exact firsts_nodup _

/-- C26: keys of a merge with no repetition in the arguments: `l`'s, then those of `r` that are
not in `l`. -/
theorem merge_keys' {l r m : Data} (h : merge l r = some m) (hl : NoRepeats l) (hr : NoRepeats r) :
    keys m = keys l ++ (keys r).filter (fun k => k ∉ keys l) := by
  rw [merge_keys h, firsts_append, firsts_of_nodup hl, firsts_of_nodup hr]

/-- C26: merging is associative, for all blocks, repeated keys included. -/
theorem merge_assoc (a b c : Data) :
    ((merge a b).bind fun ab => merge ab c) = ((merge b c).bind fun bc => merge a bc) := by
  cases a <;> cases b <;> cases c <;> try rfl
  rename_i a b c
  have na := insertAll_nodup [] (pack a) (by simp)
  have nb := insertAll_nodup [] (pack b) (by simp)
  have ga := insertAll_all (insertAll [] (pack a)) (pack b)
      (insertAll_all [] _ (by simp) (pack_good a)) (pack_good b)
  have gb := insertAll_all (insertAll [] (pack b)) (pack c)
      (insertAll_all [] _ (by simp) (pack_good b)) (pack_good c)
  simp only [merge, Option.bind_some, pack_ofList ga, pack_ofList gb]
  rw [insertAll_self (insertAll_nodup _ _ na), ← insertAll_append [] (pack b), insertAll_insertAll _ _ na,
    insertAll_append]

def emptyBlock : Data := .block .nil

/-- C26: the empty block is an identity for merging blocks without repeated keys. -/
theorem merge_empty_partial {l : Data} (hb : isBlock l = true) (h : NoRepeats l) :
    merge l emptyBlock = some l ∧ merge emptyBlock l = some l := by
  match l, hb with
  | .block l, _ =>
    have hn : ((pack l).map (·.1)).Nodup := by
      rw [pack_keys]; simpa [NoRepeats, keys, entries, Function.comp_def] using h
    have : Elems.ofList ((pack l).map (·.2)) = l := by
      rw [pack, List.map_map]; simp [Function.comp_def, ofList_toList]
    constructor
    · simp only [merge, emptyBlock]; rw [insertAll_self hn]; simp [pack, Elems.toList, insertAll]
      simpa [pack] using this
    · simp only [merge, emptyBlock]
      rw [show insertAll [] (pack .nil) = ([] : List (String × Elem)) from rfl, insertAll_self hn, this]

example : isBlock (lit "a" one) = true ∧ NoRepeats (lit "a" one) := by
  refine ⟨rfl, ?_⟩; unfold NoRepeats; decide

/-- C26 fails for repeated keys: `{a: 1, a: 2}` merged with `{}` loses its first element. -/
theorem merge_empty_drops : ∃ l, isBlock l = true ∧ ∃ m, merge l emptyBlock = some m ∧
    (keys l).length = 2 ∧ (keys m).length = 1 :=
  ⟨.block (.cons (.pair "a" one) (.cons (.pair "a" two) .nil)), rfl, _, rfl, by decide, by decide⟩

/-- C26: metadata: the right-hand side's if it has any, else the left's. -/
theorem merge_meta (l r m : WithMeta) (h : mergeMeta l r = some m) :
    merge l.body r.body = some m.body ∧ m.info = r.info.or l.info := by
  obtain ⟨li, lb⟩ := l; obtain ⟨ri, rb⟩ := r
  cases hm : merge lb rb with
  | none => cases li <;> cases ri <;> simp [mergeMeta, hm] at h
  | some b => cases li <;> cases ri <;> simp [mergeMeta, hm] at h <;> subst h <;> simp

/-- A merge that overrides: `{a: 1, b: 2}` with `{c: 1, a: 2}` is `{a: 2, b: 2, c: 1}`. -/
example : merge (.block (.cons (.pair "a" one) (.cons (.pair "b" two) .nil)))
    (.block (.cons (.pair "c" one) (.cons (.pair "a" two) .nil))) =
    some (.block (.cons (.pair "a" two) (.cons (.pair "b" two) (.cons (.pair "c" one) .nil)))) := by
  simp [merge, pack, Elems.toList, Elem.key, insertAll, insert, Elems.ofList]

/-! ## C27 -/

/-- C27: looking up in a merge of blocks without repeated keys finds `r`'s value if `r` has the
key, `l`'s otherwise, and fails if neither has it. -/
theorem lookup_merge_partial {l r m : Data} (h : merge l r = some m) (hl : NoRepeats l) (hr : NoRepeats r)
    (k : String) : lookup k m = if k ∈ keys r then lookup k r else lookup k l := by
  have hv := merge_value h k
  have hm := merge_noRepeats h
  match l, r, m, h with
  | .block l, .block r, .block m, h =>
    have nd : ∀ es, NoRepeats (.block es) → (es.toList.map Elem.key).Nodup := by
      intro es h; simpa [NoRepeats, keys, entries, Function.comp_def] using h
    rw [entries_block, entries_block, entries_block, ← findKey_nodup _ _ (nd _ hl), ← findKey_nodup _ _ (nd _ hr),
      ← findKey_nodup _ _ (nd _ hm)] at hv
    simp only [lookup, hv]
    have := findKey_isSome k r
    have hk : k ∈ keys (.block r) ↔ (findKey k r).isSome := by
      rw [this]; simp [keys, entries, Function.comp_def]
    cases e : findKey k r with
    | some v => rw [if_pos (hk.mpr (by simp [e]))]; rfl
    | none => rw [if_neg (fun c => by simpa [e] using hk.mp c)]; simp
  | .block _, .block _, .unit, h => simp [merge] at h
  | .block _, .block _, .bool _, h => simp [merge] at h
  | .block _, .block _, .native _, h => simp [merge] at h
  | .block _, .block _, .boxed _ _, h => simp [merge] at h
  | .block _, .block _, .list _, h => simp [merge] at h

/-- C27 for all blocks: looking up in a merge finds the last entry for the key. -/
theorem lookup_merge {l r m : Data} (h : merge l r = some m) (k : String) :
    lookup k m = match (lastVal k (entries r)).or (lastVal k (entries l)) with
      | some v => .value v
      | none => .keyNotFound := by
  have hv := merge_value h k
  have hm := merge_noRepeats h
  have : isBlock m = true := by
    match l, r, h with
    | .block _, .block _, h => simp only [merge, Option.some.injEq] at h; subst h; rfl
  match m, this with
  | .block m, _ =>
    have nd : (m.toList.map Elem.key).Nodup := by
      simpa [NoRepeats, keys, entries, Function.comp_def] using hm
    rw [← hv, entries_block, ← findKey_nodup k m nd]; rfl

/-- C27 fails for repeated keys: `{a: 1, a: 2}.a` is 1 but after merging with `{}` it is 2. -/
theorem lookup_merge_repeated : ∃ l m, merge l emptyBlock = some m ∧ "a" ∉ keys emptyBlock ∧
    lookup "a" l = .value one ∧ lookup "a" m = .value two :=
  ⟨.block (.cons (.pair "a" one) (.cons (.pair "a" two) .nil)), _, rfl, by decide, rfl, rfl⟩

/-- C27: lookup with a default, in a block, always gives a value: the one plain lookup finds, or
the default. -/
theorem lookupOr_total (k : String) (d : Data) (b : Data) (hb : isBlock b = true) :
    ∃ v, lookupOr k d b = .value v ∧
      (k ∈ keys b → lookup k b = .value v) ∧ (k ∉ keys b → v = d) := by
  match b, hb with
  | .block es, _ =>
    have hk : k ∈ keys (.block es) ↔ (findKey k es).isSome := by
      rw [findKey_isSome]; simp [keys, entries, Function.comp_def]
    refine ⟨_, rfl, ?_, ?_⟩
    · intro h
      obtain ⟨v, hv⟩ := Option.isSome_iff_exists.mp (hk.mp h)
      simp [lookup, hv]
    · intro h
      cases e : findKey k es with
      | none => rfl
      | some v => exact absurd (hk.mpr (by simp [e])) h

/-- C27: plain lookup reports a missing key, and only a missing key. -/
theorem lookup_missing (k : String) (b : Data) (hb : isBlock b = true) :
    lookup k b = .keyNotFound ↔ k ∉ keys b := by
  match b, hb with
  | .block es, _ =>
    have hk : k ∈ keys (.block es) ↔ (findKey k es).isSome := by
      rw [findKey_isSome]; simp [keys, entries, Function.comp_def]
    rw [hk]
    cases e : findKey k es <;> simp [lookup, e]

/-- What lookup finds in a block is one of its entries. -/
theorem lookup_mem {k : String} {b v : Data} (h : lookup k b = .value v) : (k, v) ∈ entries b := by
  match b, h with
  | .block es, h =>
    have hf : findKey k es = some v := by
      simp only [lookup] at h; split at h <;> simp_all
    clear h
    rw [entries_block]
    exact go es hf
where
  go (es : Elems) (h : findKey k es = some v) : (k, v) ∈ pairs es := by
    match es with
    | .nil => simp [findKey] at h
    | .cons e es =>
      simp only [findKey] at h
      simp only [pairs, Elems.toList, List.map_cons, List.mem_cons]
      split at h
      · next hk => left; simp at h; rw [← hk, ← h]
      · right; exact go es h

/-- C27: safe lookup never fails: null when there is no such key or no block. -/
theorem safeLookup_spec (k : String) (b : Data) :
    (isBlock b = true → k ∈ keys b → lookup k b = .value (safeLookup b k)) ∧
    ((isBlock b = false ∨ k ∉ keys b) → safeLookup b k = .unit) := by
  cases b with
  | block es =>
    have hk : k ∈ keys (.block es) ↔ (findKey k es).isSome := by
      rw [findKey_isSome]; simp [keys, entries, Function.comp_def]
    rw [hk]
    cases e : findKey k es <;> simp [safeLookup, lookup, isBlock, e]
  | _ => simp [safeLookup, isBlock]

/-! ## C28 -/

/-- C28: deep merge of anything but two blocks is the right-hand value. -/
theorem deepMerge_nonblock {l r : Data} (h : isBlock l = false ∨ isBlock r = false) : deepMerge l r = r :=
  deepMerge_right h

/-- C28: deep merge of two blocks has the keys of the shallow merge, in the same order. -/
theorem deepMerge_keys {l r m : Data} (h : merge l r = some m) : keys (deepMerge l r) = keys m := by
  rw [merge_keys h]
  match l, r, h with
  | .block l, .block r, _ =>
    rw [deepMerge_block]
    have : ∀ es : Elems, keys (.block es) = (pairs es).map (·.1) := by
      intro es; simp [keys, entries, pairs]
    rw [this, this, this, pairs_ofPairs, upAll_keys _ _ _ (insertAll_nodup _ _ (by simp)), insertAll_keys _ _ (by simp)]
    simp [firsts_firsts_append]

/-- C28: the values of a deep merge of blocks: keys on one side only keep their value, keys on
both sides get the deep merge of the two values.  With `deepMerge_nonblock` this says where it
recurses. -/
theorem deepMerge_value {l r : Data} (hl : isBlock l = true) (hr : isBlock r = true) (nr : NoRepeats r) (k : String) :
    lastVal k (entries (deepMerge l r)) =
      match lastVal k (entries l), lastVal k (entries r) with
      | some v, some w => some (deepMerge v w)
      | none, some w => some w
      | some v, none => some v
      | none, none => none := by
  match l, r, hl, hr with
  | .block l, .block r, _, _ =>
    have nd : ((pairs r).map (·.1)).Nodup := by
      rw [pairs_keys]; simpa [NoRepeats, keys, entries, Function.comp_def] using nr
    rw [deepMerge_block, entries_block, entries_block, entries_block, pairs_ofPairs,
      upAll_val _ _ _ (insertAll_nodup _ _ (by simp)) nd, insertAll_val _ _ (by simp)]
    rw [List.nil_append]
    cases lastVal k (pairs l) <;> cases lastVal k (pairs r) <;> rfl

/-- C28: deep merging is `merge-with` deep merging. -/
theorem deepMerge_mergeWith {l r : Data} (hl : isBlock l = true) (hr : isBlock r = true) :
    mergeWith deepMerge l r = some (deepMerge l r) := by
  match l, r, hl, hr with
  | .block l, .block r, _, _ => rw [deepMerge_block]; rfl

/-- `merge-with f` on blocks, for any `f`. -/
theorem mergeWith_value {f : Data → Data → Data} {l r m : Data} (h : mergeWith f l r = some m) (nr : NoRepeats r)
    (k : String) : lastVal k (entries m) =
      match lastVal k (entries l), lastVal k (entries r) with
      | some v, some w => some (f v w)
      | none, some w => some w
      | some v, none => some v
      | none, none => none := by
  match l, r, h with
  | .block l, .block r, h =>
    simp only [mergeWith, Option.some.injEq] at h
    subst h
    have nd : ((pairs r).map (·.1)).Nodup := by
      rw [pairs_keys]; simpa [NoRepeats, keys, entries, Function.comp_def] using nr
    have := upAll_val f (pairs r) _ (insertAll_nodup [] (pairs l) (by simp)) nd k
    rw [upAll] at this
    rw [entries_block, entries_block, entries_block, pairs_ofPairs, this, insertAll_val _ _ (by simp)]
    rw [List.nil_append]
    cases lastVal k (pairs l) <;> cases lastVal k (pairs r) <;> rfl

/-- C28: deep merge is associative on blocks with distinct keys, unless at some path the outer
two have blocks and the middle one has something else. -/
theorem deepMerge_assoc_partial {a b c : Data} (hb : Distinct b) (hc : Distinct c) (h : ¬ Clash a b c) :
    deepMerge (deepMerge a b) c = deepMerge a (deepMerge b c) := deepMerge_assoc hb hc h

/-- Three nested blocks that meet the hypotheses. -/
example : Distinct (lit "x" (lit "q" two)) ∧ ¬ Clash (lit "x" (lit "p" one)) (lit "x" (lit "q" two)) (lit "x" (lit "p" two)) := by
  constructor
  · simp [Distinct, DistinctElems, DistinctElem, lit, two, Elems.toList]
  · intro h
    cases h with
    | here _ h _ => simp [lit, isBlock] at h
    | there k ha hb hc h =>
      simp [entries, lit, Elems.toList, Elem.key, Elem.val] at ha hb hc
      obtain ⟨_, rfl⟩ := ha; obtain ⟨_, rfl⟩ := hb; obtain ⟨_, rfl⟩ := hc
      cases h with
      | here _ h _ => simp [isBlock] at h
      | there k ha hb hc h =>
        simp [entries, Elems.toList, Elem.key, Elem.val] at ha hb hc
        exact absurd (ha.1.symm.trans hb.1) (by decide)

/-- C28 fails: deep merge is not associative, even with distinct keys:
`{x: {p: 1}}`, `{x: 2}`, `{x: {q: 2}}`.  Merged from the left the `p` is gone; from the right it
survives. -/
theorem deepMerge_not_assoc : ∃ a b c, Distinct a ∧ Distinct b ∧ Distinct c ∧
    deepMerge (deepMerge a b) c = lit "x" (lit "q" two) ∧
    deepMerge a (deepMerge b c) = lit "x" (.block (.cons (.pair "p" one) (.cons (.pair "q" two) .nil))) := by
  refine ⟨lit "x" (lit "p" one), lit "x" two, lit "x" (lit "q" two), ?_, ?_, ?_, ?_, ?_⟩
  · simp [Distinct, DistinctElems, DistinctElem, lit, one, Elems.toList]
  · simp [Distinct, DistinctElems, DistinctElem, lit, two, Elems.toList]
  · simp [Distinct, DistinctElems, DistinctElem, lit, two, Elems.toList]
  · simp [deepMerge, lit, one, two, pairs, Elems.toList, Elem.key, Elem.val, insertAll, insert, ofPairs, Elems.ofList, deepElems, deepElem, upsert]
  · simp [deepMerge, lit, one, two, pairs, Elems.toList, Elem.key, Elem.val, insertAll, insert, ofPairs, Elems.ofList, deepElems, deepElem, upsert]

end Verif.Data
