import Verif.NestLemmas

/-!
# What the functions on nested blocks do

C118 changing, C119 finding, C120 queries, C121 matching.
-/

namespace Verif.Nest

/-! ## C118: changing -/

/-- `set-value` and `update-value-or`: the key has the new value, or the default if it was not there; other
keys have the values they had; keys keep their places, and a new one comes last. -/
theorem or_is {k : String} {f : Val → Option Val} {d b b' : Val} (h : updateValueOr k f d b = some b') :
    ∃ es r, b = .block es ∧ b' = .block r ∧
      lookup k b' = (match find k es with | some v => f v | none => some d) ∧
      (∀ j, j ≠ k → lookup j b' = lookup j b) ∧
      r.map Prod.fst = es.map Prod.fst ++ (if k ∈ es.map Prod.fst then [] else [k]) := by
  obtain ⟨es, r, rfl, rfl, h1, _, h3, h4⟩ := updateValueOr_some h
  exact ⟨es, r, rfl, rfl, h1, h3, h4⟩

theorem set_is (k : String) (v : Val) (es : List (String × Val)) : ∃ b', setValue k v (.block es) = some b' ∧
    lookup k b' = some v ∧ ∀ j, j ≠ k → lookup j b' = find j es := by
  obtain ⟨r, hr⟩ := updateElems_ok (k := k) (f := fun _ => some v) (es := es) fun _ _ _ => rfl
  have h : ∃ b', setValue k v (.block es) = some b' := by
    unfold setValue
    rw [updateValueOr, updateOrElems_eq, hr]
    exact ⟨_, rfl⟩
  obtain ⟨b', hb⟩ := h
  refine ⟨b', hb, ?_⟩
  obtain ⟨es', r', e1, rfl, h1, _, h3, _⟩ := updateValueOr_some hb
  cases e1
  refine ⟨?_, h3⟩
  show find k r' = some v
  rw [h1]
  cases find k es <;> rfl

/-- What is at the path after `update` is the function of what was there; and nothing, if nothing was. -/
theorem update_there {ks : List String} {f : Val → Option Val} {b b' : Val} (h : update ks f b = some b') :
    lookupPath ks b' = (lookupPath ks b).bind f := by
  induction ks generalizing b b' with
  | nil => rw [update_nil] at h; simp [h]
  | cons k ks ih =>
    rw [update_cons] at h
    obtain ⟨es, r, rfl, rfl, hr⟩ := updateValue_some h
    obtain ⟨_, h2, h3, _⟩ := updateElems_some hr
    simp only [lookupPath_cons, lookup, h2]
    cases hf : find k es with
    | none => rfl
    | some w =>
      obtain ⟨w', hw⟩ := Option.isSome_iff_exists.1 (h3 w hf)
      simp only [Option.bind_some, hw]
      exact ih hw

/-- What is at paths of which neither goes on from the other is as it was. -/
theorem update_other {ks : List String} {f : Val → Option Val} {b b' : Val} (h : update ks f b = some b')
    {p : List String} (h1 : ¬ks <+: p) (h2 : ¬p <+: ks) : lookupPath p b' = lookupPath p b := by
  induction ks generalizing b b' p with
  | nil => exact absurd List.nil_prefix h1
  | cons k ks ih =>
    cases p with
    | nil => exact absurd List.nil_prefix h2
    | cons j p =>
      rw [update_cons] at h
      obtain ⟨es, r, rfl, rfl, hr⟩ := updateValue_some h
      obtain ⟨_, e2, e3, e4⟩ := updateElems_some hr
      simp only [lookupPath_cons, lookup]
      by_cases hk : j = k
      · subst hk
        rw [e2]
        cases hf : find j es with
        | none => rfl
        | some w =>
          obtain ⟨w', hw⟩ := Option.isSome_iff_exists.1 (e3 w hf)
          simp only [Option.bind_some, hw]
          exact ih hw (fun h => h1 ((List.prefix_cons_inj j).2 h)) (fun h => h2 ((List.prefix_cons_inj j).2 h))
      · rw [e4 j hk]

/-- It succeeds where there is something, if the function does. -/
theorem update_ok {ks : List String} {f : Val → Option Val} {b w w' : Val} (hd : Distinct b)
    (h : lookupPath ks b = some w) (hf : f w = some w') : ∃ b', update ks f b = some b' := by
  induction ks generalizing b with
  | nil => cases h; exact ⟨w', hf⟩
  | cons k ks ih =>
    cases b with
    | atom a => rw [lookupPath_cons] at h; cases h
    | list l => rw [lookupPath_cons] at h; cases h
    | block es =>
      rw [lookupPath_cons, lookup] at h
      cases hk : find k es with
      | none => rw [hk] at h; cases h
      | some c =>
        rw [hk] at h
        cases hd with
        | block _ hn he =>
          obtain ⟨c', hc⟩ := ih (he _ (find_mem hk)) h
          obtain ⟨r, hr⟩ := updateElems_ok (k := k) (f := update ks f) (es := es) (by
            intro e hem hek
            have := find_of_mem hn hem
            rw [hek, hk] at this
            cases this
            simp [hc])
          exact ⟨.block r, by rw [update_cons, updateValue, hr]; rfl⟩

/-- Where there is nothing, it changes nothing. -/
theorem update_missing {ks : List String} {f : Val → Option Val} {b b' : Val} (hd : Distinct b)
    (h : update ks f b = some b') (hn : lookupPath ks b = none) : b' = b := by
  induction ks generalizing b b' with
  | nil => cases hn
  | cons k ks ih =>
    rw [update_cons] at h
    obtain ⟨es, r, rfl, rfl, hr⟩ := updateValue_some h
    cases hd with
    | block _ hnd he =>
      rw [updateElems_same hr]
      intro e hem hek w hw
      have := find_of_mem hnd hem
      rw [hek] at this
      rw [lookupPath_cons, lookup, this] at hn
      exact ih (he e hem) hw hn

/-- So `alter` puts the value in where there is one, and otherwise changes nothing; a value that is no block
on the way is an error. -/
theorem alter_is {ks : List String} {v b : Val} (hd : Distinct b) :
    (∀ w, lookupPath ks b = some w → ∃ b', alter ks v b = some b' ∧ lookupPath ks b' = some v ∧
      ∀ p, ¬ks <+: p → ¬p <+: ks → lookupPath p b' = lookupPath p b) ∧
    (lookupPath ks b = none → alter ks v b = some b ∨ alter ks v b = none) := by
  constructor
  · intro w hw
    obtain ⟨b', hb⟩ := update_ok (f := fun _ => some v) hd hw rfl
    refine ⟨b', hb, ?_, fun p h1 h2 => update_other hb h1 h2⟩
    rw [update_there hb, hw]
    rfl
  · intro hn
    cases h : alter ks v b with
    | none => exact .inr rfl
    | some b' => exact .inl (by rw [update_missing hd h hn])

/-- Putting in twice is putting in the second. -/
theorem alter_twice {ks : List String} {v w b b' : Val} (h : alter ks v b = some b') :
    alter ks w b' = alter ks w b := by
  induction ks generalizing b b' with
  | nil => rfl
  | cons k ks ih =>
    unfold alter at h ih ⊢
    rw [update_cons] at h ⊢
    obtain ⟨es, r, rfl, rfl, hr⟩ := updateValue_some h
    rw [update_cons, updateValue, updateValue]
    congr 1
    clear h
    induction es generalizing r with
    | nil => cases hr; rfl
    | cons e es ihe =>
      rw [updateElems] at hr
      split at hr
      · next x q h1 h2 =>
        cases hr
        rw [updateElems, updateElems, ihe _ h2]
        by_cases hk : e.1 = k
        · simp only [if_pos hk] at h1 ⊢
          rw [ih h1]
        · simp only [if_neg hk] at h1 ⊢
          cases h1
          rfl
      · cases hr

/-- `merge-at`: at the path there is what was there with the new keys over it; if there was nothing, just the
new ones. -/
theorem merge_there {ks : List String} {vs : List (String × Val)} {b b' : Val} (hd : Distinct b)
    (hv : (vs.map Prod.fst).Nodup) (h : mergeAt (.block vs) ks b = some b') (k : String) :
    lookupPath (ks ++ [k]) b' = (find k vs).or (lookupPath (ks ++ [k]) b) := by
  induction ks generalizing b b' with
  | nil =>
    cases b with
    | atom a => cases h
    | list l => cases h
    | block es =>
      cases hd with
      | block _ hn _ =>
        rw [mergeAt, merge] at h
        cases h
        simp only [List.nil_append, lookupPath_cons, lookup]
        rw [find_insertAll _ _ _ hv, find_insertAll _ _ _ hn]
        cases find k vs <;> cases find k es <;> rfl
  | cons j ks ih =>
    rw [mergeAt] at h
    obtain ⟨es, r, rfl, rfl, h1, h2, _, _⟩ := updateValueOr_some h
    cases hd with
    | block _ hn he =>
      simp only [List.cons_append, lookupPath_cons, lookup, h1]
      cases hf : find j es with
      | none =>
        simp only [Option.bind_some, Option.bind_none]
        rw [lookup_tongue]
        simp [lookup]
        cases find k vs <;> rfl
      | some w =>
        obtain ⟨w', hw⟩ := Option.isSome_iff_exists.1 (h2 w hf)
        simp only [Option.bind_some, hw]
        exact ih (he _ (find_mem hf)) hw

/-- Other paths are as they were. -/
theorem merge_other {ks : List String} {v b b' : Val} (h : mergeAt v ks b = some b') {p : List String}
    (h1 : ¬ks <+: p) (h2 : ¬p <+: ks) : lookupPath p b' = lookupPath p b := by
  induction ks generalizing b b' p with
  | nil => exact absurd List.nil_prefix h1
  | cons k ks ih =>
    cases p with
    | nil => exact absurd List.nil_prefix h2
    | cons j p =>
      rw [mergeAt] at h
      obtain ⟨es, r, rfl, rfl, e1, e2, e3, _⟩ := updateValueOr_some h
      simp only [lookupPath_cons, lookup]
      by_cases hk : j = k
      · subst hk
        have g1 : ¬ks <+: p := fun h => h1 ((List.prefix_cons_inj j).2 h)
        have g2 : ¬p <+: ks := fun h => h2 ((List.prefix_cons_inj j).2 h)
        rw [e1]
        cases hf : find j es with
        | none =>
          simp only [Option.bind_some, Option.bind_none]
          exact lookup_tongue_other g1 g2
        | some w =>
          obtain ⟨w', hw⟩ := Option.isSome_iff_exists.1 (e2 w hf)
          simp only [Option.bind_some, hw]
          exact ih hw g1 g2
      · rw [e3 j hk]

/-- It succeeds if all there is along the path is blocks. -/
theorem merge_ok {ks : List String} {vs : List (String × Val)} {b : Val} (hd : Distinct b)
    (h : ∀ q w, q <+: ks → lookupPath q b = some w → IsBlock w) : ∃ b', mergeAt (.block vs) ks b = some b' := by
  induction ks generalizing b with
  | nil =>
    obtain ⟨es, rfl⟩ := h [] b List.nil_prefix rfl
    exact ⟨_, rfl⟩
  | cons k ks ih =>
    obtain ⟨es, rfl⟩ := h [] b List.nil_prefix rfl
    cases hd with
    | block _ hn he =>
      obtain ⟨r, hr⟩ := updateElems_ok (k := k) (f := mergeAt (.block vs) ks) (es := es) (by
        intro e hem hek
        have hf := find_of_mem hn hem
        rw [hek] at hf
        obtain ⟨c, hc⟩ := ih (he e hem) (by
          intro q w hq hw
          apply h (k :: q) w ((List.prefix_cons_inj k).2 hq)
          rw [lookupPath_cons, lookup, hf]
          exact hw)
        simp [hc])
      exact ⟨.block (r ++ _), by rw [mergeAt, updateValueOr, updateOrElems_eq, hr]; rfl⟩

/-- `select` and `dissoc`. -/
theorem select_is (ks : List String) (es : List (String × Val)) (k : String) :
    find k (select ks es) = (if k ∈ ks then find k es else none) ∧
    find k (dissoc ks es) = (if k ∈ ks then none else find k es) ∧
    (select ks es).Sublist es ∧ (dissoc ks es).Sublist es := by
  unfold select dissoc
  rw [Lib.filter_eq, Lib.filter_eq]
  refine ⟨?_, ?_, List.filter_sublist, List.filter_sublist⟩
  · induction es with
    | nil => simp [find]
    | cons e es ih =>
      rw [List.filter_cons]
      by_cases hk : e.1 = k
      · subst hk
        by_cases hm : e.1 ∈ ks
        · simp [hm, find]
        · simp only [List.contains_iff_mem, hm, if_false] at ih ⊢
          exact ih
      · by_cases hm : e.1 ∈ ks
        · simp only [List.contains_iff_mem, hm, if_true, find, hk, if_false]
          exact ih
        · simp only [List.contains_iff_mem, hm, if_false, find, hk]
          exact ih
  · induction es with
    | nil => simp [find]
    | cons e es ih =>
      rw [List.filter_cons]
      by_cases hk : e.1 = k
      · subst hk
        by_cases hm : e.1 ∈ ks
        · simp [hm] at ih ⊢
          exact ih
        · simp [hm, find]
      · by_cases hm : e.1 ∈ ks
        · simp [hm, find, hk] at ih ⊢
          exact ih
        · simp [hm, find, hk] at ih ⊢
          exact ih

theorem strictWeak_key : Lib.StrictWeak fun a b : String × Val => decide (a.1 < b.1) :=
  ⟨fun a b => by
    simp only [decide_eq_true_eq, decide_eq_false_iff_not]
    exact fun h => String.lt_asymm h, fun a b c => by
    simp only [decide_eq_true_eq]
    intro h
    by_cases h1 : a.1 < b.1
    · exact .inl h1
    · right
      apply Classical.byContradiction
      intro h2
      exact (String.not_lt.2 (String.le_trans (String.not_lt.1 h2) (String.not_lt.1 h1))) h⟩

theorem find_filter (k : String) (es : List (String × Val)) :
    find k es = (es.filter fun e => decide (e.1 = k)).head?.map Prod.snd := by
  induction es with
  | nil => rfl
  | cons e es ih =>
    rw [find, List.filter_cons]
    by_cases h : e.1 = k
    · simp [h]
    · simp [h, ih]

/-- `sort-keys` gives the same elements, by their keys, and what is looked up is as it was. -/
theorem sortKeys_is (es : List (String × Val)) : (sortKeys es).Perm es ∧
    ((sortKeys es).map Prod.fst).Pairwise (· ≤ ·) ∧ ∀ k, find k (sortKeys es) = find k es := by
  refine ⟨Lib.sort_perm _ es, ?_, ?_⟩
  · have := Lib.sort_ordered strictWeak_key es
    rw [List.pairwise_map]
    exact this.imp fun h => by simpa using h
  · intro k
    rw [find_filter, find_filter]
    have hs := Lib.sort_stable strictWeak_key (k, .atom 0) es
    have e : Lib.same (fun a b : String × Val => decide (a.1 < b.1)) (k, .atom 0) = fun e => decide (e.1 = k) := by
      funext e
      rw [Bool.eq_iff_iff]
      simp only [Lib.same, Bool.and_eq_true, Bool.not_eq_true', decide_eq_false_iff_not, decide_eq_true_eq]
      constructor
      · rintro ⟨h1, h2⟩
        exact String.le_antisymm (String.not_lt.1 h1) (String.not_lt.1 h2)
      · rintro rfl
        exact ⟨String.lt_irrefl _, String.lt_irrefl _⟩
    rw [e] at hs
    unfold sortKeys
    rw [hs]

/-- `lookup-alts` gives the first of the keys that is there; `lookup-across` the first of the blocks. -/
theorem alts_are (ks : List String) (d : Val) (es : List (String × Val)) (bs : List (List (String × Val)))
    (k : String) : lookupAlts ks d es = (ks.findSome? fun k => find k es).getD d ∧
      lookupAcross k d bs = (bs.findSome? fun b => find k b).getD d := by
  unfold lookupAlts lookupAcross
  rw [Lib.foldr_eq, Lib.foldr_eq]
  constructor
  · induction ks with
    | nil => rfl
    | cons k ks ih =>
      rw [List.foldr_cons, lookupOr, List.findSome?_cons]
      cases find k es with
      | none => exact ih
      | some v => rfl
  · induction bs with
    | nil => rfl
    | cons b bs ih =>
      rw [List.foldr_cons, lookupOr, List.findSome?_cons]
      cases find k b with
      | none => exact ih
      | some v => rfl

/-- `{ a: { b: 1, c: 2 } }`. -/
def sample : Val := .block [("a", .block [("b", .atom 1), ("c", .atom 2)])]

theorem sample_distinct : Distinct sample := by
  refine .block _ (by decide) ?_
  intro e he
  rw [List.mem_singleton] at he
  subst he
  refine .block _ (by decide) ?_
  intro e he
  rcases List.mem_cons.1 he with rfl | he
  · exact .atom _
  · rw [List.mem_singleton] at he; subst he; exact .atom _

example : alter ["a", "b"] (.atom 7) sample = some (.block [("a", .block [("b", .atom 7), ("c", .atom 2)])]) := by
  rfl
example : alter ["a", "x"] (.atom 7) sample = some sample := by rfl
example : alter ["a", "b", "x"] (.atom 7) sample = none := by rfl
example : mergeAt (.block [("c", .atom 5), ("d", .atom 6)]) ["a"] sample =
    some (.block [("a", .block [("b", .atom 1), ("c", .atom 5), ("d", .atom 6)])]) := by rfl
example : mergeAt (.block [("c", .atom 5)]) ["x", "y"] sample = some (.block [("a", .block [("b", .atom 1),
    ("c", .atom 2)]), ("x", .block [("y", .block [("c", .atom 5)])])]) := by rfl

/-! ## C119: finding -/

/-- `deep-find` gives just the values of the key in all blocks that are in the value, in blocks or lists at
whatever depth. -/
theorem find_iff (k : String) (b v : Val) :
    v ∈ deepFind k b ↔ ∃ es, Inside b (.block es) ∧ find k es = some v := by
  unfold deepFind
  rw [walk_mem]
  constructor
  · rintro ⟨es, h1, h2⟩
    refine ⟨es, h1, ?_⟩
    split at h2
    · simpa using h2
    · cases h2
  · rintro ⟨es, h1, h2⟩
    refine ⟨es, h1, ?_⟩
    rw [has_eq, h2]
    simp

/-- Each path given by `deep-find-paths` would lead to a value. -/
def PathsLead : Prop := ∀ (k : String) (b : Val), Distinct b → ∀ p ∈ deepFindPaths k b, ∃ v, lookupPath p b = some v

/-- It does not if there is a list on the way: `{ a: [{ k: 1 }] }` gives `[:a, :k]`. -/
theorem paths_false : ¬PathsLead := by
  intro h
  have hd : Distinct (.block [("a", .list [.block [("k", .atom 1)]])]) := by
    refine .block _ (by decide) ?_
    intro e he
    rw [List.mem_singleton] at he
    subst he
    refine .list _ ?_
    intro v hv
    rw [List.mem_singleton] at hv
    subst hv
    refine .block _ (by decide) ?_
    intro e he
    rw [List.mem_singleton] at he
    subst he
    exact .atom _
  obtain ⟨v, hv⟩ := h "k" _ hd ["a", "k"] (by
    have : deepFindPaths "k" (.block [("a", .list [.block [("k", .atom 1)]])]) = [["a", "k"]] := by rfl
    rw [this]; exact List.mem_singleton.2 rfl)
  cases hv

/-- Without lists, what is at the paths is what `deep-find` gives, in the same order. -/
theorem paths_lead_partial (k : String) {b : Val} (hd : Distinct b) (hl : NoLists b) :
    (deepFindPaths k b).map (fun p => lookupPath p b) = (deepFind k b).map some := by
  induction b using Val.ind with
  | ha a => simp [deepFindPaths, deepFind, walk_atom]
  | hl l _ => cases hl
  | hb es ih =>
    cases hd with
    | block _ hn he =>
      cases hl with
      | block _ hle =>
        rw [deepFindPaths_block, deepFind_block, List.map_append, List.map_append, List.map_flatMap, List.map_flatMap]
        congr 1
        · cases hf : find k es with
          | none => rfl
          | some v => simp [lookup, hf]
        · simp only [List.flatMap]
          congr 1
          apply List.map_congr_left
          intro e hem
          rw [← ih e hem (he e hem) (hle e hem), List.map_map]
          apply List.map_congr_left
          intro p _
          simp only [Function.comp, lookupPath_cons, lookup, find_of_mem hn hem, Option.bind_some]

/-- All paths that end with the key and lead to something are given, and no other. -/
theorem paths_iff_partial (k : String) {b : Val} (hd : Distinct b) (hl : NoLists b) (p : List String) :
    p ∈ deepFindPaths k b ↔ ∃ q v, p = q ++ [k] ∧ lookupPath p b = some v := by
  induction b using Val.ind generalizing p with
  | ha a =>
    constructor
    · intro h; simp [deepFindPaths, walk_atom] at h
    · rintro ⟨q, v, rfl, h⟩
      have := lookupPath_atom h
      simp at this
  | hl l _ => cases hl
  | hb es ih =>
    cases hd with
    | block _ hn he =>
      cases hl with
      | block _ hle =>
        rw [deepFindPaths_block, List.mem_append, List.mem_flatMap]
        constructor
        · rintro (h | ⟨e, hem, h⟩)
          · split at h
            · next hs =>
              rw [List.mem_singleton] at h
              obtain ⟨v, hv⟩ := Option.isSome_iff_exists.1 hs
              exact ⟨[], v, h, by simp [h, lookup, hv]⟩
            · cases h
          · obtain ⟨p', hp, rfl⟩ := List.mem_map.1 h
            obtain ⟨q, v, rfl, hv⟩ := (ih e hem (he e hem) (hle e hem) p').1 hp
            exact ⟨e.1 :: q, v, rfl, by rw [lookupPath_cons, lookup, find_of_mem hn hem]; exact hv⟩
        · rintro ⟨q, v, rfl, h⟩
          cases q with
          | nil =>
            left
            simp only [List.nil_append, lookupPath_cons, lookup] at h
            cases hf : find k es with
            | none => rw [hf] at h; cases h
            | some w => simp
          | cons j q =>
            right
            rw [List.cons_append, lookupPath_cons, lookup] at h
            cases hf : find j es with
            | none => rw [hf] at h; cases h
            | some w =>
              rw [hf] at h
              have hm := find_mem hf
              exact ⟨_, hm, List.mem_map.2 ⟨_, (ih _ hm (he _ hm) (hle _ hm) _).2 ⟨q, v, rfl, h⟩, rfl⟩⟩

/-- None is given twice. -/
theorem paths_once_partial (k : String) {b : Val} (hd : Distinct b) (hl : NoLists b) :
    (deepFindPaths k b).Nodup := by
  induction b using Val.ind with
  | ha a => simp [deepFindPaths, walk_atom]
  | hl l _ => cases hl
  | hb es ih =>
    cases hd with
    | block _ hn he =>
      cases hl with
      | block _ hle =>
        rw [deepFindPaths_block, List.nodup_append]
        refine ⟨by split <;> simp, ?_, ?_⟩
        · apply nodup_flat (q := []) hn
          · intro e hem
            exact nodup_map (fun a b h => (List.cons.inj h).2) (ih e hem (he e hem) (hle e hem))
          · intro e hem x hx
            obtain ⟨p, _, rfl⟩ := List.mem_map.1 hx
            exact ⟨p, rfl⟩
        · intro x hx y hy e
          subst e
          obtain ⟨e, hem, h⟩ := List.mem_flatMap.1 hy
          obtain ⟨p, hp, rfl⟩ := List.mem_map.1 h
          obtain ⟨q, v, rfl, _⟩ := (paths_iff_partial k (he e hem) (hle e hem) p).1 hp
          split at hx
          · simp at hx
          · cases hx

/-- `{ a: [{ k: 1 }], k: 2 }`. -/
example : deepFind "k" (.block [("a", .list [.block [("k", .atom 1)]]), ("k", .atom 2)]) = [.atom 2, .atom 1] := by rfl
example : deepFindPaths "b" sample = [["a", "b"]] := by rfl
example : NoLists sample := by
  refine .block _ fun e he => ?_
  rw [List.mem_singleton] at he
  subst he
  refine .block _ fun e he => ?_
  rcases List.mem_cons.1 he with rfl | he
  · exact .atom _
  · rw [List.mem_singleton] at he; subst he; exact .atom _

/-! ## C120: queries -/

/-- What a query gives: the paths that fit the pattern with `**` before it, unless it begins so, and lead to
something without going through lists; if it ends with `**`, those that lead to blocks. -/
theorem query_iff (segs : List Seg) {b : Val} (hd : Distinct b) (p : List String) (v : Val) :
    (p, v) ∈ query segs b ↔ Fits (anywhere segs) p ∧ lookupPath p b = some v ∧
      ((anywhere segs).getLast? = some .deep → IsBlock v) := by
  have hs : (if segs.head? = some .deep then segs else .deep :: segs) = anywhere segs := by
    cases segs with
    | nil => rfl
    | cons s segs => cases s <;> simp [anywhere]
  unfold query
  rw [hs, fold_mem _ (by intro x hx; rw [List.mem_singleton] at hx; subst hx; exact hd)]
  constructor
  · rintro ⟨x, hx, r, rfl, h⟩
    rw [List.mem_singleton] at hx
    subst hx
    exact h
  · intro h
    exact ⟨_, List.mem_singleton.2 rfl, p, rfl, h⟩

/-- `*` would match one level. -/
def StarOne : Prop := ∀ b p v, Distinct b → (p, v) ∈ query [.one] b → p.length = 1

/-- It matches at any: `*` of `{ a: { b: 1, c: 2 } }` gives `1` and `2` too. -/
theorem star_false : ¬StarOne := by
  intro h
  have := h sample ["a", "b"] (.atom 1) sample_distinct
    ((query_iff _ sample_distinct _ _).2 ⟨.more _ (.none (.one _ .nil)), rfl, by simp [anywhere]⟩)
  cases this

/-- `**` would match any depth: a query for a key would give what `deep-find` does. -/
def QueryAll : Prop := ∀ k b v, Distinct b → v ∈ deepFind k b → ∃ p, (p, v) ∈ query [.key k] b

/-- It does not go into lists. -/
theorem lists_false : ¬QueryAll := by
  intro h
  have hd : Distinct (.block [("a", .list [.block [("k", .atom 1)]])]) := by
    refine .block _ (by decide) fun e he => ?_
    rw [List.mem_singleton] at he
    subst he
    refine .list _ fun v hv => ?_
    rw [List.mem_singleton] at hv
    subst hv
    refine .block _ (by decide) fun e he => ?_
    rw [List.mem_singleton] at he
    subst he
    exact .atom _
  obtain ⟨p, hp⟩ := h "k" _ (.atom 1) hd (by
    rw [show deepFind "k" (.block [("a", .list [.block [("k", .atom 1)]])]) = [.atom 1] by rfl]
    exact List.mem_singleton.2 rfl)
  rw [show query [.key "k"] (.block [("a", .list [.block [("k", .atom 1)]])]) = [] by rfl] at hp
  cases hp

/-- Without lists it does. -/
theorem query_find_partial (k : String) {b : Val} (hd : Distinct b) (hl : NoLists b) (p : List String) :
    (∃ v, (p, v) ∈ query [.key k] b) ↔ p ∈ deepFindPaths k b := by
  rw [paths_iff_partial k hd hl]
  constructor
  · rintro ⟨v, h⟩
    obtain ⟨h1, h2, _⟩ := (query_iff _ hd _ _).1 h
    obtain ⟨a, c, rfl, hc⟩ := fits_deep.1 h1
    cases hc with
    | key _ hc => cases hc; exact ⟨a, v, rfl, h2⟩
  · rintro ⟨q, v, rfl, h⟩
    exact ⟨v, (query_iff _ hd _ _).2 ⟨fits_deep.2 ⟨q, [k], rfl, .key k .nil⟩, h, by simp [anywhere]⟩⟩

/-- No path would be given twice. -/
def QueryOnce : Prop := ∀ segs b, Distinct b → ((query segs b).map Prod.fst).Nodup

/-- One is for `**.**.b`. -/
theorem once_false : ¬QueryOnce := by
  intro h
  have := h [.deep, .deep, .key "b"] sample sample_distinct
  rw [show (query [.deep, .deep, .key "b"] sample).map Prod.fst = [["a", "b"], ["a", "b"]] by rfl] at this
  revert this
  decide

/-- None is if `**` is nowhere but at the beginning. -/
theorem query_once_partial (segs : List Seg) (hs : Seg.deep ∉ segs) {b : Val} (hd : Distinct b) :
    ((query segs b).map Prod.fst).Nodup ∧ ((query (.deep :: segs) b).map Prod.fst).Nodup := by
  have h : ((Lib.foldl applySeg [([], b)] (.deep :: segs)).map Prod.fst).Nodup := by
    rw [Lib.foldl]
    have h0 : ((applySeg [([], b)] .deep).map Prod.fst).Nodup := by
      simp only [applySeg, mapcat_eq, List.flatMap_cons, List.flatMap_nil, List.append_nil]
      exact desc_once hd []
    have h1 := applySeg_distinct (pairs := [([], b)])
      (by intro x hx; rw [List.mem_singleton] at hx; subst hx; exact hd) .deep
    revert h0 h1
    generalize applySeg [([], b)] .deep = pairs
    clear hd
    induction segs generalizing pairs with
    | nil => intro h0 _; exact h0
    | cons s segs ih =>
      intro h0 h1
      rw [Lib.foldl]
      exact ih (fun h => hs (List.mem_cons_of_mem _ h)) _
        (applySeg_once h0 h1 (fun h => hs (h ▸ List.mem_cons_self))) (applySeg_distinct h1 s)
  constructor
  · unfold query
    rw [if_neg]
    · exact h
    · intro e
      cases segs with
      | nil => cases e
      | cons s segs =>
        simp only [List.head?_cons, Option.some.injEq] at e
        exact hs (e ▸ List.mem_cons_self)
  · unfold query
    rw [if_pos (show (Seg.deep :: segs).head? = some Seg.deep from rfl)]
    exact h

example : (query [.key "a", .one] sample).map Prod.fst = [["a", "b"], ["a", "c"]] := by rfl

/-! ## C121: matching -/

theorem matchL_iff (l : List Pat) (vs : List Val) : matchL l vs = true ↔
    ∀ (i : Nat) (p : Pat) (v : Val), l[i]? = some p → vs[i]? = some v → matchV p v = true := by
  induction l generalizing vs with
  | nil => cases vs <;> simp [matchL]
  | cons p l ih =>
    cases vs with
    | nil => simp [matchL]
    | cons v vs =>
      rw [matchL, Bool.and_eq_true, ih]
      constructor
      · rintro ⟨h1, h2⟩ i q w hq hw
        cases i with
        | zero => cases hq; cases hw; exact h1
        | succ i => exact h2 i q w hq hw
      · intro h
        exact ⟨h 0 p v rfl rfl, fun i q w hq hw => h (i + 1) q w hq hw⟩

theorem matchE_iff (es : List (String × Pat)) (t : List (String × Val)) : matchE es t = true ↔
    ∀ e ∈ es, ∃ v, find e.1 t = some v ∧ matchV e.2 v = true := by
  induction es with
  | nil => simp [matchE]
  | cons e es ih =>
    obtain ⟨k, p⟩ := e
    rw [matchE, Bool.and_eq_true, ih, matchEl, has_eq]
    cases hf : find k t with
    | none =>
      constructor
      · intro h; simp at h
      · intro h
        obtain ⟨v, hv, _⟩ := h _ List.mem_cons_self
        rw [hf] at hv; cases hv
    | some v =>
      simp only [Option.isSome_some, Bool.true_and]
      constructor
      · rintro ⟨h1, h2⟩ e he
        rcases List.mem_cons.1 he with rfl | he
        · exact ⟨v, hf, h1⟩
        · exact h2 e he
      · intro h
        refine ⟨?_, fun e he => h e (List.mem_cons_of_mem _ he)⟩
        obtain ⟨w, hw, hm⟩ := h _ List.mem_cons_self
        rw [hf] at hw
        cases hw
        exact hm

/-- `match?` is true just of the values that are as the pattern says. -/
theorem match_iff (p : Pat) (v : Val) : matchV p v = true ↔ Conforms p v := by
  match p with
  | .lit a =>
    cases v with
    | atom b =>
      simp only [matchV, decide_eq_true_eq]
      constructor
      · rintro rfl; exact .lit a
      · intro h; cases h; rfl
    | list l => simp only [matchV]; exact ⟨fun h => (by cases h), fun h => (by cases h)⟩
    | block es => simp only [matchV]; exact ⟨fun h => (by cases h), fun h => (by cases h)⟩
  | .fn q =>
    rw [matchV]
    exact ⟨fun h => .fn q v h, fun h => by cases h with | fn _ _ h => exact h⟩
  | .list l =>
    have ih : ∀ q ∈ l, ∀ w, matchV q w = true ↔ Conforms q w := fun q hq w => match_iff q w
    cases v with
    | atom b => simp only [matchV]; exact ⟨fun h => (by cases h), fun h => (by cases h)⟩
    | block es => simp only [matchV]; exact ⟨fun h => (by cases h), fun h => (by cases h)⟩
    | list vs =>
      simp only [matchV, Bool.and_eq_true, decide_eq_true_eq, Lib.count_eq, matchL_iff]
      constructor
      · rintro ⟨h1, h2⟩
        exact .list l vs (by omega) fun i q w hq hw => (ih q (List.mem_of_getElem? hq) w).1 (h2 i q w hq hw)
      · intro h
        cases h with
        | list _ _ h1 h2 =>
          exact ⟨by omega, fun i q w hq hw => (ih q (List.mem_of_getElem? hq) w).2 (h2 i q w hq hw)⟩
  | .block es =>
    have ih : ∀ e ∈ es, ∀ w, matchV e.2 w = true ↔ Conforms e.2 w := fun e he w => match_iff e.2 w
    cases v with
    | atom b => simp only [matchV]; exact ⟨fun h => (by cases h), fun h => (by cases h)⟩
    | list l => simp only [matchV]; exact ⟨fun h => (by cases h), fun h => (by cases h)⟩
    | block t =>
      simp only [matchV, matchE_iff]
      constructor
      · intro h
        refine .block es t ?_ ?_
        · intro e he
          obtain ⟨v, hv, _⟩ := h e he
          simp [hv]
        · intro e he w hw
          obtain ⟨v, hv, hm⟩ := h e he
          rw [hw] at hv
          cases hv
          exact (ih e he w).1 hm
      · intro h
        cases h with
        | block _ _ h1 h2 =>
          intro e he
          obtain ⟨w, hw⟩ := Option.isSome_iff_exists.1 (h1 e he)
          exact ⟨w, hw, (ih e he w).2 (h2 e he w hw)⟩
  termination_by sizeOf p
  decreasing_by
    · have := List.sizeOf_lt_of_mem hq
      simp only [Pat.list.sizeOf_spec]; omega
    · have := List.sizeOf_lt_of_mem he
      have h2 : sizeOf e.2 < sizeOf e := by cases e; simp only [Prod.mk.sizeOf_spec]; omega
      simp only [Pat.block.sizeOf_spec]; omega

/-- More keys do not matter. -/
theorem match_more (es : List (String × Pat)) (t u : List (String × Val)) (h : matchV (.block es) (.block t) = true) :
    matchV (.block es) (.block (t ++ u)) = true := by
  simp only [matchV, matchE_iff] at h ⊢
  intro e he
  obtain ⟨v, hv, hm⟩ := h e he
  exact ⟨v, by rw [find_append, hv]; rfl, hm⟩

example : matchV (.block [("a", .block [("c", .lit 2)])]) sample = true := by rfl
example : matchV (.block [("a", .list [])]) sample = false := by rfl

end Verif.Nest
