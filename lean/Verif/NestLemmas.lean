import Verif.NestSpec
import Verif.LibProps

/-!
Proofs only.
-/

namespace Verif.Nest

theorem Val.ind {P : Val → Prop} (ha : ∀ a, P (.atom a)) (hl : ∀ l, (∀ v ∈ l, P v) → P (.list l))
    (hb : ∀ es, (∀ e ∈ es, P e.2) → P (.block es)) : ∀ v, P v
  | .atom a => ha a
  | .list l => hl l fun v hv => Val.ind ha hl hb v
  | .block es => hb es fun e he => Val.ind ha hl hb e.2
  termination_by v => sizeOf v
  decreasing_by
    · have := List.sizeOf_lt_of_mem hv
      simp only [Val.list.sizeOf_spec]; omega
    · have := List.sizeOf_lt_of_mem he
      have h2 : sizeOf e.2 < sizeOf e := by cases e; simp only [Prod.mk.sizeOf_spec]; omega
      simp only [Val.block.sizeOf_spec]; omega

/-! ## Looking up -/

theorem find_mem {ν : Type} {k : String} {v : ν} {es : List (String × ν)} (h : find k es = some v) :
    (k, v) ∈ es := by
  induction es with
  | nil => cases h
  | cons e es ih =>
    rw [find] at h
    split at h
    · next hk => cases h; subst hk; exact List.mem_cons_self
    · exact List.mem_cons_of_mem _ (ih h)

theorem find_none {ν : Type} {k : String} {es : List (String × ν)} : find k es = none ↔ k ∉ es.map Prod.fst := by
  induction es with
  | nil => simp [find]
  | cons e es ih =>
    rw [find]
    split
    · next hk => simp [hk]
    · next hk => rw [ih]; simp [Ne.symm hk]

theorem find_of_mem {ν : Type} {e : String × ν} {es : List (String × ν)} (hd : (es.map Prod.fst).Nodup)
    (h : e ∈ es) : find e.1 es = some e.2 := by
  induction es with
  | nil => cases h
  | cons x es ih =>
    rw [List.map_cons, List.nodup_cons] at hd
    rw [find]
    rcases List.mem_cons.1 h with rfl | h
    · rw [if_pos rfl]
    · rw [if_neg, ih hd.2 h]
      intro e'
      exact hd.1 (e' ▸ List.mem_map_of_mem h)

theorem has_eq (k : String) (es : List (String × Val)) : has k es = (find k es).isSome := by
  unfold has
  rw [Lib.map_eq]
  induction es with
  | nil => rfl
  | cons e es ih =>
    simp only [List.map_cons, find]
    by_cases h : e.1 = k
    · simp [h]
    · simp only [if_neg h]; exact ih

theorem lookupPath_bind (ks : List String) (o : Option Val) :
    Lib.foldl (fun o k => o.bind (lookup k)) o ks = o.bind (lookupPath ks) := by
  induction ks generalizing o with
  | nil => cases o <;> rfl
  | cons k ks ih =>
    rw [Lib.foldl, ih]
    cases o with
    | none => rfl
    | some v =>
      simp only [Option.bind_some]
      unfold lookupPath
      rw [Lib.foldl, ih]
      rfl

@[simp] theorem lookupPath_nil (b : Val) : lookupPath [] b = some b := rfl

@[simp] theorem lookupPath_cons (k : String) (ks : List String) (b : Val) :
    lookupPath (k :: ks) b = (lookup k b).bind (lookupPath ks) := by
  unfold lookupPath
  rw [Lib.foldl, lookupPath_bind]
  rfl

theorem lookupPath_append (p q : List String) (b : Val) :
    lookupPath (p ++ q) b = (lookupPath p b).bind (lookupPath q) := by
  induction p generalizing b with
  | nil => rfl
  | cons k p ih =>
    simp only [List.cons_append, lookupPath_cons]
    cases lookup k b with
    | none => rfl
    | some w => exact ih w

theorem lookupPath_atom {p : List String} {a : Nat} {v : Val} (h : lookupPath p (.atom a) = some v) : p = [] := by
  cases p with
  | nil => rfl
  | cons k p => rw [lookupPath_cons] at h; cases h

theorem Distinct.of_lookup {k : String} {b w : Val} (hd : Distinct b) (h : lookup k b = some w) : Distinct w := by
  cases b with
  | atom a => cases h
  | list l => cases h
  | block es =>
    cases hd with
    | block _ _ he => exact he _ (find_mem h)

theorem Distinct.of_path {p : List String} {b w : Val} (hd : Distinct b) (h : lookupPath p b = some w) : Distinct w := by
  induction p generalizing b with
  | nil => cases h; exact hd
  | cons k p ih =>
    rw [lookupPath_cons] at h
    cases hk : lookup k b with
    | none => rw [hk] at h; cases h
    | some c => rw [hk] at h; exact ih (hd.of_lookup hk) h

/-! ## Changing -/

theorem updateElems_some {k : String} {f : Val → Option Val} {es r : List (String × Val)}
    (h : updateElems k f es = some r) :
    r.map Prod.fst = es.map Prod.fst ∧ find k r = (find k es).bind f ∧
      (∀ v, find k es = some v → (f v).isSome = true) ∧ ∀ j, j ≠ k → find j r = find j es := by
  induction es generalizing r with
  | nil => cases h; simp [find]
  | cons e es ih =>
    rw [updateElems] at h
    split at h
    · next v q h1 h2 =>
      cases h
      obtain ⟨i1, i2, i3, i4⟩ := ih h2
      by_cases hk : e.1 = k
      · rw [if_pos hk] at h1
        refine ⟨by simp [i1], by simp [find, hk, h1], ?_, ?_⟩
        · intro w hw
          rw [find, if_pos hk] at hw
          cases hw
          simp [h1]
        · intro j hj
          have : e.1 ≠ j := fun h => hj (h ▸ hk)
          simp [find, this, i4 j hj]
      · rw [if_neg hk] at h1
        cases h1
        refine ⟨by simp [i1], by simp [find, hk, i2], ?_, ?_⟩
        · intro w hw
          rw [find, if_neg hk] at hw
          exact i3 w hw
        · intro j hj
          simp only [find]
          rw [i4 j hj]
    · cases h

theorem updateElems_ok {k : String} {f : Val → Option Val} {es : List (String × Val)}
    (h : ∀ e ∈ es, e.1 = k → (f e.2).isSome = true) : ∃ r, updateElems k f es = some r := by
  induction es with
  | nil => exact ⟨[], rfl⟩
  | cons e es ih =>
    obtain ⟨r, hr⟩ := ih fun x hx => h x (List.mem_cons_of_mem _ hx)
    rw [updateElems, hr]
    by_cases hk : e.1 = k
    · obtain ⟨v, hv⟩ := Option.isSome_iff_exists.1 (h e List.mem_cons_self hk)
      rw [if_pos hk, hv]
      exact ⟨_, rfl⟩
    · rw [if_neg hk]
      exact ⟨_, rfl⟩

theorem updateElems_same {k : String} {f : Val → Option Val} {es r : List (String × Val)}
    (h : updateElems k f es = some r) (hs : ∀ e ∈ es, e.1 = k → ∀ w, f e.2 = some w → w = e.2) : r = es := by
  induction es generalizing r with
  | nil => cases h; rfl
  | cons e es ih =>
    rw [updateElems] at h
    split at h
    · next v q h1 h2 =>
      cases h
      rw [ih h2 fun x hx => hs x (List.mem_cons_of_mem _ hx)]
      split at h1
      · next hk => rw [hs e List.mem_cons_self hk v h1]
      · cases h1; rfl
    · cases h

theorem update_nil (f : Val → Option Val) (b : Val) : update [] f b = f b := rfl

theorem update_cons (k : String) (ks : List String) (f : Val → Option Val) (b : Val) :
    update (k :: ks) f b = updateValue k (update ks f) b := rfl

theorem updateValue_some {k : String} {f : Val → Option Val} {b b' : Val} (h : updateValue k f b = some b') :
    ∃ es r, b = .block es ∧ b' = .block r ∧ updateElems k f es = some r := by
  cases b with
  | atom a => cases h
  | list l => cases h
  | block es =>
    rw [updateValue] at h
    cases hr : updateElems k f es with
    | none => rw [hr] at h; cases h
    | some r => rw [hr] at h; cases h; exact ⟨es, r, rfl, rfl, hr⟩

theorem updateOr_aux (k : String) (f : Val → Option Val) (es : List (String × Val))
    (a c : List (String × Val)) :
    Lib.foldl (orStep k f) (some (a, c)) es =
      (updateElems k f es).map fun r => (r.reverse ++ a, if k ∈ es.map Prod.fst then [] else c) := by
  have hn : ∀ es : List (String × Val), Lib.foldl (orStep k f) none es = none := by
    intro es
    induction es with
    | nil => rfl
    | cons e es ih => exact ih
  induction es generalizing a c with
  | nil => simp [Lib.foldl, updateElems]
  | cons e es ih =>
    rw [Lib.foldl, updateElems, orStep]
    by_cases hk : k = e.1
    · rw [if_pos hk, if_pos hk.symm]
      cases hf : f e.2 with
      | none => simp only [Option.map_none]; rw [hn]
      | some v =>
        simp only [Option.map_some]
        rw [ih]
        cases updateElems k f es with
        | none => rfl
        | some r => simp [hk]
    · have hk' : ¬e.1 = k := fun h => hk h.symm
      have hm : k ∈ (e :: es).map Prod.fst ↔ k ∈ es.map Prod.fst := by
        rw [List.map_cons, List.mem_cons]; exact ⟨fun o => o.resolve_left hk, .inr⟩
      simp only [if_neg hk, if_neg hk', hm]
      rw [ih]
      cases updateElems k f es with
      | none => rfl
      | some r => simp

theorem updateOrElems_eq (k : String) (f : Val → Option Val) (d : Val) (es : List (String × Val)) :
    updateOrElems k f d es =
      (updateElems k f es).map fun r => r ++ if k ∈ es.map Prod.fst then [] else [(k, d)] := by
  unfold updateOrElems
  rw [updateOr_aux]
  cases updateElems k f es with
  | none => rfl
  | some r =>
    simp only [Option.map_some, Lib.reverse_eq, Lib.append_eq]
    split <;> simp

theorem find_append {ν : Type} (k : String) (a b : List (String × ν)) : find k (a ++ b) = (find k a).or (find k b) := by
  induction a with
  | nil => simp [find]
  | cons e a ih =>
    rw [List.cons_append, find, find]
    split
    · rfl
    · exact ih

theorem updateValueOr_some {k : String} {f : Val → Option Val} {d b b' : Val} (h : updateValueOr k f d b = some b') :
    ∃ es r, b = .block es ∧ b' = .block r ∧
      find k r = (match find k es with | some v => f v | none => some d) ∧
      (∀ v, find k es = some v → (f v).isSome = true) ∧
      (∀ j, j ≠ k → find j r = find j es) ∧
      r.map Prod.fst = es.map Prod.fst ++ (if k ∈ es.map Prod.fst then [] else [k]) := by
  cases b with
  | atom a => cases h
  | list l => cases h
  | block es =>
    rw [updateValueOr, updateOrElems_eq] at h
    cases hr : updateElems k f es with
    | none => rw [hr] at h; cases h
    | some r =>
      rw [hr] at h
      cases h
      obtain ⟨h1, h2, h3, h4⟩ := updateElems_some hr
      refine ⟨es, _, rfl, rfl, ?_, h3, ?_, ?_⟩
      · rw [find_append, h2]
        cases hf : find k es with
        | none =>
          rw [if_neg (find_none.1 hf)]
          simp [find]
        | some v =>
          obtain ⟨w, hw⟩ := Option.isSome_iff_exists.1 (h3 v hf)
          simp [hw]
      · intro j hj
        rw [find_append, h4 j hj]
        split
        · simp [find]
        · simp [find, Ne.symm hj]
      · rw [List.map_append, h1]
        split <;> simp

theorem find_insert (k j : String) (v : Val) (m : List (String × Val)) :
    find j (insert k v m) = if k = j then some v else find j m := by
  induction m with
  | nil => simp [insert, find]
  | cons e m ih =>
    rw [insert]
    by_cases h : e.1 = k
    · rw [if_pos h, find, find]
      simp only [h]
      split <;> rfl
    · rw [if_neg h, find, find, ih]
      by_cases hj : e.1 = j
      · rw [if_pos hj, if_pos hj, if_neg (fun h' => h (hj.trans h'.symm))]
      · rw [if_neg hj, if_neg hj]

theorem find_insertAll (j : String) (m es : List (String × Val)) (hd : (es.map Prod.fst).Nodup) :
    find j (insertAll m es) = (find j es).or (find j m) := by
  induction es generalizing m with
  | nil => simp [insertAll, find]
  | cons e es ih =>
    rw [List.map_cons, List.nodup_cons] at hd
    rw [insertAll, ih _ hd.2, find_insert, find]
    by_cases h : e.1 = j
    · rw [if_pos h, if_pos h, find_none.2 (h ▸ hd.1)]
      rfl
    · rw [if_neg h, if_neg h]

theorem keys_insert {k : String} {v : Val} {m : List (String × Val)} :
    (insert k v m).map Prod.fst = if k ∈ m.map Prod.fst then m.map Prod.fst else m.map Prod.fst ++ [k] := by
  induction m with
  | nil => simp [insert]
  | cons e m ih =>
    rw [insert]
    by_cases h : e.1 = k
    · simp [h]
    · rw [if_neg h, List.map_cons, ih, List.map_cons]
      have : k ∈ e.1 :: m.map Prod.fst ↔ k ∈ m.map Prod.fst := by
        rw [List.mem_cons]; exact ⟨fun o => o.resolve_left fun h' => h h'.symm, .inr⟩
      simp only [this]
      split <;> simp

theorem tongue_cons (k : String) (ks : List String) (v : Val) : tongue (k :: ks) v = .block [(k, tongue ks v)] := rfl

theorem lookup_tongue (ks q : List String) (v : Val) : lookupPath (ks ++ q) (tongue ks v) = lookupPath q v := by
  induction ks with
  | nil => rfl
  | cons k ks ih => simp [tongue_cons, lookup, find, ih]

theorem lookup_tongue_other {ks p : List String} {v : Val} (h1 : ¬ks <+: p) (h2 : ¬p <+: ks) :
    lookupPath p (tongue ks v) = none := by
  induction ks generalizing p with
  | nil => exact absurd List.nil_prefix h1
  | cons k ks ih =>
    cases p with
    | nil => exact absurd List.nil_prefix h2
    | cons j p =>
      simp only [tongue_cons, lookupPath_cons, lookup, find]
      by_cases hk : k = j
      · subst hk
        rw [if_pos rfl]
        exact ih (fun h => h1 ((List.prefix_cons_inj k).2 h)) (fun h => h2 ((List.prefix_cons_inj k).2 h))
      · rw [if_neg hk]; rfl

/-! ## Walking -/

section
variable {σ β : Type} (emit : σ → List (String × Val) → List β) (next : σ → String → σ)

theorem walkList_eq (s : σ) (l : List Val) : walkList emit next s l = l.flatMap (walk emit next s) := by
  induction l with
  | nil => simp [walkList]
  | cons v l ih => simp [walkList, Lib.append_eq, ih]

theorem walkElems_eq (s : σ) (es : List (String × Val)) :
    walkElems emit next s es = es.flatMap fun e => walk emit next (next s e.1) e.2 := by
  induction es with
  | nil => simp [walkElems]
  | cons e es ih => cases e; simp [walkElems, walkElem, Lib.append_eq, ih]

theorem walk_atom (s : σ) (a : Nat) : walk emit next s (.atom a) = [] := by simp [walk]

theorem walk_list (s : σ) (l : List Val) : walk emit next s (.list l) = l.flatMap (walk emit next s) := by
  rw [walk, walkList_eq]

theorem walk_block (s : σ) (es : List (String × Val)) : walk emit next s (.block es) =
    emit s es ++ es.flatMap fun e => walk emit next (next s e.1) e.2 := by
  rw [walk, walkElems_eq, Lib.append_eq]
end

theorem walk_mem {β : Type} (emit : Unit → List (String × Val) → List β) (x : β) (b : Val) :
    x ∈ walk emit (fun _ _ => ()) () b ↔ ∃ es, Inside b (.block es) ∧ x ∈ emit () es := by
  induction b using Val.ind with
  | ha a =>
    rw [walk_atom]
    constructor
    · intro h; cases h
    · rintro ⟨es, h, _⟩; cases h
  | hl l ih =>
    rw [walk_list, List.mem_flatMap]
    constructor
    · rintro ⟨v, hv, hx⟩
      obtain ⟨es, h1, h2⟩ := (ih v hv).1 hx
      exact ⟨es, .list hv h1, h2⟩
    · rintro ⟨es, h1, h2⟩
      cases h1 with
      | list hv h => exact ⟨_, hv, (ih _ hv).2 ⟨es, h, h2⟩⟩
  | hb es ih =>
    rw [walk_block, List.mem_append, List.mem_flatMap]
    constructor
    · rintro (h | ⟨e, he, hx⟩)
      · exact ⟨es, .here _, h⟩
      · obtain ⟨fs, h1, h2⟩ := (ih e he).1 hx
        exact ⟨fs, .block he h1, h2⟩
    · rintro ⟨fs, h1, h2⟩
      cases h1 with
      | here => exact .inl h2
      | block he h => exact .inr ⟨_, he, (ih _ he).2 ⟨fs, h, h2⟩⟩

/-- The paths found from a path on. -/
def pathsFrom (k : String) (p : List String) (b : Val) : List (List String) :=
  walk (fun p es => if has k es then [Lib.append p [k]] else []) (fun p ck => Lib.append p [ck]) p b

theorem pathsFrom_block (k : String) (p : List String) (es : List (String × Val)) : pathsFrom k p (.block es) =
    (if (find k es).isSome then [p ++ [k]] else []) ++ es.flatMap fun e => pathsFrom k (p ++ [e.1]) e.2 := by
  unfold pathsFrom
  rw [walk_block]
  simp only [Lib.append_eq, has_eq]

theorem pathsFrom_atom (k : String) (p : List String) (a : Nat) : pathsFrom k p (.atom a) = [] := by
  unfold pathsFrom; rw [walk_atom]

theorem pathsFrom_eq (k : String) (p : List String) (b : Val) :
    pathsFrom k p b = (deepFindPaths k b).map (p ++ ·) := by
  show pathsFrom k p b = (pathsFrom k [] b).map (p ++ ·)
  have key : ∀ p q : List String, pathsFrom k (p ++ q) b = (pathsFrom k q b).map (p ++ ·) := by
    induction b using Val.ind with
    | ha a => intro p q; simp [pathsFrom_atom]
    | hl l ih =>
      intro p q
      unfold pathsFrom at ih ⊢
      rw [walk_list, walk_list, List.map_flatMap]
      simp only [List.flatMap]
      congr 1
      apply List.map_congr_left
      intro v hv
      exact ih v hv p q
    | hb es ih =>
      intro p q
      rw [pathsFrom_block, pathsFrom_block, List.map_append, List.map_flatMap]
      congr 1
      · split <;> simp
      · simp only [List.flatMap]
        congr 1
        apply List.map_congr_left
        intro e he
        rw [List.append_assoc]
        exact ih e he p _
  simpa using key p []

theorem deepFindPaths_block (k : String) (es : List (String × Val)) : deepFindPaths k (.block es) =
    (if (find k es).isSome then [[k]] else []) ++ es.flatMap fun e => (deepFindPaths k e.2).map (e.1 :: ·) := by
  have := pathsFrom_block k [] es
  simp only [List.nil_append] at this
  show pathsFrom k [] (.block es) = _
  rw [this]
  congr 1
  simp only [List.flatMap]
  congr 1
  apply List.map_congr_left
  intro e _
  rw [pathsFrom_eq]
  rfl

theorem deepFind_block (k : String) (es : List (String × Val)) : deepFind k (.block es) =
    (find k es).toList ++ es.flatMap fun e => deepFind k e.2 := by
  unfold deepFind
  rw [walk_block]
  simp only [has_eq]
  congr 1
  cases find k es <;> rfl

/-! ## Queries -/

theorem mapcat_eq {α β : Type} (f : α → List β) (l : List α) : mapcat f l = l.flatMap f := by
  simp [mapcat, Lib.concat_eq, Lib.map_eq, List.flatMap]

theorem descElems_eq (p : List String) (es : List (String × Val)) :
    descElems p es = es.flatMap fun e => desc (p ++ [e.1]) e.2 := by
  induction es with
  | nil => simp [descElems]
  | cons e es ih => cases e; simp [descElems, descElem, Lib.append_eq, ih]

theorem desc_block (p : List String) (es : List (String × Val)) :
    desc p (.block es) = (p, .block es) :: es.flatMap fun e => desc (p ++ [e.1]) e.2 := by
  rw [desc, descElems_eq]

theorem desc_mem {q : List String} {w : Val} (hd : Distinct w) {p : List String} {v : Val} :
    (p, v) ∈ desc q w ↔ ∃ r, p = q ++ r ∧ lookupPath r w = some v ∧ IsBlock v := by
  induction w using Val.ind generalizing q with
  | ha a =>
    rw [desc]
    constructor
    · intro h; cases h
    · rintro ⟨r, _, h, es, rfl⟩
      rw [lookupPath_atom h] at h
      cases h
  | hl l ih =>
    rw [desc]
    constructor
    · intro h; cases h
    · rintro ⟨r, _, h, es, rfl⟩
      cases r with
      | nil => cases h
      | cons k r => rw [lookupPath_cons] at h; cases h
  | hb es ih =>
    cases hd with
    | block _ hn he =>
      rw [desc_block, List.mem_cons, List.mem_flatMap]
      constructor
      · rintro (h | ⟨e, hem, h⟩)
        · cases h; exact ⟨[], by simp, rfl, es, rfl⟩
        · obtain ⟨r, h1, h2, h3⟩ := (ih e hem (he e hem)).1 h
          refine ⟨e.1 :: r, by simp [h1], ?_, h3⟩
          rw [lookupPath_cons, lookup, find_of_mem hn hem]
          exact h2
      · rintro ⟨r, h1, h2, h3⟩
        cases r with
        | nil => cases h2; left; simp [h1]
        | cons k r =>
          right
          rw [lookupPath_cons, lookup] at h2
          cases hf : find k es with
          | none => rw [hf] at h2; cases h2
          | some c =>
            rw [hf] at h2
            refine ⟨(k, c), find_mem hf, (ih _ (find_mem hf) (he _ (find_mem hf))).2 ⟨r, ?_, h2, h3⟩⟩
            simp [h1]

/-- What one part of a pattern leads to. -/
def StepTo : Seg → List String → Val → Val → Prop
  | .deep, r, w, v => lookupPath r w = some v ∧ IsBlock v
  | .one, r, w, v => ∃ k, r = [k] ∧ lookup k w = some v
  | .key k, r, w, v => r = [k] ∧ lookup k w = some v

theorem applySeg_mem {pairs : List (List String × Val)} (hd : ∀ x ∈ pairs, Distinct x.2) (s : Seg)
    {p : List String} {v : Val} :
    (p, v) ∈ applySeg pairs s ↔ ∃ x ∈ pairs, ∃ r, p = x.1 ++ r ∧ StepTo s r x.2 v := by
  cases s with
  | deep =>
    simp only [applySeg, mapcat_eq, List.mem_flatMap]
    constructor
    · rintro ⟨x, hx, h⟩; exact ⟨x, hx, (desc_mem (hd x hx)).1 h⟩
    · rintro ⟨x, hx, h⟩; exact ⟨x, hx, (desc_mem (hd x hx)).2 h⟩
  | one =>
    simp only [applySeg, mapcat_eq, List.mem_flatMap]
    constructor
    · rintro ⟨⟨q, w⟩, hx, h⟩
      cases w with
      | atom a => cases h
      | list l => cases h
      | block es =>
        rw [expand, Lib.map_eq, List.mem_map] at h
        obtain ⟨e, he, h⟩ := h
        cases h
        cases hd _ hx with
        | block _ hn _ =>
          refine ⟨_, hx, [e.1], by rw [Lib.append_eq], e.1, rfl, ?_⟩
          exact find_of_mem hn he
    · rintro ⟨⟨q, w⟩, hx, r, rfl, k, rfl, h⟩
      refine ⟨_, hx, ?_⟩
      cases w with
      | atom a => cases h
      | list l => cases h
      | block es =>
        rw [expand, Lib.map_eq]
        exact List.mem_map.2 ⟨(k, v), find_mem h, by simp [Lib.append_eq]⟩
  | key k =>
    simp only [applySeg, mapcat_eq, List.mem_flatMap]
    constructor
    · rintro ⟨⟨q, w⟩, hx, h⟩
      cases w with
      | atom a => cases h
      | list l => cases h
      | block es =>
        rw [matchSym] at h
        cases hf : find k es with
        | none => simp [hf, has_eq] at h
        | some c =>
          simp [hf, has_eq, Lib.append_eq] at h
          obtain ⟨rfl, rfl⟩ := h
          exact ⟨_, hx, [k], rfl, rfl, hf⟩
    · rintro ⟨⟨q, w⟩, hx, r, rfl, rfl, h⟩
      refine ⟨_, hx, ?_⟩
      cases w with
      | atom a => cases h
      | list l => cases h
      | block es =>
        have hf : find k es = some v := h
        simp [matchSym, hf, has_eq, Lib.append_eq]

theorem StepTo.path {s : Seg} {r : List String} {w v : Val} (h : StepTo s r w v) : lookupPath r w = some v := by
  cases s with
  | deep => exact h.1
  | one => obtain ⟨k, rfl, h⟩ := h; simp [h]
  | key k => obtain ⟨rfl, h⟩ := h; simp [h]

theorem applySeg_distinct {pairs : List (List String × Val)} (hd : ∀ x ∈ pairs, Distinct x.2) (s : Seg) :
    ∀ x ∈ applySeg pairs s, Distinct x.2 := by
  rintro ⟨p, v⟩ h
  obtain ⟨x, hx, r, _, h⟩ := (applySeg_mem hd s).1 h
  exact (hd x hx).of_path h.path

theorem fits_deep {ps : List Seg} {p : List String} : Fits (.deep :: ps) p ↔ ∃ a b, p = a ++ b ∧ Fits ps b := by
  constructor
  · intro h
    generalize hs : Seg.deep :: ps = s at h
    induction h with
    | nil => cases hs
    | key k _ _ => cases hs
    | one k _ _ => cases hs
    | none h _ => cases hs; exact ⟨[], _, rfl, h⟩
    | more k _ ih =>
      obtain ⟨a, b, rfl, h⟩ := ih hs
      exact ⟨k :: a, b, rfl, h⟩
  · rintro ⟨a, b, rfl, h⟩
    induction a with
    | nil => exact .none h
    | cons k a ih => exact .more k ih

theorem fits_nil {ps : List Seg} (h : Fits ps []) : ∀ s ∈ ps, s = .deep := by
  generalize hp : ([] : List String) = p at h
  induction h with
  | nil => simp
  | key k _ _ => cases hp
  | one k _ _ => cases hp
  | none h ih =>
    intro s hs
    rcases List.mem_cons.1 hs with rfl | hs
    · rfl
    · exact ih hp s hs
  | more k _ _ => cases hp

theorem fold_mem (segs : List Seg) {pairs : List (List String × Val)} (hd : ∀ x ∈ pairs, Distinct x.2)
    {p : List String} {v : Val} : (p, v) ∈ Lib.foldl applySeg pairs segs ↔
      ∃ x ∈ pairs, ∃ r, p = x.1 ++ r ∧ Fits segs r ∧ lookupPath r x.2 = some v ∧
        (segs.getLast? = some .deep → IsBlock v) := by
  induction segs generalizing pairs with
  | nil =>
    rw [Lib.foldl]
    constructor
    · intro h
      exact ⟨_, h, [], by simp, .nil, rfl, by simp⟩
    · rintro ⟨x, hx, r, rfl, hf, h, _⟩
      cases hf
      cases h
      simpa using hx
  | cons s segs ih =>
    rw [Lib.foldl, ih (applySeg_distinct hd s)]
    constructor
    · rintro ⟨⟨q, w⟩, hq, r, rfl, hf, h, hl⟩
      obtain ⟨x, hx, r', rfl, hs⟩ := (applySeg_mem hd s).1 hq
      refine ⟨x, hx, r' ++ r, by simp, ?_, by rw [lookupPath_append, hs.path]; exact h, ?_⟩
      · cases s with
        | deep => exact fits_deep.2 ⟨r', r, rfl, hf⟩
        | one => obtain ⟨k, rfl, _⟩ := hs; exact .one k hf
        | key k => obtain ⟨rfl, _⟩ := hs; exact .key k hf
      · cases segs with
        | nil =>
          intro e
          simp only [List.getLast?_singleton, Option.some.injEq] at e
          subst e
          cases hf
          cases h
          exact hs.2
        | cons t segs =>
          intro e
          rw [List.getLast?_cons_cons] at e
          exact hl e
    · rintro ⟨x, hx, r, rfl, hf, h, hl⟩
      have hl' : segs ≠ [] → segs.getLast? = some .deep → IsBlock v := by
        intro hne e
        cases segs with
        | nil => exact absurd rfl hne
        | cons t segs => exact hl (by rw [List.getLast?_cons_cons]; exact e)
      have hl2 : segs.getLast? = some .deep → IsBlock v := by
        intro e
        refine hl' ?_ e
        rintro rfl
        cases e
      cases s with
      | deep =>
        obtain ⟨a, c, rfl, hc⟩ := fits_deep.1 hf
        rw [lookupPath_append] at h
        cases hw : lookupPath a x.2 with
        | none => rw [hw] at h; cases h
        | some w =>
          rw [hw] at h
          simp only [Option.bind_some] at h
          have hblock : IsBlock w := by
            cases c with
            | nil =>
              cases h
              cases segs with
              | nil => exact hl rfl
              | cons t segs =>
                apply hl2
                have := fits_nil hc _ (List.getLast_mem (List.cons_ne_nil t segs))
                rw [List.getLast?_eq_some_getLast (List.cons_ne_nil t segs), this]
            | cons k c =>
              cases w with
              | atom a => rw [lookupPath_cons] at h; cases h
              | list l => rw [lookupPath_cons] at h; cases h
              | block es => exact ⟨es, rfl⟩
          exact ⟨(x.1 ++ a, w), (applySeg_mem hd _).2 ⟨x, hx, a, rfl, hw, hblock⟩, c, by simp, hc, h, hl2⟩
      | one =>
        cases hf with
        | one k hf =>
          rw [lookupPath_cons] at h
          cases hw : lookup k x.2 with
          | none => rw [hw] at h; cases h
          | some w =>
            rw [hw] at h
            exact ⟨(x.1 ++ [k], w), (applySeg_mem hd _).2 ⟨x, hx, [k], rfl, k, rfl, hw⟩, _, by simp, hf, h, hl2⟩
      | key k =>
        cases hf with
        | key _ hf =>
          rw [lookupPath_cons] at h
          cases hw : lookup k x.2 with
          | none => rw [hw] at h; cases h
          | some w =>
            rw [hw] at h
            exact ⟨(x.1 ++ [k], w), (applySeg_mem hd _).2 ⟨x, hx, [k], rfl, rfl, hw⟩, _, by simp, hf, h, hl2⟩

/-! ## None twice -/

theorem nodup_map {α β : Type} {f : α → β} (hf : ∀ a b, f a = f b → a = b) {l : List α} (h : l.Nodup) :
    (l.map f).Nodup := List.pairwise_map.2 (h.imp fun hne e => hne (hf _ _ e))

theorem nodup_flat {ν : Type} {q : List String} {es : List (String × ν)} {g : String × ν → List (List String)}
    (hn : (es.map Prod.fst).Nodup) (hg : ∀ e ∈ es, (g e).Nodup)
    (hp : ∀ e ∈ es, ∀ x ∈ g e, ∃ r, x = q ++ e.1 :: r) : (es.flatMap g).Nodup := by
  induction es with
  | nil => simp
  | cons e es ih =>
    rw [List.map_cons, List.nodup_cons] at hn
    rw [List.flatMap_cons, List.nodup_append]
    refine ⟨hg e List.mem_cons_self, ih hn.2 (fun x hx => hg x (List.mem_cons_of_mem _ hx))
      (fun x hx => hp x (List.mem_cons_of_mem _ hx)), ?_⟩
    intro x hx y hy hxy
    subst hxy
    obtain ⟨c, hc, hxc⟩ := List.mem_flatMap.1 hy
    obtain ⟨r1, h1⟩ := hp e List.mem_cons_self x hx
    obtain ⟨r2, h2⟩ := hp c (List.mem_cons_of_mem _ hc) x hxc
    rw [h1] at h2
    have := List.append_cancel_left h2
    simp only [List.cons.injEq] at this
    exact hn.1 (this.1 ▸ List.mem_map_of_mem hc)

theorem desc_once {w : Val} (hd : Distinct w) (q : List String) : ((desc q w).map Prod.fst).Nodup := by
  induction w using Val.ind generalizing q with
  | ha a => simp [desc]
  | hl l _ => simp [desc]
  | hb es ih =>
    cases hd with
    | block _ hn he =>
      rw [desc_block, List.map_cons, List.map_flatMap, List.nodup_cons]
      have hp : ∀ e ∈ es, ∀ x ∈ (desc (q ++ [e.1]) e.2).map Prod.fst, ∃ r, x = q ++ e.1 :: r := by
        intro e hem x hx
        obtain ⟨⟨p, v⟩, hm, rfl⟩ := List.mem_map.1 hx
        obtain ⟨r, rfl, _⟩ := (desc_mem (he e hem)).1 hm
        exact ⟨r, by simp⟩
      refine ⟨?_, nodup_flat hn (fun e hem => ih e hem (he e hem) _) hp⟩
      intro h
      obtain ⟨e, hem, hx⟩ := List.mem_flatMap.1 h
      obtain ⟨r, hr⟩ := hp e hem _ hx
      have := congrArg List.length hr
      simp at this

theorem applySeg_once {pairs : List (List String × Val)} (h0 : (pairs.map Prod.fst).Nodup)
    (hd : ∀ x ∈ pairs, Distinct x.2) {s : Seg} (hs : s ≠ .deep) : ((applySeg pairs s).map Prod.fst).Nodup := by
  have key : ∀ g : List String × Val → List (List String × Val),
      (∀ x ∈ pairs, ((g x).map Prod.fst).Nodup) →
      (∀ x ∈ pairs, ∀ y ∈ (g x).map Prod.fst, ∃ k, y = x.1 ++ [k]) →
      ((pairs.flatMap g).map Prod.fst).Nodup := by
    intro g hg hp
    clear hd
    induction pairs with
    | nil => simp
    | cons x pairs ih =>
      rw [List.map_cons, List.nodup_cons] at h0
      rw [List.flatMap_cons, List.map_append, List.nodup_append]
      refine ⟨hg x List.mem_cons_self, ih h0.2 (fun y hy => hg y (List.mem_cons_of_mem _ hy))
        (fun y hy => hp y (List.mem_cons_of_mem _ hy)), ?_⟩
      intro a ha b hb hab
      subst hab
      rw [List.map_flatMap] at hb
      obtain ⟨c, hc, hac⟩ := List.mem_flatMap.1 hb
      obtain ⟨k1, h1⟩ := hp x List.mem_cons_self a ha
      obtain ⟨k2, h2⟩ := hp c (List.mem_cons_of_mem _ hc) a hac
      rw [h1] at h2
      have := (List.append_inj' h2 rfl).1
      exact h0.1 (this ▸ List.mem_map_of_mem hc)
  cases s with
  | deep => exact absurd rfl hs
  | one =>
    simp only [applySeg, mapcat_eq]
    apply key
    · rintro ⟨q, w⟩ hx
      cases w with
      | atom a => simp [expand]
      | list l => simp [expand]
      | block es =>
        cases hd _ hx with
        | block _ hn _ =>
          rw [expand, Lib.map_eq, List.map_map]
          have : (es.map (Prod.fst ∘ fun e : String × Val => (Lib.append q [e.1], e.2))) =
              (es.map Prod.fst).map fun k => q ++ [k] := by
            rw [List.map_map]
            apply List.map_congr_left
            intro e _
            simp [Lib.append_eq]
          rw [this]
          exact nodup_map (fun a b h => by simpa using h) hn
    · rintro ⟨q, w⟩ hx y hy
      cases w with
      | atom a => simp [expand] at hy
      | list l => simp [expand] at hy
      | block es =>
        rw [expand, Lib.map_eq] at hy
        obtain ⟨z, hz, rfl⟩ := List.mem_map.1 hy
        obtain ⟨e, _, rfl⟩ := List.mem_map.1 hz
        exact ⟨e.1, by rw [Lib.append_eq]⟩
  | key k =>
    simp only [applySeg, mapcat_eq]
    apply key
    · rintro ⟨q, w⟩ hx
      cases w with
      | atom a => simp [matchSym]
      | list l => simp [matchSym]
      | block es => rw [matchSym]; cases find k es <;> simp <;> split <;> simp
    · rintro ⟨q, w⟩ hx y hy
      cases w with
      | atom a => simp [matchSym] at hy
      | list l => simp [matchSym] at hy
      | block es =>
        rw [matchSym, has_eq] at hy
        cases hf : find k es with
        | none => simp [hf] at hy
        | some v => simp [hf, Lib.append_eq] at hy; exact ⟨k, hy⟩

end Verif.Nest
