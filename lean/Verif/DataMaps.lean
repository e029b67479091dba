import Verif.DataLemmas
/-! Insertion-ordered maps as association lists without repeated keys. -/

namespace Verif.Data

variable {α : Type}

theorem mem_firsts {x : String} {l : List String} : x ∈ firsts l ↔ x ∈ l := by
  induction l with
  | nil => simp [firsts]
  | cons k ks ih => simp [firsts, ih]; grind

theorem firsts_nodup (l : List String) : (firsts l).Nodup := by
  induction l with
  | nil => simp [firsts]
  | cons k ks ih =>
    rw [firsts, List.nodup_cons]
    exact ⟨by simp, ih.filter _⟩

theorem firsts_of_nodup {l : List String} (h : l.Nodup) : firsts l = l := by
  induction l with
  | nil => rfl
  | cons k ks ih =>
    rw [List.nodup_cons] at h
    rw [firsts, ih h.2, List.filter_eq_self.mpr]
    intro a ha; simp; rintro rfl; exact h.1 ha

theorem firsts_append (a b : List String) : firsts (a ++ b) = firsts a ++ (firsts b).filter (fun x => x ∉ a) := by
  induction a with
  | nil => simp only [firsts, List.nil_append]; rw [List.filter_eq_self.mpr]; simp
  | cons k ks ih =>
    simp only [List.cons_append, firsts, ih, List.filter_append, List.filter_filter]
    congr 2
    apply List.filter_congr; intro x _; simp [List.mem_cons]

theorem firsts_append_firsts (a b : List String) : firsts (a ++ firsts b) = firsts (a ++ b) := by
  rw [firsts_append, firsts_append, firsts_of_nodup (firsts_nodup b)]

theorem firsts_firsts_append (a b : List String) : firsts (firsts a ++ b) = firsts (a ++ b) := by
  rw [firsts_append, firsts_append, firsts_of_nodup (firsts_nodup a)]
  congr 1; apply List.filter_congr; intro x _; simp [mem_firsts]

theorem firsts_snoc {a : List String} (h : a.Nodup) (k : String) :
    firsts (a ++ [k]) = if k ∈ a then a else a ++ [k] := by
  rw [firsts_append, firsts_of_nodup h]
  by_cases hk : k ∈ a <;> simp [firsts, hk]

/-! ### Last values -/

theorem lastVal_append (k : String) (a b : List (String × α)) :
    lastVal k (a ++ b) = (lastVal k b).or (lastVal k a) := by
  induction a with
  | nil => cases h : lastVal k b <;> simp [lastVal, h]
  | cons p a ih =>
    obtain ⟨k', v⟩ := p
    simp only [List.cons_append, lastVal, ih]
    cases lastVal k b <;> simp

theorem lastVal_none {k : String} {a : List (String × α)} : lastVal k a = none ↔ k ∉ a.map (·.1) := by
  induction a with
  | nil => simp [lastVal]
  | cons p a ih =>
    obtain ⟨k', v⟩ := p
    simp only [lastVal, List.map_cons, List.mem_cons, not_or]
    cases h : lastVal k a with
    | some w => simp; intro _; rw [h] at ih; simp at ih; simpa using ih
    | none =>
      have := ih.mp h
      by_cases hk : k' = k
      · simp [hk]
      · simp only [if_neg hk]; exact ⟨fun _ => ⟨fun h => hk h.symm, this⟩, fun _ => trivial⟩

theorem lastVal_mem {k : String} {v : α} {a : List (String × α)} (h : lastVal k a = some v) : (k, v) ∈ a := by
  induction a with
  | nil => simp [lastVal] at h
  | cons p a ih =>
    obtain ⟨k', w⟩ := p
    simp only [lastVal] at h
    cases h2 : lastVal k a with
    | some x => rw [h2] at h; rw [h2] at ih; exact List.mem_cons_of_mem _ (ih h)
    | none =>
      rw [h2] at h; simp only at h
      by_cases hk : k' = k
      · simp [hk] at h; simp [hk, h]
      · simp [hk] at h

theorem lastVal_of_mem {k : String} {v : α} {a : List (String × α)} (hn : (a.map (·.1)).Nodup) (h : (k, v) ∈ a) :
    lastVal k a = some v := by
  induction a with
  | nil => cases h
  | cons p a ih =>
    obtain ⟨k', w⟩ := p
    simp only [List.map_cons, List.nodup_cons] at hn
    rcases List.mem_cons.mp h with h | h
    · cases h
      simp only [lastVal, lastVal_none.mpr hn.1, if_true]
    · simp only [lastVal, ih hn.2 h]

/-- A map is determined by its keys and values. -/
theorem map_ext {a b : List (String × α)} (hk : a.map (·.1) = b.map (·.1)) (hn : (a.map (·.1)).Nodup)
    (hv : ∀ k, lastVal k a = lastVal k b) : a = b := by
  induction a generalizing b with
  | nil => cases b with
    | nil => rfl
    | cons _ _ => simp at hk
  | cons p a ih =>
    cases b with
    | nil => simp at hk
    | cons q b =>
      obtain ⟨k, v⟩ := p; obtain ⟨k', v'⟩ := q
      simp only [List.map_cons, List.cons.injEq] at hk
      obtain ⟨rfl, hk⟩ := hk
      simp only [List.map_cons, List.nodup_cons] at hn
      have h1 := hv k
      have n1 : lastVal k a = none := lastVal_none.mpr hn.1
      have n2 : lastVal k b = none := lastVal_none.mpr (by rw [← hk]; exact hn.1)
      simp [lastVal, n1, n2] at h1
      rw [h1, ih hk hn.2]
      intro x
      have := hv x
      by_cases hx : k = x
      · subst hx; rw [n1, n2]
      · simp only [lastVal, if_neg hx] at this
        cases ha : lastVal x a <;> cases hb : lastVal x b <;> simp_all

/-! ### Upserting -/

theorem upsert_keys (f : α → α) (k : String) (v : α) (m : List (String × α)) :
    (upsert f k v m).map (·.1) = if k ∈ m.map (·.1) then m.map (·.1) else m.map (·.1) ++ [k] := by
  induction m with
  | nil => simp [upsert]
  | cons p m ih =>
    obtain ⟨k', v'⟩ := p
    simp only [upsert]
    by_cases h : k' = k
    · simp [h]
    · simp only [if_neg h, List.map_cons, ih, List.mem_cons]
      have h2 : ¬ k = k' := fun e => h e.symm
      by_cases h3 : k ∈ m.map (·.1) <;> simp only [h2, h3, false_or, if_true, if_false, List.cons_append]

theorem upsert_val (f : α → α) (k : String) (v : α) {m : List (String × α)} (hn : (m.map (·.1)).Nodup) (x : String) :
    lastVal x (upsert f k v m) =
      if k = x then some (match lastVal k m with | some o => f o | none => v) else lastVal x m := by
  induction m with
  | nil => by_cases h : k = x <;> simp [upsert, lastVal, h]
  | cons p m ih =>
    obtain ⟨k', v'⟩ := p
    simp only [List.map_cons, List.nodup_cons] at hn
    simp only [upsert]
    by_cases h : k' = k
    · subst h
      have n1 : lastVal k' m = none := lastVal_none.mpr hn.1
      simp only [if_true, lastVal, n1]
      by_cases hx : k' = x
      · subst hx; simp [n1]
      · simp [hx]
    · simp only [if_neg h, lastVal, ih hn.2]
      by_cases hx : k = x
      · subst hx
        simp only [if_true, if_neg h]
        cases lastVal k m <;> rfl
      · simp only [if_neg hx]

theorem insert_eq (k : String) (v : α) (m : List (String × α)) : insert k v m = upsert (fun _ => v) k v m := by
  induction m with
  | nil => rfl
  | cons p m ih => obtain ⟨k', v'⟩ := p; simp [insert, upsert, ih]

/-- Fold of upserts, the general shape of all the merges. -/
def upAll (g : α → α → α) (m es : List (String × α)) : List (String × α) :=
  es.foldl (fun m e => upsert (fun o => g o e.2) e.1 e.2 m) m

theorem insertAll_eq (m es : List (String × α)) : insertAll m es = upAll (fun _ v => v) m es := by
  simp only [insertAll, upAll, insert_eq]

theorem upAll_keys (g : α → α → α) (es m : List (String × α)) (hn : (m.map (·.1)).Nodup) :
    (upAll g m es).map (·.1) = firsts (m.map (·.1) ++ es.map (·.1)) := by
  induction es generalizing m with
  | nil => simp [upAll, firsts_of_nodup hn]
  | cons e es ih =>
    have hk := upsert_keys (fun o => g o e.2) e.1 e.2 m
    have hn' : ((upsert (fun o => g o e.2) e.1 e.2 m).map (·.1)).Nodup := by
      rw [hk, ← firsts_snoc hn]; exact firsts_nodup _
    have := ih _ hn'
    rw [upAll, List.foldl_cons]
    rw [upAll] at this
    rw [this, hk, ← firsts_snoc hn, firsts_firsts_append]
    simp

theorem upAll_nodup (g : α → α → α) (es m : List (String × α)) (hn : (m.map (·.1)).Nodup) :
    ((upAll g m es).map (·.1)).Nodup := by
  rw [upAll_keys g es m hn]; exact firsts_nodup _

/-- With distinct keys on the right, each is combined once. -/
theorem upAll_val (g : α → α → α) (es m : List (String × α)) (hn : (m.map (·.1)).Nodup)
    (he : (es.map (·.1)).Nodup) (x : String) :
    lastVal x (upAll g m es) =
      match lastVal x es with
      | some v => some (match lastVal x m with | some o => g o v | none => v)
      | none => lastVal x m := by
  induction es generalizing m with
  | nil => simp [upAll, lastVal]
  | cons e es ih =>
    obtain ⟨k, v⟩ := e
    simp only [List.map_cons, List.nodup_cons] at he
    have hn' : ((upsert (fun o => g o v) k v m).map (·.1)).Nodup := by
      rw [upsert_keys, ← firsts_snoc hn]; exact firsts_nodup _
    have := ih _ hn' he.2
    rw [upAll, List.foldl_cons]
    rw [upAll] at this
    rw [this, upsert_val _ _ _ hn]
    by_cases hk : k = x
    · subst hk
      have n1 : lastVal k es = none := lastVal_none.mpr he.1
      simp only [lastVal, n1, if_true]
    · simp only [lastVal, if_neg hk]
      cases lastVal x es <;> rfl

theorem insertAll_keys (m es : List (String × α)) (hn : (m.map (·.1)).Nodup) :
    (insertAll m es).map (·.1) = firsts (m.map (·.1) ++ es.map (·.1)) := by
  rw [insertAll_eq]; exact upAll_keys _ _ _ hn

theorem insertAll_nodup (m es : List (String × α)) (hn : (m.map (·.1)).Nodup) :
    ((insertAll m es).map (·.1)).Nodup := by
  rw [insertAll_keys m es hn]; exact firsts_nodup _

theorem insertAll_val (es m : List (String × α)) (hn : (m.map (·.1)).Nodup) (x : String) :
    lastVal x (insertAll m es) = lastVal x (m ++ es) := by
  induction es generalizing m with
  | nil => simp [insertAll]
  | cons e es ih =>
    obtain ⟨k, v⟩ := e
    have hn' : ((insert k v m).map (·.1)).Nodup := by
      rw [insert_eq, upsert_keys, ← firsts_snoc hn]; exact firsts_nodup _
    have := ih _ hn'
    rw [insertAll, List.foldl_cons]
    rw [insertAll] at this
    rw [this, lastVal_append, lastVal_append, insert_eq, upsert_val _ _ _ hn]
    simp only [lastVal]
    cases lastVal x es <;> simp
    by_cases hk : k = x
    · simp [hk]; cases lastVal x m <;> rfl
    · simp [hk]

theorem insertAll_self {m : List (String × α)} (hn : (m.map (·.1)).Nodup) : insertAll [] m = m := by
  apply map_ext
  · rw [insertAll_keys _ _ (by simp)]; simp [firsts_of_nodup hn]
  · exact insertAll_nodup _ _ (by simp)
  · intro k; rw [insertAll_val _ _ (by simp)]; rfl

theorem insertAll_insertAll (m es : List (String × α)) (hn : (m.map (·.1)).Nodup) :
    insertAll m (insertAll [] es) = insertAll m es := by
  apply map_ext
  · rw [insertAll_keys _ _ hn, insertAll_keys _ _ hn, insertAll_keys _ _ (by simp)]
    simp [firsts_append_firsts]
  · exact insertAll_nodup _ _ hn
  · intro k
    rw [insertAll_val _ _ hn, insertAll_val _ _ hn, lastVal_append, lastVal_append, insertAll_val _ _ (by simp)]
    rfl

theorem insertAll_append (m a b : List (String × α)) : insertAll m (a ++ b) = insertAll (insertAll m a) b := by
  simp [insertAll]

/-- Everything in the map came from somewhere. -/
theorem upsert_all {P : String × α → Prop} (f : α → α) (k : String) (v : α) (m : List (String × α))
    (hm : ∀ p ∈ m, P p) (hv : P (k, v)) (hf : ∀ o, P (k, o) → P (k, f o)) : ∀ p ∈ upsert f k v m, P p := by
  induction m with
  | nil => simpa [upsert] using hv
  | cons q m ih =>
    obtain ⟨k', v'⟩ := q
    simp only [upsert]
    split
    · next h =>
      subst h
      intro p hp
      rcases List.mem_cons.mp hp with rfl | hp
      · exact hf _ (hm _ (List.mem_cons_self ..))
      · exact hm _ (List.mem_cons_of_mem _ hp)
    · intro p hp
      rcases List.mem_cons.mp hp with rfl | hp
      · exact hm _ (List.mem_cons_self ..)
      · exact ih (fun p hp => hm p (List.mem_cons_of_mem _ hp)) p hp

theorem insertAll_all {P : String × α → Prop} (m es : List (String × α)) (hm : ∀ p ∈ m, P p) (he : ∀ p ∈ es, P p) :
    ∀ p ∈ insertAll m es, P p := by
  induction es generalizing m with
  | nil => simpa [insertAll] using hm
  | cons e es ih =>
    rw [insertAll, List.foldl_cons]
    apply ih
    · rw [insert_eq]; exact upsert_all _ _ _ _ hm (he _ (List.mem_cons_self ..)) (fun _ _ => he _ (List.mem_cons_self ..))
    · exact fun p hp => he p (List.mem_cons_of_mem _ hp)

/-! ### Blocks and maps -/

theorem toList_ofList (l : List Elem) : (Elems.ofList l).toList = l := by
  induction l with
  | nil => rfl
  | cons e l ih => simp [Elems.ofList, Elems.toList, ih]

theorem ofList_toList (es : Elems) : Elems.ofList es.toList = es := by
  match es with
  | .nil => rfl
  | .cons e es => simp [Elems.ofList, Elems.toList, ofList_toList es]

theorem pack_keys (es : Elems) : (pack es).map (·.1) = es.toList.map Elem.key := by
  simp [pack, Function.comp_def]

theorem pairs_keys (es : Elems) : (pairs es).map (·.1) = es.toList.map Elem.key := by
  simp [pairs, Function.comp_def]

theorem pairs_ofPairs (m : List (String × Data)) : pairs (ofPairs m) = m := by
  rw [pairs, ofPairs, toList_ofList]
  simp only [List.map_map]
  conv => rhs; rw [← List.map_id m]
  rfl

theorem pack_good (es : Elems) : ∀ p ∈ pack es, p.2.key = p.1 := by
  intro p hp; simp [pack] at hp; obtain ⟨e, _, rfl⟩ := hp; rfl

theorem pack_ofList {m : List (String × Elem)} (h : ∀ p ∈ m, p.2.key = p.1) : pack (.ofList (m.map (·.2))) = m := by
  rw [pack, toList_ofList, List.map_map]
  conv => rhs; rw [← List.map_id m]
  apply List.map_congr_left
  intro p hp; simp [h p hp]

theorem pairs_pack (es : Elems) : pairs es = (pack es).map (fun p => (p.1, p.2.val)) := by
  simp [pairs, pack, Function.comp_def]

theorem lastVal_map {β : Type} (f : α → β) (k : String) (m : List (String × α)) :
    lastVal k (m.map (fun p => (p.1, f p.2))) = (lastVal k m).map f := by
  induction m with
  | nil => rfl
  | cons p m ih =>
    obtain ⟨k', v⟩ := p
    simp only [List.map_cons, lastVal, ih]
    cases lastVal k m
    · by_cases h : k' = k <;> simp [h]
    · simp

theorem findKey_nodup (k : String) (es : Elems) (h : (es.toList.map Elem.key).Nodup) :
    findKey k es = lastVal k (pairs es) := by
  match es with
  | .nil => rfl
  | .cons e es =>
    simp only [Elems.toList, List.map_cons, List.nodup_cons] at h
    have := findKey_nodup k es h.2
    simp only [findKey, pairs, Elems.toList, List.map_cons, lastVal]
    rw [this]; simp only [pairs]
    by_cases hk : e.key = k
    · subst hk
      have : lastVal e.key (pairs es) = none := lastVal_none.mpr (by rw [pairs_keys]; exact h.1)
      simp only [pairs] at this
      simp [this]
    · simp only [if_neg hk]
      cases lastVal k (es.toList.map fun e => (e.key, e.val)) <;> rfl

theorem findKey_isSome (k : String) (es : Elems) : (findKey k es).isSome ↔ k ∈ es.toList.map Elem.key := by
  match es with
  | .nil => simp [findKey, Elems.toList]
  | .cons e es =>
    simp only [findKey, Elems.toList, List.map_cons, List.mem_cons]
    rw [← findKey_isSome k es]
    by_cases h : e.key = k
    · simp [h]
    · simp only [if_neg h, false_or, show ¬ k = e.key from fun e' => h e'.symm]

/-! ### Deep merging -/

theorem deepElem_eq (m : List (String × Data)) (e : Elem) :
    deepElem m e = upsert (fun o => deepMerge o e.val) e.key e.val m := by
  cases e <;> simp [deepElem, Elem.key, Elem.val]

theorem deepElems_eq (m : List (String × Data)) (es : Elems) : deepElems m es = upAll deepMerge m (pairs es) := by
  match es with
  | .nil => simp [deepElems, upAll, pairs, Elems.toList]
  | .cons e es =>
    rw [deepElems, deepElems_eq _ es, deepElem_eq]
    simp [upAll, pairs, Elems.toList]

theorem deepMerge_block (l r : Elems) :
    deepMerge (.block l) (.block r) = .block (ofPairs (upAll deepMerge (insertAll [] (pairs l)) (pairs r))) := by
  simp [deepMerge, deepElems_eq]

theorem deepMerge_right {l r : Data} (h : isBlock l = false ∨ isBlock r = false) : deepMerge l r = r := by
  cases l <;> cases r <;> simp_all [deepMerge, isBlock]

theorem sizeOf_val {k : String} {v : Data} {es : Elems} (h : (k, v) ∈ pairs es) : sizeOf v < sizeOf (Data.block es) := by
  match es with
  | .nil => simp [pairs, Elems.toList] at h
  | .cons e es =>
    simp only [pairs, Elems.toList, List.map_cons, List.mem_cons] at h
    rcases h with h | h
    · cases e <;> simp [Elem.key, Elem.val] at h <;> obtain ⟨rfl, rfl⟩ := h <;> simp <;> omega
    · have := sizeOf_val (es := es) (by simpa [pairs] using h)
      simp at this ⊢; omega

theorem distinct_val {k : String} {v : Data} {es : Elems} (h : DistinctElems es) (hm : (k, v) ∈ pairs es) : Distinct v := by
  match es with
  | .nil => simp [pairs, Elems.toList] at hm
  | .cons e es =>
    simp only [DistinctElems] at h
    simp only [pairs, Elems.toList, List.map_cons, List.mem_cons] at hm
    rcases hm with hm | hm
    · cases e <;> simp [Elem.key, Elem.val] at hm <;> obtain ⟨rfl, rfl⟩ := hm <;> simpa [DistinctElem] using h.1
    · exact distinct_val h.2 (by simpa [pairs] using hm)

theorem deepMerge_assoc {a b c : Data} (hb : Distinct b) (hc : Distinct c) (hcl : ¬ Clash a b c) :
    deepMerge (deepMerge a b) c = deepMerge a (deepMerge b c) := by
  cases hic : isBlock c with
  | false =>
    rw [deepMerge_right (.inr hic), deepMerge_right (l := b) (.inr hic), deepMerge_right (.inr hic)]
  | true =>
    cases hib : isBlock b with
    | false =>
      cases hia : isBlock a with
      | false => rw [deepMerge_right (.inl hia), deepMerge_right (.inl hib), deepMerge_right (.inl hia)]
      | true => exact absurd (Clash.here hia hib hic) hcl
    | true =>
      cases hia : isBlock a with
      | false =>
        rw [deepMerge_right (l := a) (.inl hia), deepMerge_right (l := a) (.inl hia)]
      | true =>
        match a, b, c, hia, hib, hic with
        | .block as, .block bs, .block cs, _, _, _ =>
          simp only [Distinct] at hb hc
          have kb : ((pairs bs).map (·.1)).Nodup := by rw [pairs_keys]; exact hb.1
          have kc : ((pairs cs).map (·.1)).Nodup := by rw [pairs_keys]; exact hc.1
          have n0 : ((insertAll [] (pairs as)).map (·.1)).Nodup := insertAll_nodup _ _ (by simp)
          rw [deepMerge_block, deepMerge_block, deepMerge_block, deepMerge_block, pairs_ofPairs, pairs_ofPairs]
          have n1 := upAll_nodup deepMerge (pairs bs) _ n0
          rw [insertAll_self n1, insertAll_self kb]
          have n2 := upAll_nodup deepMerge (pairs cs) _ kb
          congr 2
          apply map_ext
          · rw [upAll_keys _ _ _ n1, upAll_keys _ _ _ n0, upAll_keys _ _ _ n0, upAll_keys _ _ _ kb]
            rw [firsts_firsts_append, firsts_append_firsts, List.append_assoc]
          · exact upAll_nodup _ _ _ n1
          · intro k
            rw [upAll_val _ _ _ n1 kc, upAll_val _ _ _ n0 kb, upAll_val _ _ _ n0 n2, upAll_val _ _ _ kb kc]
            cases e3 : lastVal k (pairs cs) with
            | none => cases e2 : lastVal k (pairs bs) <;> rfl
            | some vc =>
              cases e2 : lastVal k (pairs bs) with
              | none => cases e1 : lastVal k (insertAll [] (pairs as)) <;> rfl
              | some vb =>
                cases e1 : lastVal k (insertAll [] (pairs as)) with
                | none => rfl
                | some va =>
                  have ma := lastVal_mem (by rw [insertAll_val _ _ (by simp)] at e1; exact e1 : lastVal k ([] ++ pairs as) = some va)
                  have mb := lastVal_mem e2
                  have mc := lastVal_mem e3
                  have := sizeOf_val mc
                  simp only
                  rw [deepMerge_assoc (distinct_val hb.2 mb) (distinct_val hc.2 mc)
                    (fun h => hcl (.there k ma mb mc h))]
termination_by sizeOf c

end Verif.Data
