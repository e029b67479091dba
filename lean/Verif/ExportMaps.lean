import Verif.ExportAcc

/-!
# The maps of the formats, and what each format builds
-/

namespace Verif.Export
open Verif.Arith (Num asI64 asU64 asF64)

variable {K V : Type}

theorem snoc_ind {α : Type} {P : List α → Prop} (h0 : P []) (h1 : ∀ xs x, P xs → P (xs ++ [x])) : ∀ xs, P xs := by
  intro xs
  rw [← List.reverse_reverse xs]
  induction xs.reverse with
  | nil => exact h0
  | cons x r ih => rw [List.reverse_cons]; exact h1 _ _ ih

theorem lastOf_snoc {k k' : K} {v v' : V} {ks} :
    LastOf k v (ks ++ [(k', v')]) ↔ (k = k' ∧ v = v') ∨ (k' ≠ k ∧ LastOf k v ks) := by
  constructor
  · rintro ⟨a, b, h1, h2⟩
    rcases List.eq_nil_or_concat b with rfl | ⟨b', p, rfl⟩
    · have := List.append_inj' h1 rfl
      simp only [List.cons.injEq, Prod.mk.injEq, and_true] at this
      exact .inl ⟨this.2.1.symm, this.2.2.symm⟩
    · have h1' : ks ++ [(k', v')] = (a ++ (k, v) :: b') ++ [p] := by simpa using h1
      have := List.append_inj' h1' rfl
      simp only [List.cons.injEq, and_true] at this
      right
      refine ⟨?_, a, b', this.1, fun q hq => h2 q (by simp [hq])⟩
      have := h2 p (by simp)
      rename_i hh
      rw [← hh.2] at this; exact this
  · rintro (⟨rfl, rfl⟩ | ⟨hne, a, b, rfl, h2⟩)
    · exact ⟨ks, [], rfl, by simp⟩
    · refine ⟨a, b ++ [(k', v')], by simp, ?_⟩
      intro p hp
      rcases List.mem_append.mp hp with hp | hp
      · exact h2 p hp
      · simp only [List.mem_singleton] at hp; subst hp; exact hne

theorem tabulates_snoc {ks out out' : List (K × V)} {k' : K} {v' : V} (h : Tabulates ks out)
    (hn : (out'.map (·.1)).Nodup)
    (hm : ∀ k v, (k, v) ∈ out' ↔ (k = k' ∧ v = v') ∨ (k' ≠ k ∧ (k, v) ∈ out)) :
    Tabulates (ks ++ [(k', v')]) out' := by
  refine ⟨hn, fun k v => ?_⟩
  rw [hm, lastOf_snoc, h.2]

theorem tabulates_nil : Tabulates ([] : List (K × V)) [] := by
  refine ⟨List.nodup_nil, fun k v => ?_⟩
  constructor
  · intro h; cases h
  · rintro ⟨a, b, h, _⟩; cases a <;> cases h

/-! ## BTreeMap -/

section btree
variable [DecidableEq K] {lt : K → K → Bool}

def Sorted (lt : K → K → Bool) (m : List (K × V)) : Prop := m.Pairwise (fun a b => lt a.1 b.1 = true)

theorem btreeInsert_mem {k : K} {v : V} : ∀ {m : List (K × V)} {p}, p ∈ btreeInsert lt k v m → p = (k, v) ∨ p ∈ m
  | [], p, h => by simpa [btreeInsert] using h
  | (k', v') :: r, p, h => by
    rw [btreeInsert] at h
    split at h
    · rcases List.mem_cons.mp h with h | h
      · exact .inl h
      · exact .inr (List.mem_cons_of_mem _ h)
    · split at h
      · rcases List.mem_cons.mp h with h | h
        · exact .inl h
        · exact .inr h
      · rcases List.mem_cons.mp h with h | h
        · exact .inr (by rw [h]; exact List.mem_cons_self)
        · rcases btreeInsert_mem h with h | h
          · exact .inl h
          · exact .inr (List.mem_cons_of_mem _ h)

theorem btreeInsert_sorted (ht : ∀ a b c, lt a b = true → lt b c = true → lt a c = true) {k : K} {v : V} :
    ∀ {m : List (K × V)}, (∀ p ∈ m, k = p.1 ∨ lt k p.1 = true ∨ lt p.1 k = true) → Sorted lt m →
    Sorted lt (btreeInsert lt k v m)
  | [], _, _ => by simp [btreeInsert, Sorted]
  | (k', v') :: r, hc, h => by
    have hp := List.pairwise_cons.mp h
    rw [btreeInsert]
    split
    · rename_i he; subst he
      exact List.pairwise_cons.mpr ⟨hp.1, hp.2⟩
    · rename_i hne
      split
      · rename_i hl
        refine List.pairwise_cons.mpr ⟨?_, h⟩
        intro p hp'
        rcases List.mem_cons.mp hp' with rfl | hp'
        · exact hl
        · exact ht _ _ _ hl (hp.1 p hp')
      · rename_i hl
        refine List.pairwise_cons.mpr ⟨?_, btreeInsert_sorted ht (fun p hp => hc p (List.mem_cons_of_mem _ hp)) hp.2⟩
        intro p hp'
        rcases btreeInsert_mem hp' with rfl | hp'
        · rcases hc (k', v') List.mem_cons_self with h | h | h
          · exact absurd h hne
          · exact absurd h hl
          · exact h
        · exact hp.1 p hp'

theorem btreeInsert_iff (hi : ∀ a, lt a a = false) (ht : ∀ a b c, lt a b = true → lt b c = true → lt a c = true)
    {k : K} {v : V} : ∀ {m : List (K × V)}, Sorted lt m → ∀ k₁ v₁,
    (k₁, v₁) ∈ btreeInsert lt k v m ↔ (k₁ = k ∧ v₁ = v) ∨ (k ≠ k₁ ∧ (k₁, v₁) ∈ m)
  | [], _, k₁, v₁ => by simp [btreeInsert]
  | (k', v') :: r, h, k₁, v₁ => by
    have hp := List.pairwise_cons.mp h
    rw [btreeInsert]
    split
    · rename_i he; subst he
      simp only [List.mem_cons, Prod.mk.injEq]
      constructor
      · rintro (h | h)
        · exact .inl h
        · refine .inr ⟨?_, .inr h⟩
          rintro rfl
          have := hp.1 _ h
          rw [hi] at this; cases this
      · rintro (h | ⟨h1, ⟨h2, _⟩ | h2⟩)
        · exact .inl h
        · exact absurd h2.symm h1
        · exact .inr h2
    · rename_i hne
      split
      · rename_i hl
        simp only [List.mem_cons, Prod.mk.injEq]
        constructor
        · rintro (h | h | h)
          · exact .inl h
          · exact .inr ⟨fun e => hne (e.trans h.1), .inl h⟩
          · refine .inr ⟨?_, .inr h⟩
            rintro rfl
            have := ht _ _ _ hl (hp.1 _ h)
            rw [hi] at this; cases this
        · rintro (h | ⟨_, h⟩)
          · exact .inl h
          · exact .inr h
      · simp only [List.mem_cons, Prod.mk.injEq, btreeInsert_iff hi ht hp.2]
        constructor
        · rintro (h | h | h)
          · exact .inr ⟨fun e => hne (e.trans h.1), .inl h⟩
          · exact .inl h
          · exact .inr ⟨h.1, .inr h.2⟩
        · rintro (h | ⟨h1, h | h⟩)
          · exact .inr (.inl h)
          · exact .inl h
          · exact .inr (.inr ⟨h1, h⟩)

omit [DecidableEq K] in
theorem sorted_nodup (hi : ∀ a, lt a a = false) {m : List (K × V)} (h : Sorted lt m) : (m.map (·.1)).Nodup := by
  rw [List.Nodup, List.pairwise_map]
  refine h.imp ?_
  intro a b hl he
  rw [he, hi] at hl; cases hl

theorem btree_snoc (ks : List (K × V)) (p : K × V) : btree lt (ks ++ [p]) = btreeInsert lt p.1 p.2 (btree lt ks) := by
  simp [btree]

theorem btree_mem : ∀ (ks : List (K × V)) p, p ∈ btree lt ks → p ∈ ks := by
  apply snoc_ind
  · intro p h; exact h
  · intro ks x ih p h
    rw [btree_snoc] at h
    rcases btreeInsert_mem h with h | h
    · rw [h]; simp
    · exact List.mem_append_left _ (ih p h)

theorem btree_tabulates (hi : ∀ a, lt a a = false) (ht : ∀ a b c, lt a b = true → lt b c = true → lt a c = true) :
    ∀ (ks : List (K × V)), (∀ p ∈ ks, ∀ q ∈ ks, p.1 = q.1 ∨ lt p.1 q.1 = true ∨ lt q.1 p.1 = true) →
    Tabulates ks (btree lt ks) ∧ Sorted lt (btree lt ks) := by
  apply snoc_ind
  · intro _; exact ⟨tabulates_nil, List.Pairwise.nil⟩
  · intro ks p ih hc
    obtain ⟨k, v⟩ := p
    have ⟨h1, h2⟩ := ih fun p hp q hq => hc p (List.mem_append_left _ hp) q (List.mem_append_left _ hq)
    rw [btree_snoc]
    have h3 : Sorted lt (btreeInsert lt k v (btree lt ks)) := btreeInsert_sorted ht
      (fun p hp => hc (k, v) (by simp) p (List.mem_append_left _ (btree_mem ks p hp))) h2
    exact ⟨tabulates_snoc h1 (sorted_nodup hi h3) (btreeInsert_iff hi ht h2), h3⟩

end btree

/-! ## IndexMap and LinkedHashMap -/

section index
variable [DecidableEq K]

theorem indexInsert_keys (k : K) (v : V) : ∀ (m : List (K × V)),
    (indexInsert k v m).map (·.1) = if k ∈ m.map (·.1) then m.map (·.1) else m.map (·.1) ++ [k]
  | [] => by simp [indexInsert]
  | (k', v') :: r => by
    rw [indexInsert]
    split
    · rename_i h; subst h; simp
    · rename_i h
      simp only [List.map_cons, indexInsert_keys k v r, List.mem_cons, h, false_or]
      split <;> simp

theorem indexInsert_iff {k : K} {v : V} : ∀ {m : List (K × V)}, (m.map (·.1)).Nodup → ∀ k₁ v₁,
    (k₁, v₁) ∈ indexInsert k v m ↔ (k₁ = k ∧ v₁ = v) ∨ (k ≠ k₁ ∧ (k₁, v₁) ∈ m)
  | [], _, k₁, v₁ => by simp [indexInsert]
  | (k', v') :: r, h, k₁, v₁ => by
    have hp := List.nodup_cons.mp h
    rw [indexInsert]
    split
    · rename_i he; subst he
      simp only [List.mem_cons, Prod.mk.injEq]
      constructor
      · rintro (h | h)
        · exact .inl h
        · refine .inr ⟨?_, .inr h⟩
          rintro rfl
          exact hp.1 (List.mem_map.mpr ⟨_, h, rfl⟩)
      · rintro (h | ⟨h1, ⟨h2, _⟩ | h2⟩)
        · exact .inl h
        · exact absurd h2.symm h1
        · exact .inr h2
    · rename_i hne
      simp only [List.mem_cons, Prod.mk.injEq, indexInsert_iff hp.2]
      constructor
      · rintro (h | h | h)
        · exact .inr ⟨fun e => hne (e.trans h.1), .inl h⟩
        · exact .inl h
        · exact .inr ⟨h.1, .inr h.2⟩
      · rintro (h | ⟨h1, h | h⟩)
        · exact .inr (.inl h)
        · exact .inl h
        · exact .inr (.inr ⟨h1, h⟩)

theorem indexMap_snoc (ks : List (K × V)) (p : K × V) : indexMap (ks ++ [p]) = indexInsert p.1 p.2 (indexMap ks) := by
  simp [indexMap]

theorem firstKeys_mem : ∀ (ks : List K) k, k ∈ firstKeys ks ↔ k ∈ ks
  | [], _ => by simp [firstKeys]
  | k' :: r, k => by
    simp only [firstKeys, List.mem_cons, List.mem_filter, firstKeys_mem r, decide_eq_true_eq]
    constructor
    · rintro (h | ⟨h, _⟩)
      · exact .inl h
      · exact .inr h
    · rintro (h | h)
      · exact .inl h
      · by_cases e : k = k'
        · exact .inl e
        · exact .inr ⟨h, e⟩

theorem firstKeys_snoc : ∀ (ks : List K) k, firstKeys (ks ++ [k]) = if k ∈ ks then firstKeys ks else firstKeys ks ++ [k]
  | [], k => by simp [firstKeys]
  | k' :: r, k => by
    simp only [List.cons_append, firstKeys, firstKeys_snoc r k, List.mem_cons]
    by_cases e : k = k'
    · subst e
      simp only [true_or, if_true]
      split
      · rfl
      · rw [List.filter_append]; simp
    · simp only [e, false_or]
      split
      · rfl
      · rw [List.filter_append]; simp [e]

theorem indexMap_tabulates : ∀ (ks : List (K × V)),
    Tabulates ks (indexMap ks) ∧ (indexMap ks).map (·.1) = firstKeys (ks.map (·.1)) := by
  apply snoc_ind
  · exact ⟨tabulates_nil, rfl⟩
  · rintro ks ⟨k, v⟩ ⟨h1, h2⟩
    rw [indexMap_snoc]
    have hk := indexInsert_keys k v (indexMap ks)
    have hn : ((indexInsert k v (indexMap ks)).map (·.1)).Nodup := by
      rw [hk]
      split
      · exact h1.1
      · rename_i hnot
        rw [List.nodup_append]
        refine ⟨h1.1, by simp, ?_⟩
        intro a ha b hb
        simp only [List.mem_singleton] at hb
        subst hb
        rintro rfl
        exact hnot ha
    refine ⟨tabulates_snoc h1 hn (indexInsert_iff h1.1), ?_⟩
    simp only
    rw [hk, h2, List.map_append, List.map_singleton, firstKeys_snoc]
    simp only [firstKeys_mem]

theorem linkedMap_snoc (ks : List (K × V)) (p : K × V) : linkedMap (ks ++ [p]) = linkedInsert p.1 p.2 (linkedMap ks) := by
  simp [linkedMap]

theorem lastKeys_snoc : ∀ (ks : List K) k, lastKeys (ks ++ [k]) = (lastKeys ks).filter (fun x => x ≠ k) ++ [k]
  | [], k => by simp [lastKeys]
  | k' :: r, k => by
    simp only [List.cons_append, lastKeys, lastKeys_snoc r k, List.mem_append, List.mem_singleton]
    by_cases h : k' ∈ r
    · simp [h]
    · by_cases e : k' = k
      · subst e; simp [h]
      · simp [h, e]

theorem linkedMap_tabulates : ∀ (ks : List (K × V)),
    Tabulates ks (linkedMap ks) ∧ (linkedMap ks).map (·.1) = lastKeys (ks.map (·.1)) := by
  apply snoc_ind
  · exact ⟨tabulates_nil, rfl⟩
  · rintro ks ⟨k, v⟩ ⟨h1, h2⟩
    rw [linkedMap_snoc]
    have hk : (linkedInsert k v (linkedMap ks)).map (·.1) = ((linkedMap ks).map (·.1)).filter (fun x => x ≠ k) ++ [k] := by
      simp only [linkedInsert, List.map_append, List.map_singleton, List.filter_map]
      rfl
    have hn : ((linkedInsert k v (linkedMap ks)).map (·.1)).Nodup := by
      rw [hk, List.nodup_append]
      refine ⟨h1.1.filter _, by simp, ?_⟩
      intro a ha b hb
      simp only [List.mem_filter, decide_eq_true_eq] at ha
      simp only [List.mem_singleton] at hb
      subst hb
      exact ha.2
    refine ⟨tabulates_snoc h1 hn ?_, ?_⟩
    · intro k₁ v₁
      simp only [linkedInsert, List.mem_append, List.mem_filter, List.mem_singleton, Prod.mk.injEq, decide_eq_true_eq]
      constructor
      · rintro (⟨h, hne⟩ | h)
        · exact .inr ⟨fun e => hne e.symm, h⟩
        · exact .inl h
      · rintro (h | ⟨hne, h⟩)
        · exact .inr h
        · exact .inl ⟨h, fun e => hne e.symm⟩
    · rw [hk, h2, List.map_append, List.map_singleton, lastKeys_snoc]

end index

/-! ## Numbers -/

theorem maxI64_iff (k : Nat) : (k : Int) ≤ Arith.maxI64 ↔ k ≤ 2 ^ 63 - 1 := by
  simp only [Arith.maxI64]; omega

theorem overflow_iff (n : Num) : integerOverflow n = false ↔ InI64 (.num n) := by
  cases n with
  | pos k =>
    show (asI64 (.pos k)).isNone = false ↔ k ≤ 2 ^ 63 - 1
    rw [← maxI64_iff, asI64]
    split <;> simp_all
  | neg i => simp [integerOverflow, asU64, InI64]
  | float f => simp [integerOverflow, asU64, InI64]

/-! ## JSON -/

theorem strLt_irrefl (a : String) : decide (a < a) = false := by simp [String.lt_irrefl]
theorem strLt_trans (a b c : String) (h1 : decide (a < b) = true) (h2 : decide (b < c) = true) : decide (a < c) = true := by
  simp only [decide_eq_true_eq] at *; exact String.lt_trans h1 h2
theorem strLt_total (a b : String) : a = b ∨ decide (a < b) = true ∨ decide (b < a) = true := by
  simp only [decide_eq_true_eq]
  by_cases h1 : a < b
  · exact .inr (.inl h1)
  · by_cases h2 : b < a
    · exact .inr (.inr h2)
    · exact .inl (String.le_antisymm (String.not_lt.mp h2) (String.not_lt.mp h1))

theorem map_keys {A : Type} (f : A → K) (g : K → A) (kvs : List (A × V)) (h : ∀ p ∈ kvs, p.1 = g (f p.1)) :
    kvs = (kvs.map fun p => (f p.1, p.2)).map (fun p => (g p.1, p.2)) := by
  induction kvs with
  | nil => rfl
  | cons p r ih =>
    simp only [List.map_cons, List.cons.injEq]
    exact ⟨Prod.ext (h p List.mem_cons_self) rfl, ih fun q hq => h q (List.mem_cons_of_mem _ hq)⟩

theorem json_agrees (D : Display) : Agrees (jsonFmt D) true (fun _ => false) (jsonTarget D) :=
  ⟨fun _ => by simp [jsonTarget], by simp [jsonTarget]⟩

theorem json_faithful (D : Display) : Faithful (jsonFmt D) (jsonTarget D) where
  scalar t p _ := by cases p <;> rfl
  list t vs := rfl
  table t kvs h := by
    refine ⟨kvs.map fun p => ((jsonFmt D).asKey p.1, p.2), _, ?_, rfl, ?_⟩
    · refine map_keys (jsonFmt D).asKey Json.str kvs ?_
      intro p hp
      obtain ⟨t, s, h | h⟩ := h trivial p hp <;> rw [h] <;> rfl
    · have := btree_tabulates (lt := fun a b => decide (a < b)) strLt_irrefl strLt_trans
        (kvs.map fun p => ((jsonFmt D).asKey p.1, p.2)) (fun p _ q _ => strLt_total _ _)
      refine ⟨this.1, this.2.imp fun h => by simpa using h⟩

/-! ## TOML -/

theorem toml_agrees (D : Display) : Agrees (tomlFmt D) true tomlUnrep tomlTarget := by
  refine ⟨fun p => ?_, by simp [tomlTarget]⟩
  cases p with
  | num n => simpa [tomlTarget, tomlUnrep] using (overflow_iff n).symm
  | _ => simp [tomlTarget, tomlUnrep, InI64]

theorem toml_faithful (D : Display) : Faithful (tomlFmt D) tomlTarget where
  scalar t p h := by
    cases p with
    | null => exact absurd rfl h.1
    | num n =>
      have ho := (overflow_iff n).mpr h.2
      cases n with
      | pos k =>
        have hk : (k : Int) ≤ Arith.maxI64 := (maxI64_iff k).mpr h.2
        simp [tomlTarget, tomlFmt, ho, asI64, hk]
      | neg i => simp [tomlTarget, tomlFmt, ho, asI64]
      | float f => simp [tomlTarget, tomlFmt, ho, asI64, asF64]
    | _ => rfl
  list t vs := rfl
  table t kvs h := by
    refine ⟨kvs.map fun p => ((tomlFmt D).asKey p.1, p.2), _, ?_, rfl, ?_⟩
    · refine map_keys (tomlFmt D).asKey Toml.str kvs ?_
      intro p hp
      obtain ⟨t, s, h | h⟩ := h trivial p hp <;> rw [h] <;> rfl
    · exact indexMap_tabulates _

/-! ## YAML -/

theorem yamlTag_is (t : Option String) : TagIs t (yamlTag t) := by
  cases t with
  | none => rfl
  | some t =>
    simp only [yamlTag, Option.map_some, TagIs]
    split
    · rename_i suffix h
      refine ⟨_, _, rfl, ?_, .inl rfl⟩
      apply String.toList_injective
      rw [String.toList_append]
      simp [h]
    · rename_i hn
      refine ⟨_, _, rfl, by simp, .inr ⟨rfl, ?_⟩⟩
      rintro r rfl
      exact hn r.toList (by simp)

theorem yaml_agrees (D : Display) :
    Agrees (yamlFmt D) false (fun | .num n => integerOverflow n | _ => false) (yamlTarget D) := by
  refine ⟨fun p => ?_, by simp [yamlTarget]⟩
  cases p with
  | num n => simpa [yamlTarget] using (overflow_iff n).symm
  | _ => simp [yamlTarget, InI64]

theorem yaml_faithful (D : Display) : Faithful (yamlFmt D) (yamlTarget D) where
  scalar t p h := by
    refine ⟨yamlTag t, yamlTag_is t, ?_⟩
    cases p with
    | num n =>
      have ho := (overflow_iff n).mpr h
      cases n with
      | pos k =>
        have hk : (k : Int) ≤ Arith.maxI64 := (maxI64_iff k).mpr h
        simp [yamlFmt, ho, asI64, hk]
      | neg i => simp [yamlFmt, ho, asI64]
      | float f => simp [yamlFmt, ho, asI64, asF64]
    | _ => rfl
  list t vs := ⟨_, yamlTag_is t, rfl⟩
  table t kvs _ := by
    have h : (kvs.map fun p => ((yamlFmt D).asKey p.1, p.2)) = kvs := by simp [yamlFmt]
    rw [h]
    exact ⟨_, _, yamlTag_is t, rfl, @linkedMap_tabulates _ _ (fun a b => Classical.propDecidable (a = b)) kvs⟩

/-! ## EDN -/

theorem edn_agrees (lt : Edn → Edn → Bool) : Agrees (ednFmt lt) false (fun _ => false) (ednTarget lt) :=
  ⟨fun _ => by simp [ednTarget], by simp [ednTarget]⟩

theorem edn_faithful {lt : Edn → Edn → Bool} (hi : ∀ a, lt a a = false)
    (ht : ∀ a b c, lt a b = true → lt b c = true → lt a c = true) : Faithful (ednFmt lt) (ednTarget lt) where
  scalar t p _ := by
    cases p with
    | num n =>
      cases n with
      | pos k =>
        have h := maxI64_iff k
        by_cases hk : (k : Int) ≤ Arith.maxI64
        · have : (ednFmt lt).fromPrim t (.num (.pos k)) = .int k := by simp [ednFmt, asI64, hk]
          rw [this]
          exact .inl ⟨h.mp hk, rfl⟩
        · have : (ednFmt lt).fromPrim t (.num (.pos k)) = .big k := by simp [ednFmt, asI64, hk, asU64]
          rw [this]
          exact .inr ⟨by omega, rfl⟩
      | neg i => rfl
      | float f => rfl
    | _ => rfl
  list t vs := rfl
  table t kvs _ := by
    have h : (kvs.map fun p => ((ednFmt lt).asKey p.1, p.2)) = kvs := by simp [ednFmt]
    rw [h]
    exact ⟨_, rfl, fun hc => @btree_tabulates _ _ (fun a b => Classical.propDecidable (a = b)) _ hi ht kvs hc⟩

/-! ## eucalypt -/

theorem eu_agrees (D : Display) : Agrees (euFmt D) true (fun _ => false) euTarget :=
  ⟨fun _ => by simp [euTarget], by simp [euTarget]⟩

theorem eu_faithful (D : Display) : Faithful (euFmt D) euTarget where
  scalar t p _ := by cases p <;> rfl
  list t vs := rfl
  table t kvs h := by
    refine ⟨_, rfl, ?_⟩
    replace h := h trivial
    induction kvs with
    | nil => exact .nil
    | cons p r ih =>
      refine .cons ⟨?_, rfl⟩ (ih fun q hq => h q (List.mem_cons_of_mem _ hq))
      obtain ⟨t, s, h | h⟩ := h p List.mem_cons_self
      · left; simp only [h]; rfl
      · right; simp only [h]; rfl

end Verif.Export
