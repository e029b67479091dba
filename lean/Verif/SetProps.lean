import Verif.SetModel
import Verif.ArithProps
/-!
# Properties of sets (C41)

Sets behave as mathematical sets of the numbers' double values, the strings and the symbols;
listing one gives a sorted list that depends only on its members.
-/

namespace Verif.Sets

open Verif.Arith

/-- No repetitions: the invariant of a hash set. -/
def Valid (s : HeapSet) : Prop := s.Nodup

/-! ### The order is total -/

theorem le_trans (a b c : Prim) (h1 : le a b = true) (h2 : le b c = true) : le a c = true := by
  cases a <;> cases b <;> cases c <;> simp [le] at h1 h2 ⊢
  · omega
  · exact String.le_trans h1 h2
  · omega

theorem le_total (a b : Prim) : (le a b || le b a) = true := by
  cases a <;> cases b <;> simp [le]
  · omega
  · exact String.le_total _ _
  · omega

theorem le_antisymm {a b : Prim} (h1 : le a b = true) (h2 : le b a = true) : a = b := by
  cases a <;> cases b <;> simp [le] at h1 h2 ⊢
  · omega
  · exact String.le_antisymm h1 h2
  · omega

/-! ### Membership -/

theorem mem_insert {s : HeapSet} {p q : Prim} : q ∈ insert s p ↔ q ∈ s ∨ q = p := by
  unfold insert
  split
  · next h => simp at h; constructor
              · exact .inl
              · rintro (h' | rfl) <;> assumption
  · simp; grind

theorem insert_valid {s : HeapSet} {p : Prim} (h : Valid s) : Valid (insert s p) := by
  unfold insert
  split
  · exact h
  · next hn => simp at hn; exact List.nodup_cons.mpr ⟨hn, h⟩

theorem foldl_insert (ps : List Prim) (s : HeapSet) (h : Valid s) :
    Valid (ps.foldl insert s) ∧ ∀ q, q ∈ ps.foldl insert s ↔ q ∈ s ∨ q ∈ ps := by
  induction ps generalizing s with
  | nil => simp [h]
  | cons p ps ih =>
    have := ih (insert s p) (insert_valid h)
    refine ⟨this.1, fun q => ?_⟩
    rw [List.foldl_cons, this.2 q, mem_insert]; simp; grind

theorem fromPrims_spec (ps : List Prim) : Valid (fromPrims ps) ∧ ∀ q, q ∈ fromPrims ps ↔ q ∈ ps := by
  have := foldl_insert ps [] List.nodup_nil
  exact ⟨this.1, fun q => by rw [fromPrims, this.2]; simp⟩

theorem contains_iff {s : HeapSet} {q : Prim} : contains s q = true ↔ q ∈ s := by simp [contains]

/-- C41: all the operations give valid sets with the members they should have. -/
theorem add_spec {s : HeapSet} (h : Valid s) (p : Prim) :
    Valid (withAdded s p) ∧ ∀ q, contains (withAdded s p) q = true ↔ contains s q = true ∨ q = p :=
  ⟨insert_valid h, fun q => by simp [contains, withAdded, mem_insert]⟩

theorem remove_spec {s : HeapSet} (h : Valid s) (p : Prim) :
    Valid (withRemoved s p) ∧ ∀ q, contains (withRemoved s p) q = true ↔ contains s q = true ∧ q ≠ p :=
  ⟨h.filter _, fun q => by simp [contains, withRemoved]⟩

theorem union_spec (a b : HeapSet) :
    Valid (setUnion b a) ∧ ∀ q, contains (setUnion b a) q = true ↔ contains a q = true ∨ contains b q = true := by
  have := fromPrims_spec (a ++ b.filter (fun p => !a.elem p))
  refine ⟨this.1, fun q => ?_⟩
  rw [contains_iff, contains_iff, contains_iff]
  refine (this.2 q).trans ?_
  simp; grind

theorem intersect_spec (a b : HeapSet) :
    Valid (setIntersect b a) ∧ ∀ q, contains (setIntersect b a) q = true ↔ contains a q = true ∧ contains b q = true := by
  have := fromPrims_spec (a.filter (fun p => b.elem p))
  refine ⟨this.1, fun q => ?_⟩
  rw [contains_iff, contains_iff, contains_iff]
  refine (this.2 q).trans ?_
  simp

theorem diff_spec (a b : HeapSet) :
    Valid (setDiff b a) ∧ ∀ q, contains (setDiff b a) q = true ↔ contains a q = true ∧ ¬ contains b q = true := by
  have := fromPrims_spec (a.filter (fun p => !b.elem p))
  refine ⟨this.1, fun q => ?_⟩
  rw [contains_iff, contains_iff, contains_iff]
  refine (this.2 q).trans ?_
  simp

/-- C41: the size of a union, counting common members once. -/
theorem size_union (a b : HeapSet) (ha : Valid a) (hb : Valid b) :
    setSize (setUnion b a) + setSize (setIntersect b a) = setSize a + setSize b := by
  have perm_of : ∀ {s t : HeapSet}, Valid s → Valid t → (∀ q, q ∈ s ↔ q ∈ t) → s.length = t.length := by
    intro s t hs ht h
    exact ((List.perm_ext_iff_of_nodup hs ht).mpr h).length_eq
  have hf : Valid (a ++ b.filter (fun p => !a.elem p)) := by
    refine List.nodup_append.mpr ⟨ha, hb.filter _, ?_⟩
    intro x hx y hy e
    subst e; simp at hy; exact hy.2 hx
  have h1 : (setUnion b a).length = (a ++ b.filter (fun p => !a.elem p)).length :=
    perm_of (fromPrims_spec _).1 hf (fromPrims_spec _).2
  have h2 : (setIntersect b a).length = (b.filter (fun p => a.elem p)).length := by
    refine perm_of (fromPrims_spec _).1 (hb.filter _) (fun q => ?_)
    refine ((fromPrims_spec _).2 q).trans ?_
    simp; grind
  have h3 : (b.filter (fun p => a.elem p)).length + (b.filter (fun p => !a.elem p)).length = b.length := by
    clear h1 h2 hf ha hb perm_of
    induction b with
    | nil => rfl
    | cons p b ih =>
      cases hp : a.elem p
      · rw [List.filter_cons_of_neg (by rw [hp]; simp), List.filter_cons_of_pos (by rw [hp]; rfl)]
        simp only [List.length_cons]; omega
      · rw [List.filter_cons_of_pos (by rw [hp]), List.filter_cons_of_neg (by rw [hp]; simp)]
        simp only [List.length_cons]; omega
  unfold setSize
  rw [h1, h2, List.length_append]; omega

/-! ### Listing -/

/-- C41: the listing of a set is sorted and has exactly its members, each once. -/
theorem sorted_spec (s : HeapSet) :
    (sortedElements s).Perm s ∧ (sortedElements s).Pairwise (fun a b => le a b = true) :=
  ⟨List.mergeSort_perm _ _, List.pairwise_mergeSort le_trans le_total s⟩

theorem sorted_unique {l m : List Prim} (hp : l.Perm m) (hl : l.Pairwise (fun a b => le a b = true))
    (hm : m.Pairwise (fun a b => le a b = true)) : l = m :=
  hp.eq_of_pairwise (fun _ _ _ _ h1 h2 => le_antisymm h1 h2) hl hm

/-- C41: the listing depends on the members only, not on how the set was built or on the hash
order. -/
theorem toList_deterministic {s t : HeapSet} (hs : Valid s) (ht : Valid t)
    (h : ∀ q, contains s q = contains t q) : toList s = toList t := by
  have hp : s.Perm t := by
    refine (List.perm_ext_iff_of_nodup hs ht).mpr fun q => ?_
    have := h q
    simp only [contains, List.elem_eq_mem] at this
    exact decide_eq_decide.mp this
  unfold toList
  rw [sorted_unique (((sorted_spec s).1.trans hp).trans (sorted_spec t).1.symm) (sorted_spec s).2 (sorted_spec t).2]

/-- Two sets built in different orders. -/
example : Valid (fromPrims [.num 1, .str "a", .num 1]) ∧ Valid (fromPrims [.str "a", .num 1]) ∧
    (∀ q, contains (fromPrims [.num 1, .str "a", .num 1]) q = contains (fromPrims [.str "a", .num 1]) q) ∧
    fromPrims [.num 1, .str "a", .num 1] ≠ fromPrims [.str "a", .num 1] := by
  refine ⟨(fromPrims_spec _).1, (fromPrims_spec _).1, fun q => ?_, by decide⟩
  simp [contains, fromPrims, insert]; grind

/-- C41: a set made from a list contains exactly the values equal (`==`) to one of the list's,
when integers are at most `2^53`. -/
theorem fromList_contains_partial {xs : List Nat'} {s : HeapSet} (h : fromList xs = some s)
    {x : Nat'} (hx : ∀ n, x = .num n → Ok n ∧ ∀ a, intVal n = some a → a.natAbs ≤ 2 ^ 53)
    (hxs : ∀ y ∈ xs, ∀ n, y = .num n → Ok n ∧ ∀ a, intVal n = some a → a.natAbs ≤ 2 ^ 53) :
    setContains x s = true ↔ ∃ y ∈ xs, y ≠ .other ∧
      (x = y ∨ ∃ n m, x = .num n ∧ y = .num m ∧ value n = value m) := by
  unfold fromList at h
  cases hm : xs.mapM toPrim with
  | none => rw [hm] at h; cases h
  | some ps =>
    rw [hm] at h; simp only [Option.map_some, Option.some.injEq] at h
    subst h
    have mem : ∀ {xs : List Nat'} {ps}, xs.mapM toPrim = some ps → ∀ p, p ∈ ps ↔ ∃ y ∈ xs, toPrim y = some p := by
      intro xs
      induction xs with
      | nil => intro ps h p; simp at h; subst h; simp
      | cons y ys ih =>
        intro ps h p
        rw [List.mapM_cons] at h
        cases h1 : toPrim y with
        | none => rw [h1] at h; cases h
        | some q =>
          cases h2 : ys.mapM toPrim with
          | none => rw [h1, h2] at h; cases h
          | some qs =>
            rw [h1, h2] at h
            cases h
            simp [ih h2, h1, eq_comm]
    have key : ∀ {y : Nat'} {p q : Prim}, toPrim x = some p → toPrim y = some q → y ∈ xs →
        (p = q ↔ x = y ∨ ∃ n m, x = .num n ∧ y = .num m ∧ value n = value m) := by
      intro y p q h1 h2 hy
      have val : ∀ {n : Num}, (Ok n ∧ ∀ a, intVal n = some a → a.natAbs ≤ 2 ^ 53) → asF64 n = value n := by
        intro n ⟨_, hn⟩
        cases n with
        | pos k => exact rndInt_small (hn _ rfl)
        | neg i => exact rndInt_small (hn _ rfl)
        | float v => rfl
      cases x <;> cases y <;> simp [toPrim] at h1 h2 <;> subst h1 <;> subst h2 <;> simp
      · next n m =>
        rw [val (hx n rfl), val (hxs _ hy m rfl)]
        constructor
        · exact .inr
        · rintro (rfl | h)
          · rfl
          · exact h
    cases hp : toPrim x with
    | none =>
      have : x = .other := by cases x <;> simp [toPrim] at hp; rfl
      subst this
      simp only [setContains, toPrim]
      constructor
      · intro h; cases h
      · rintro ⟨y, _, hy, (e | ⟨n, m, e, _⟩)⟩
        · exact absurd e.symm hy
        · cases e
    | some p =>
      simp only [setContains, hp, contains, List.elem_eq_mem, decide_eq_true_eq, (fromPrims_spec ps).2, mem hm]
      constructor
      · rintro ⟨y, hy, e⟩
        exact ⟨y, hy, by rintro rfl; simp [toPrim] at e, (key hp e hy).mp rfl⟩
      · rintro ⟨y, hy, ho, e⟩
        have : ∃ q, toPrim y = some q := by cases y <;> simp [toPrim] at ho ⊢
        obtain ⟨q, hq⟩ := this
        exact ⟨y, hy, by rw [hq, (key hp hq hy).mpr e]⟩

/-- C41 fails beyond `2^53`: a set containing the integer `2^53` also contains `2^53 + 1`, and
lists it as a double. -/
theorem contains_conflates : ∃ s, fromList [.num (.pos (2 ^ 53))] = some s ∧
    setContains (.num (.pos (2 ^ 53 + 1))) s = true ∧ numEq (.pos (2 ^ 53)) (.pos (2 ^ 53 + 1)) = false := by
  refine ⟨_, rfl, ?_, by decide +kernel⟩
  decide +kernel

end Verif.Sets
