import Verif.ContractSpec

/-!
# Contracts: theorems
-/

namespace Verif.Contract

theorem prim_sound {name : String} {p : Path} {v : Val} (h : IsPrim name v) : primCheck name p v = [] := by
  unfold IsPrim at h
  split at h
  all_goals try (obtain ⟨x, rfl⟩ := h; simp [primCheck, accepting, pred]; done)
  · exact h.elim
  · rename_i h1 h2 h3 h4 h5 h6 h7 h8 h9 h10
    unfold primCheck pred
    simp_all

theorem prim_complete {name : String} {p : Path} {v : Val} (h1 : name ≠ "set") (h2 : name ≠ "vec") (h3 : name ≠ "array")
    (h : primCheck name p v = []) : IsPrim name v := by
  unfold IsPrim
  split
  all_goals try contradiction
  all_goals try (cases v <;> simp [primCheck, accepting, pred, mismatch] at h ⊢)

theorem indexed_nil {f : Nat → Val → List Viol} {i : Nat} {l : List Val} :
    indexed f i l = [] ↔ ∀ j (h : j < l.length), f (i + j) l[j] = [] := by
  induction l generalizing i with
  | nil => simp [indexed]
  | cons v vs ih =>
    simp only [indexed, List.append_eq_nil_iff, ih]
    constructor
    · rintro ⟨a, b⟩ j hj
      cases j with
      | zero => simpa using a
      | succ j =>
        have := b j (by simpa using hj)
        rw [Nat.add_assoc, Nat.add_comm 1 j] at this
        simpa using this
    · intro h
      refine ⟨h 0 (by simp), fun j hj => ?_⟩
      have := h (j + 1) (by simpa using hj)
      rw [Nat.add_assoc, Nat.add_comm 1 j]
      simpa using this

theorem extras_nil {ks : List String} {isOpen : Bool} {p : Path} {es : List (String × Val)} :
    extras ks isOpen p es = [] ↔ isOpen = true ∨ ∀ e ∈ es, e.1 ∈ ks := by
  unfold extras
  cases isOpen with
  | true => simp
  | false =>
    simp only [Bool.false_or, Bool.false_eq_true, false_or]
    split
    · rename_i h
      simp only [List.isEmpty_iff, List.filter_eq_nil_iff, List.mem_map, decide_eq_true_eq, not_not] at h
      simp only [true_iff]
      exact fun e he => h e.1 ⟨e, he, rfl⟩
    · rename_i h
      simp only [reduceCtorEq, false_iff]
      intro h'
      apply h
      simp only [List.isEmpty_iff, List.filter_eq_nil_iff, List.mem_map, decide_eq_true_eq, not_not]
      rintro _ ⟨e, he, rfl⟩
      exact h' e he

/-! ## No false alarms -/

mutual
/-- Data of the type have no violations. -/
theorem sound : ∀ (t : Ty) (p : Path) (v : Val), Conforms t v → walk t p v = []
  | .prim _, _, _, h => prim_sound h
  | .list t, p, v, h => by
    obtain ⟨l, rfl, hl⟩ := h
    exact indexed_nil.mpr fun j hj => sound t _ _ (hl _ (List.getElem_mem hj))
  | .tuple ts, p, v, h => by
    obtain ⟨l, rfl, hl⟩ := h
    have := soundEach ts p 0 l hl
    simp [walk, this]
  | .prefixList ts tail, p, v, h => by
    obtain ⟨a, b, rfl, ha, hb⟩ := h
    have := soundEach ts p 0 a ha
    have e : walk (.prefixList ts tail) p (.list (a ++ b)) =
        if (a ++ b).length < ts.count then [⟨p, .length ts.count (a ++ b).length⟩]
        else walkEach ts p 0 ((a ++ b).take ts.count) ++
          indexed (fun i x => walk tail (p ++ [.idx i]) x) ts.count ((a ++ b).drop ts.count) := rfl
    rw [e, this.2, if_neg (by simp), List.take_left, List.drop_left, this.1, List.nil_append]
    exact indexed_nil.mpr fun j hj => sound tail _ _ (hb _ (List.getElem_mem hj))
  | .record fs isOpen, p, v, h => by
    obtain ⟨es, rfl, hf, he⟩ := h
    have e : walk (.record fs isOpen) p (.block es) = walkFields fs p es ++ extras fs.keys isOpen p es := rfl
    rw [e, soundFields fs p es hf, extras_nil.mpr he]; rfl
  | .union ts, p, v, h => by simp [walk, soundAny ts p v h]
  | .part t, p, v, h => by
    rcases h with rfl | h
    · rfl
    · have := sound t p v h
      cases v <;> first | rfl | exact this
  | .fn, _, _, h => by cases h; rfl
  | .litStr _, _, _, h => by cases h; simp [walk]
  | .litSym _, _, _, h => by cases h; simp [walk]
  | .all t, p, v, h => sound t p v h
  | .app _ _, _, _, _ => rfl
  | .other, _, _, _ => rfl

theorem soundEach : ∀ (ts : Tys) (p : Path) (i : Nat) (l : List Val), Each ts l →
    walkEach ts p i l = [] ∧ ts.count = l.length
  | .nil, _, _, _, h => by cases h; exact ⟨rfl, rfl⟩
  | .cons t ts, p, i, _, h => by
    obtain ⟨x, xs, rfl, hx, hs⟩ := h
    have := soundEach ts p (i + 1) xs hs
    refine ⟨?_, by simp [Tys.count, this.2]⟩
    show walk t _ x ++ walkEach ts p (i + 1) xs = []
    rw [sound t _ x hx, this.1]; rfl

theorem soundFields : ∀ (fs : Fields) (p : Path) (es : List (String × Val)), Has fs es → walkFields fs p es = []
  | .nil, _, _, _ => rfl
  | .cons k o t fs, p, es, h => by
    obtain ⟨h1, h2⟩ := h
    rw [walkFields, soundFields fs p es h2]
    rcases h1 with ⟨x, hx, hc⟩ | ⟨hx, ho⟩
    · simp [hx, sound t _ x hc]
    · simp [hx, ho]

theorem soundAny : ∀ (ts : Tys) (p : Path) (v : Val), Some ts v → anyOk ts p v = true
  | .nil, _, _, h => h.elim
  | .cons t ts, p, v, h => by
    rcases h with h | h
    · simp [anyOk, sound t p v h]
    · simp [anyOk, soundAny ts p v h]
end

/-! ## Nothing is missed -/

mutual
/-- Data without violations are of the type, if every part of the type is looked at. Missing for the full statement
(`complete_false`): `Dict`, `NonEmpty`, sets, vectors and arrays. -/
theorem complete_partial : ∀ (t : Ty) (p : Path) (v : Val), Checked t → walk t p v = [] → Conforms t v
  | .prim _, _, _, c, h => prim_complete c.1 c.2.1 c.2.2 h
  | .list t, p, v, c, h => by
    cases v with
    | list l =>
      refine ⟨l, rfl, fun x hx => ?_⟩
      obtain ⟨j, hj, rfl⟩ := List.getElem_of_mem hx
      exact complete_partial t _ _ c (indexed_nil.mp h j hj)
    | _ => simp [walk, mismatch] at h
  | .tuple ts, p, v, c, h => by
    cases v with
    | list l =>
      replace h : (if ts.count = l.length then walkEach ts p 0 l else [⟨p, .length ts.count l.length⟩]) = [] := h
      split at h
      · rename_i e; exact ⟨l, rfl, completeEach ts p 0 l c e h⟩
      · simp at h
    | _ => simp [walk, mismatch] at h
  | .prefixList ts tail, p, v, c, h => by
    cases v with
    | list l =>
      replace h : (if l.length < ts.count then [⟨p, .length ts.count l.length⟩]
        else walkEach ts p 0 (l.take ts.count) ++
          indexed (fun i x => walk tail (p ++ [.idx i]) x) ts.count (l.drop ts.count)) = [] := h
      split at h
      · simp at h
      · rename_i e
        rw [List.append_eq_nil_iff] at h
        refine ⟨l.take ts.count, l.drop ts.count, by simp, ?_, fun x hx => ?_⟩
        · exact completeEach ts p 0 _ c.1 (by rw [List.length_take]; omega) h.1
        · obtain ⟨j, hj, rfl⟩ := List.getElem_of_mem hx
          exact complete_partial tail _ _ c.2 (indexed_nil.mp h.2 j hj)
    | _ => simp [walk, mismatch] at h
  | .record fs isOpen, p, v, c, h => by
    cases v with
    | block es =>
      replace h : walkFields fs p es ++ extras fs.keys isOpen p es = [] := h
      rw [List.append_eq_nil_iff] at h
      exact ⟨es, rfl, completeFields fs p es c h.1, extras_nil.mp h.2⟩
    | _ => simp [walk, mismatch] at h
  | .union ts, p, v, c, h => by
    replace h : (if anyOk ts p v then [] else mismatch p v) = [] := h
    split at h
    · rename_i e; exact completeAny ts p v c e
    · simp [mismatch] at h
  | .part t, p, v, c, h => by
    cases v with
    | null => exact .inl rfl
    | _ => exact .inr (complete_partial t p _ c h)
  | .fn, p, v, _, h => by
    cases v with
    | fn => exact rfl
    | _ => simp [walk, mismatch] at h
  | .litStr s, p, v, _, h => by
    cases v with
    | str s' => simp only [walk, mismatch, ite_eq_left_iff] at h; simp at h; subst h; exact rfl
    | _ => simp [walk, mismatch] at h
  | .litSym s, p, v, _, h => by
    cases v with
    | sym s' => simp only [walk, mismatch, ite_eq_left_iff] at h; simp at h; subst h; exact rfl
    | _ => simp [walk, mismatch] at h
  | .all t, p, v, c, h => complete_partial t p v c h
  | .app _ _, _, _, c, _ => c.elim
  | .other, _, _, _, _ => trivial

theorem completeEach : ∀ (ts : Tys) (p : Path) (i : Nat) (l : List Val), CheckedEach ts → ts.count = l.length →
    walkEach ts p i l = [] → Each ts l
  | .nil, _, _, l, _, e, _ => List.length_eq_zero_iff.mp e.symm
  | .cons t ts, p, i, l, c, e, h => by
    cases l with
    | nil => simp [Tys.count] at e
    | cons x xs =>
      replace h : walk t (p ++ [.idx i]) x ++ walkEach ts p (i + 1) xs = [] := h
      rw [List.append_eq_nil_iff] at h
      exact ⟨x, xs, rfl, complete_partial t _ x c.1 h.1,
        completeEach ts p _ xs c.2 (by simpa [Tys.count] using e) h.2⟩

theorem completeFields : ∀ (fs : Fields) (p : Path) (es : List (String × Val)), CheckedFields fs →
    walkFields fs p es = [] → Has fs es
  | .nil, _, _, _, _ => trivial
  | .cons k o t fs, p, es, c, h => by
    rw [walkFields, List.append_eq_nil_iff] at h
    refine ⟨?_, completeFields fs p es c.2 h.2⟩
    cases hx : find k es with
    | some x =>
      rw [hx] at h
      exact .inl ⟨x, rfl, complete_partial t _ x c.1 h.1⟩
    | none =>
      rw [hx] at h
      cases o with
      | true => exact .inr ⟨rfl, rfl⟩
      | false => simp at h

theorem completeAny : ∀ (ts : Tys) (p : Path) (v : Val), CheckedEach ts → anyOk ts p v = true → Some ts v
  | .nil, _, _, _, h => by simp [anyOk] at h
  | .cons t ts, p, v, c, h => by
    rw [anyOk, Bool.or_eq_true, List.isEmpty_iff] at h
    rcases h with h | h
    · exact .inl (complete_partial t p v c.1 h)
    · exact .inr (completeAny ts p v c.2 h)
end

/-- `Dict(number)` lets a string through, and `NonEmpty([number])` an empty list. -/
theorem complete_false : ¬ (∀ (t : Ty) (v : Val), validate t v = [] → Conforms t v) ∧
    ¬ (∀ v, validate (.app "NonEmpty" (.prim "number")) v = [] → Conforms (.app "NonEmpty" (.prim "number")) v) := by
  constructor
  · intro h
    obtain ⟨es, he, -⟩ := h (.app "Dict" (.prim "number")) (.str "x") rfl
    cases he
  · intro h
    obtain ⟨l, he, hl, -⟩ := h (.list []) rfl
    cases he
    exact hl rfl

/-- `ensure` gives back the data or raises every violation there is. -/
theorem ensure_is (t : Ty) (v : Val) :
    (validate t v = [] → ensure t v = .ok v) ∧ (validate t v ≠ [] → ensure t v = .error (validate t v)) := by
  constructor
  · intro h; simp [ensure, h]
  · intro h; simp [ensure, h]

/-- So, where every part of the type is looked at, `ensure` lets through what is of the type and nothing else. -/
theorem ensure_partial {t : Ty} (c : Checked t) (v : Val) :
    (Conforms t v → ensure t v = .ok v) ∧ (∀ w, ensure t v = .ok w → w = v ∧ Conforms t v) := by
  refine ⟨fun h => (ensure_is t v).1 (sound t [] v h), fun w h => ?_⟩
  by_cases e : validate t v = []
  · rw [(ensure_is t v).1 e] at h
    injection h with h
    exact ⟨h.symm, complete_partial t [] v c e⟩
  · rw [(ensure_is t v).2 e] at h
    cases h

/-! ## Where violations are -/

/-- A violation found in a value below a path: its own path leads on to a value of which it is true. -/
def Within (p : Path) (v : Val) (x : Viol) : Prop :=
  ∃ q y, x.path = p ++ q ∧ reach q v = .some y ∧ Tells x.kind y

theorem within_here {p : Path} {v : Val} {k : Kind} (h : Tells k v) : Within p v ⟨p, k⟩ :=
  ⟨[], v, by simp, rfl, h⟩

theorem within_mismatch {p : Path} {v : Val} {x : Viol} (h : x ∈ mismatch p v) : Within p v x := by
  rw [mismatch, List.mem_singleton] at h
  subst h
  exact within_here rfl

theorem within_idx {p : Path} {l : List Val} {i : Nat} {v : Val} {x : Viol} (hv : l[i]? = .some v)
    (h : Within (p ++ [.idx i]) v x) : Within p (.list l) x := by
  obtain ⟨q, y, e, hr, ht⟩ := h
  exact ⟨.idx i :: q, y, by simp [e], by simp [reach, hv, hr], ht⟩

theorem within_key {p : Path} {es : List (String × Val)} {k : String} {v : Val} {x : Viol} (hv : find k es = .some v)
    (h : Within (p ++ [.key k]) v x) : Within p (.block es) x := by
  obtain ⟨q, y, e, hr, ht⟩ := h
  exact ⟨.key k :: q, y, by simp [e], by simp [reach, hv, hr], ht⟩

theorem mem_indexed {f : Nat → Val → List Viol} {i : Nat} {l : List Val} {x : Viol} (h : x ∈ indexed f i l) :
    ∃ j v, l[j]? = .some v ∧ x ∈ f (i + j) v := by
  induction l generalizing i with
  | nil => simp [indexed] at h
  | cons v vs ih =>
    rw [indexed, List.mem_append] at h
    rcases h with h | h
    · exact ⟨0, v, rfl, h⟩
    · obtain ⟨j, w, hj, hw⟩ := ih h
      exact ⟨j + 1, w, by simpa using hj, by rwa [Nat.add_assoc, Nat.add_comm 1 j] at hw⟩

mutual
/-- Each violation names a place in the data, and what it says is true there. -/
theorem places : ∀ (t : Ty) (p : Path) (v : Val) (x : Viol), x ∈ walk t p v → Within p v x
  | .prim name, p, v, x, h => by
    replace h : x ∈ primCheck name p v := h
    unfold primCheck at h
    split at h
    · simp at h
    · split at h
      · exact within_mismatch h
      · split at h
        · simp at h
        · exact within_mismatch h
  | .list t, p, v, x, h => by
    cases v with
    | list l =>
      obtain ⟨j, w, hj, hw⟩ := mem_indexed h
      rw [Nat.zero_add] at hw
      exact within_idx hj (places t _ w x hw)
    | _ => exact within_mismatch h
  | .tuple ts, p, v, x, h => by
    cases v with
    | list l =>
      replace h : x ∈ (if ts.count = l.length then walkEach ts p 0 l else [⟨p, .length ts.count l.length⟩]) := h
      split at h
      · exact placesEach ts p 0 l x (fun j w hj hw => within_idx (by simpa using hj) hw) h
      · rename_i e
        rw [List.mem_singleton] at h
        subst h
        exact within_here ⟨l, rfl, rfl, e⟩
    | _ => exact within_mismatch h
  | .prefixList ts tail, p, v, x, h => by
    cases v with
    | list l =>
      replace h : x ∈ (if l.length < ts.count then [⟨p, .length ts.count l.length⟩]
        else walkEach ts p 0 (l.take ts.count) ++
          indexed (fun i x => walk tail (p ++ [.idx i]) x) ts.count (l.drop ts.count)) := h
      split at h
      · rename_i e
        rw [List.mem_singleton] at h
        subst h
        exact within_here ⟨l, rfl, rfl, by omega⟩
      · rw [List.mem_append] at h
        rcases h with h | h
        · refine placesEach ts p 0 _ x (fun j w hj hw => within_idx ?_ hw) h
          rw [Nat.zero_add]
          rw [List.getElem?_take] at hj
          split at hj
          · exact hj
          · simp at hj
        · obtain ⟨j, w, hj, hw⟩ := mem_indexed h
          rw [List.getElem?_drop] at hj
          exact within_idx hj (places tail _ w x hw)
    | _ => exact within_mismatch h
  | .record fs isOpen, p, v, x, h => by
    cases v with
    | block es =>
      replace h : x ∈ walkFields fs p es ++ extras fs.keys isOpen p es := h
      rw [List.mem_append] at h
      rcases h with h | h
      · exact placesFields fs p es x h
      · unfold extras at h
        simp only at h
        split at h
        · simp at h
        · rename_i e
          rw [List.mem_singleton] at h
          subst h
          refine within_here ⟨es, rfl, ?_, fun k hk => (List.mem_filter.mp hk).1⟩
          intro e'
          apply e
          rw [e']; simp
    | _ => exact within_mismatch h
  | .union ts, p, v, x, h => by
    replace h : x ∈ (if anyOk ts p v then [] else mismatch p v) := h
    split at h
    · simp at h
    · exact within_mismatch h
  | .part t, p, v, x, h => by
    cases v with
    | null => simp [walk] at h
    | _ => exact places t p _ x h
  | .fn, p, v, x, h => by
    cases v with
    | fn => simp [walk] at h
    | _ => exact within_mismatch h
  | .litStr s, p, v, x, h => by
    cases v with
    | str s' =>
      replace h : x ∈ (if s' = s then [] else mismatch p (.str s')) := h
      split at h
      · simp at h
      · exact within_mismatch h
    | _ => exact within_mismatch h
  | .litSym s, p, v, x, h => by
    cases v with
    | sym s' =>
      replace h : x ∈ (if s' = s then [] else mismatch p (.sym s')) := h
      split at h
      · simp at h
      · exact within_mismatch h
    | _ => exact within_mismatch h
  | .all t, p, v, x, h => places t p v x h
  | .app _ _, _, _, _, h => by simp [walk] at h
  | .other, _, _, _, h => by simp [walk] at h

theorem placesEach : ∀ (ts : Tys) (p : Path) (i : Nat) (l : List Val) (x : Viol) {P : Prop},
    (∀ j w, l[j]? = .some w → Within (p ++ [.idx (i + j)]) w x → P) → x ∈ walkEach ts p i l → P
  | .nil, _, _, _, _, _, _, h => by simp [walkEach] at h
  | .cons t ts, p, i, l, x, _, k, h => by
    cases l with
    | nil => simp [walkEach] at h
    | cons v vs =>
      replace h : x ∈ walk t (p ++ [.idx i]) v ++ walkEach ts p (i + 1) vs := h
      rw [List.mem_append] at h
      rcases h with h | h
      · exact k 0 v rfl (places t _ v x h)
      · refine placesEach ts p (i + 1) vs x (fun j w hj hw => k (j + 1) w (by simpa using hj) ?_) h
        rwa [Nat.add_assoc, Nat.add_comm 1 j] at hw

theorem placesFields : ∀ (fs : Fields) (p : Path) (es : List (String × Val)) (x : Viol),
    x ∈ walkFields fs p es → Within p (.block es) x
  | .nil, _, _, _, h => by simp [walkFields] at h
  | .cons k o t fs, p, es, x, h => by
    rw [walkFields, List.mem_append] at h
    rcases h with h | h
    · cases hx : find k es with
      | some y =>
        rw [hx] at h
        exact within_key hx (places t _ y x h)
      | none =>
        rw [hx] at h
        cases o with
        | true => simp at h
        | false =>
          simp only [Bool.false_eq_true, if_false, List.mem_singleton] at h
          subst h
          exact within_here ⟨es, rfl, hx⟩
    · exact placesFields fs p es x h
end

/-- Each violation of `validate` stands at a place in the data, and says what is so there. -/
theorem violations_true (t : Ty) (v : Val) (x : Viol) (h : x ∈ validate t v) :
    ∃ y, reach x.path v = .some y ∧ Tells x.kind y := by
  obtain ⟨q, y, e, hr, ht⟩ := places t [] v x h
  rw [List.nil_append] at e
  exact ⟨y, e ▸ hr, ht⟩

/-! ## What is not looked at -/

theorem fields_same {es es' : List (String × Val)} : ∀ (fs : Fields) (p : Path),
    (∀ k ∈ fs.keys, find k es = find k es') → walkFields fs p es = walkFields fs p es'
  | .nil, _, _ => rfl
  | .cons k o t fs, p, h => by
    rw [walkFields, walkFields, h k (by simp [Fields.keys]),
      fields_same fs p fun k' hk' => h k' (by simp [Fields.keys, hk'])]

/-- Of a block only the values under the fields of the type count, and its keys. -/
theorem others_free (fs : Fields) (isOpen : Bool) {es es' : List (String × Val)} (hk : es.map Prod.fst = es'.map Prod.fst)
    (h : ∀ k ∈ fs.keys, find k es = find k es') :
    validate (.record fs isOpen) (.block es) = validate (.record fs isOpen) (.block es') := by
  show walkFields fs [] es ++ extras fs.keys isOpen [] es = walkFields fs [] es' ++ extras fs.keys isOpen [] es'
  rw [fields_same fs [] h, extras, extras, hk]

/-- A closed record reports all keys it does not know, in one violation; an open one none. -/
theorem surplus (es : List (String × Val)) (fs : Fields) :
    validate (.record fs true) (.block es) = walkFields fs [] es ∧
      ((es.map Prod.fst).filter (· ∉ fs.keys) ≠ [] → validate (.record fs false) (.block es) =
        walkFields fs [] es ++ [⟨[], .unexpected ((es.map Prod.fst).filter (· ∉ fs.keys))⟩]) := by
  constructor
  · show walkFields fs [] es ++ extras fs.keys true [] es = _
    simp [extras]
  · intro h
    show walkFields fs [] es ++ extras fs.keys false [] es = _
    rw [extras]
    simp only [Bool.false_or, List.isEmpty_iff, h, if_false]

/-! ## Cases that meet the hypotheses -/

/-- `{name: string, tags: [symbol], age?: number}`. -/
def person : Ty := .record (.cons "name" false (.prim "string") (.cons "tags" false (.list (.prim "symbol"))
  (.cons "age" true (.prim "number") .nil))) false

example : Checked person := by simp [person, Checked, CheckedFields]

example : Conforms person (.block [("tags", .list [.sym "a"]), ("name", .str "x")]) := by
  refine ⟨_, rfl, ⟨.inl ⟨_, rfl, _, rfl⟩, .inl ⟨_, rfl, _, rfl, ?_⟩, .inr ⟨rfl, rfl⟩, trivial⟩, .inr ?_⟩
  · intro x hx; simp at hx; subst hx; exact ⟨_, rfl⟩
  · intro e he; simp at he; rcases he with rfl | rfl <;> decide

example : validate person (.block [("tags", .list [.sym "a", .num 3]), ("size", .null)]) =
    [⟨[], .missing "name"⟩, ⟨[.key "tags", .idx 1], .mismatch "number"⟩, ⟨[], .unexpected ["size"]⟩] := by
  decide +kernel

end Verif.Contract
