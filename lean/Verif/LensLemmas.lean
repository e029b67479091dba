import Verif.LensSpec
import Verif.LibProps

/-!
# Lemmas on lenses

Proofs only.
-/

namespace Verif.Lens

/-! ## Blocks and lists -/

theorem find_none {k : String} {es : List (String × Val)} :
    Nest.find k es = none ↔ k ∉ es.map Prod.fst := by
  induction es with
  | nil => simp [Nest.find]
  | cons e es ih =>
    by_cases h : e.1 = k
    · simp [Nest.find, h]
    · simp only [Nest.find, if_neg h, ih, List.map_cons, List.mem_cons, not_or]
      exact ⟨fun q => ⟨fun q' => h q'.symm, q⟩, fun q => q.2⟩

theorem alter_missing {k : String} {es : List (String × Val)} (h : k ∉ es.map Prod.fst) (nv : D) :
    alterElems k nv es = some es := by
  induction es with
  | nil => rfl
  | cons e es ih =>
    simp only [List.map_cons, List.mem_cons, not_or] at h
    simp only [alterElems, if_neg (fun q => h.1 (Eq.symm q)), ih h.2]

theorem alter_none {k : String} {es : List (String × Val)} (h : k ∈ es.map Prod.fst) :
    alterElems k none es = none := by
  induction es with
  | nil => cases h
  | cons e es ih =>
    by_cases q : e.1 = k
    · simp [alterElems, q]
    · have h' : k ∈ es.map Prod.fst := by
        rcases List.mem_cons.1 h with h | h
        · exact absurd h.symm q
        · exact h
      simp only [alterElems, if_neg q, ih h']

theorem alter_some (k : String) (v : Val) (es : List (String × Val)) :
    alterElems k (some v) es = some (es.map fun e => if e.1 = k then (e.1, v) else e) := by
  induction es with
  | nil => rfl
  | cons e es ih =>
    simp only [alterElems, ih, List.map_cons]
    split
    · next a b h1 h2 =>
      split at h1
      · next q => simp_all
      · next q => cases e; simp_all
    · next h =>
      exfalso
      split at h
      · exact h _ _ rfl rfl
      · exact h _ _ rfl rfl

theorem find_alter {k : String} {v : Val} {es : List (String × Val)} (h : k ∈ es.map Prod.fst) :
    Nest.find k (es.map fun e => if e.1 = k then (e.1, v) else e) = some v := by
  induction es with
  | nil => cases h
  | cons e es ih =>
    by_cases q : e.1 = k
    · simp [Nest.find, q]
    · have h' : k ∈ es.map Prod.fst := by
        rcases List.mem_cons.1 h with h | h
        · exact absurd h.symm q
        · exact h
      simp only [List.map_cons, if_neg q, Nest.find, ih h']

theorem find_other {k j : String} (hne : j ≠ k) (v : Val) (es : List (String × Val)) :
    Nest.find j (es.map fun e => if e.1 = k then (e.1, v) else e) = Nest.find j es := by
  induction es with
  | nil => rfl
  | cons e es ih =>
    by_cases q : e.1 = k
    · have : ¬ e.1 = j := fun c => hne (c.symm.trans q)
      simp only [List.map_cons, if_pos q, Nest.find, if_neg this, ih]
    · simp only [List.map_cons, if_neg q, Nest.find, ih]

theorem find_mem {k : String} {v : Val} {es : List (String × Val)} (h : Nest.find k es = some v) :
    (k, v) ∈ es := by
  induction es with
  | nil => cases h
  | cons e es ih =>
    by_cases q : e.1 = k
    · simp only [Nest.find, if_pos q, Option.some.injEq] at h
      subst q; subst h; exact List.mem_cons_self
    · simp only [Nest.find, if_neg q] at h
      exact List.mem_cons_of_mem _ (ih h)

theorem find_of_mem {k : String} {v : Val} {es : List (String × Val)} (hn : (es.map Prod.fst).Nodup)
    (h : (k, v) ∈ es) : Nest.find k es = some v := by
  induction es with
  | nil => cases h
  | cons e es ih =>
    simp only [List.map_cons, List.nodup_cons] at hn
    rcases List.mem_cons.1 h with rfl | h
    · simp [Nest.find]
    · have : ¬ e.1 = k := fun q => hn.1 (q ▸ List.mem_map_of_mem (f := Prod.fst) h)
      simp only [Nest.find, if_neg this, ih hn.2 h]

theorem alter_same {k : String} {v : Val} {es : List (String × Val)} (hn : (es.map Prod.fst).Nodup)
    (h : Nest.find k es = some v) : (es.map fun e => if e.1 = k then (e.1, v) else e) = es := by
  have hm := find_mem h
  conv => rhs; rw [← List.map_id es]
  apply List.map_congr_left
  intro e he
  by_cases q : e.1 = k
  · have : Nest.find e.1 es = some e.2 := find_of_mem hn he
    rw [q, h] at this
    rw [if_pos q]
    cases e; simp_all
  · rw [if_neg q]; rfl

theorem allOf_map {α : Type} (l : List α) : allOf (l.map some) = some l := by
  induction l with
  | nil => rfl
  | cons x xs ih => simp [allOf, ih]

theorem allOf_eq {α : Type} {l : List (Option α)} {m : List α} : allOf l = some m ↔ l = m.map some := by
  constructor
  · intro h
    induction l generalizing m with
    | nil => simp only [allOf, Option.some.injEq] at h; subst h; rfl
    | cons x xs ih =>
      cases x with
      | none => cases h
      | some x =>
        simp only [allOf, Option.map_eq_some_iff] at h
        obtain ⟨m', h1, rfl⟩ := h
        rw [ih h1]; rfl
  · rintro rfl; exact allOf_map m

theorem allOf_none {α : Type} {l : List (Option α)} (h : none ∈ l) : allOf l = none := by
  cases q : allOf l with
  | none => rfl
  | some m =>
    rw [allOf_eq] at q
    subst q
    simp at h

theorem updateNth_eq (n : Int) (nv : D) (l : List Val) : updateNth n nv (.list l) =
    if 0 ≤ n ∧ n < l.length then nv.map fun v => .list (l.set n.toNat v) else none := by
  simp only [updateNth, Lib.updateNth_is, List.length_map]
  split
  · next h =>
    have hl : n.toNat < l.length := by omega
    simp only [Option.bind_some]
    cases nv with
    | none =>
      rw [allOf_none]
      · rfl
      · rw [List.mem_iff_getElem]
        exact ⟨n.toNat, by simpa using hl, by simp⟩
    | some v =>
      have : (l.map some).modify n.toNat (fun _ => some v) = (l.set n.toNat v).map some := by
        apply List.ext_getElem
        · simp
        · intro i h1 h2
          simp only [List.getElem_modify, List.getElem_map, List.getElem_set]
          split <;> rfl
      rw [this, allOf_map]; rfl
  · rfl

theorem nth_eq' (n : Int) (l : List Val) : nth n (.list l) =
    if 0 ≤ n ∧ n < l.length then l[n.toNat]? else none := by
  simp only [nth]
  split
  · next h =>
    obtain ⟨m, rfl⟩ := Int.eq_ofNat_of_zero_le h.1
    exact Lib.nth_eq m l
  · next h =>
    by_cases q : n < 0
    · exact Lib.nth_neg q l
    · obtain ⟨m, rfl⟩ := Int.eq_ofNat_of_zero_le (by omega : 0 ≤ n)
      have : l.length ≤ m := by omega
      exact (Lib.nth_eq m l).trans (List.getElem?_eq_none this)

/-! ## `at` and `ix` -/

theorem over_at (k : String) (f : D → D) (d : D) :
    over (.at k) f d = d.bind (alterValue k (f (d.bind (lookup k)))) := rfl

theorem over_ix (n : Int) (f : D → D) (d : D) :
    over (.ix n) f d = d.bind (updateNth n (f (d.bind (nth n)))) := rfl

theorem over_comp (a b : Optic) (f : D → D) : over (.comp a b) f = over a (over b f) := rfl

theorem view_at (k : String) (d : Val) : view (.at k) (some d) = lookup k d := rfl

theorem view_ix (n : Int) (d : Val) : view (.ix n) (some d) = nth n d := rfl

/-- All that is to be known of one step: how it fails, what it leaves, what it changes. -/
structure Good (o : Optic) : Prop where
  miss : ∀ d, view o (some d) = none → ∀ f, over o f (some d) = some d ∨ over o f (some d) = none
  hit : ∀ d x, view o (some d) = some x → ∀ f g : D → D, f (some x) = g (some x) →
    over o f (some d) = over o g (some d)
  fails : ∀ d x, view o (some d) = some x → ∀ f : D → D, f (some x) = none → over o f (some d) = none
  put : ∀ d x, view o (some d) = some x → ∀ (f : D → D) y, f (some x) = some y →
    ∃ d', over o f (some d) = some d' ∧ view o (some d') = some y
  keep : ∀ d x, Wf d → view o (some d) = some x → over o id (some d) = some d
  wf : ∀ d x, Wf d → view o (some d) = some x → Wf x
  again : ∀ d x, view o (some d) = some x → ∀ (f g : D → D) y, g (some x) = some y →
    over o f (over o g (some d)) = over o (f ∘ g) (some d)

theorem lookup_some {k : String} {d x : Val} (h : lookup k d = some x) :
    ∃ es, d = .block es ∧ Nest.find k es = some x ∧ k ∈ es.map Prod.fst := by
  cases d with
  | block es =>
    refine ⟨es, rfl, h, ?_⟩
    by_contra c
    have h' : Nest.find k es = some x := h
    rw [find_none.2 c] at h'
    cases h'
  | _ => cases h

theorem good_at (k : String) : Good (.at k) where
  miss d h f := by
    cases d with
    | block es =>
      left
      have : k ∉ es.map Prod.fst := find_none.1 h
      simp [over_at, alterValue, alter_missing this]
    | _ => right; rfl
  hit d x h f g e := by
    simp only [over_at, Option.bind_some]
    rw [show lookup k d = some x from h, e]
  fails d x h f e := by
    obtain ⟨es, rfl, h1, h2⟩ := lookup_some h
    simp only [over_at, Option.bind_some]
    rw [show lookup k (.block es) = some x from h, e]
    simp [alterValue, alter_none h2]
  put d x h f y e := by
    obtain ⟨es, rfl, h1, h2⟩ := lookup_some h
    simp only [over_at, Option.bind_some]
    rw [show lookup k (.block es) = some x from h, e]
    refine ⟨.block _, ?_, find_alter (v := y) h2⟩
    simp [alterValue, alter_some]
  keep d x w h := by
    obtain ⟨es, rfl, h1, h2⟩ := lookup_some h
    simp only [over_at, Option.bind_some]
    rw [show lookup k (.block es) = some x from h]
    cases w with
    | block _ hn _ => simp [alterValue, alter_some, alter_same hn h1]
  wf d x w h := by
    obtain ⟨es, rfl, h1, h2⟩ := lookup_some h
    cases w with
    | block _ _ hw => exact hw _ (find_mem h1)
  again d x h f g y e := by
    obtain ⟨es, rfl, h1, h2⟩ := lookup_some h
    simp only [over_at, Option.bind_some, Function.comp]
    rw [show lookup k (.block es) = some x from h, e]
    simp only [alterValue, alter_some, Option.map_some, Option.bind_some, lookup, find_alter h2]
    cases q : f (some y) with
    | none =>
      rw [alter_none h2, alter_none]
      simpa [Function.comp_def, apply_ite Prod.fst] using h2
    | some z =>
      simp only [alter_some, Option.map_some, List.map_map]
      congr 2
      apply List.map_congr_left
      intro e' _
      by_cases c : e'.1 = k
      · simp [c]
      · simp [c]

theorem nth_some {n : Int} {d x : Val} (h : nth n d = some x) :
    ∃ l m, d = .list l ∧ n = (m : Nat) ∧ l[m]? = some x ∧ m < l.length := by
  cases d with
  | list l =>
    rw [nth_eq'] at h
    split at h
    · next q =>
      refine ⟨l, n.toNat, rfl, by omega, h, by omega⟩
    · cases h
  | _ => cases h

theorem good_ix (n : Int) : Good (.ix n) where
  miss d h f := by
    right
    cases d with
    | list l =>
      rw [view_ix, nth_eq'] at h
      simp only [over_ix, Option.bind_some, updateNth_eq]
      split at h
      · next q => simp [List.getElem?_eq_none_iff] at h; omega
      · next q => rw [if_neg q]
    | _ => rfl
  hit d x h f g e := by
    simp only [over_ix, Option.bind_some]
    rw [show nth n d = some x from h, e]
  fails d x h f e := by
    obtain ⟨l, m, rfl, rfl, h1, h2⟩ := nth_some h
    simp only [over_ix, Option.bind_some]
    rw [show nth m (.list l) = some x from h, e, updateNth_eq]
    split <;> rfl
  put d x h f y e := by
    obtain ⟨l, m, rfl, rfl, h1, h2⟩ := nth_some h
    simp only [over_ix, Option.bind_some]
    rw [show nth m (.list l) = some x from h, e, updateNth_eq, if_pos (by omega)]
    refine ⟨_, rfl, ?_⟩
    rw [view_ix, nth_eq', if_pos (by simp; omega)]
    simp [h2]
  keep d x w h := by
    obtain ⟨l, m, rfl, rfl, h1, h2⟩ := nth_some h
    simp only [over_ix, Option.bind_some]
    rw [show nth m (.list l) = some x from h]
    simp only [id, updateNth_eq]
    rw [if_pos (by omega)]
    simp only [Option.map_some, Int.toNat_natCast]
    have : x = l[m] := by
      rw [List.getElem?_eq_getElem h2] at h1; exact (Option.some.inj h1).symm
    rw [this, List.set_getElem_self]
  wf d x w h := by
    obtain ⟨l, m, rfl, rfl, h1, h2⟩ := nth_some h
    cases w with
    | list _ hw => exact hw _ (List.mem_of_getElem? h1)
  again d x h f g y e := by
    obtain ⟨l, m, rfl, rfl, h1, h2⟩ := nth_some h
    simp only [over_ix, Option.bind_some, Function.comp]
    rw [show nth m (.list l) = some x from h, e, updateNth_eq, if_pos (by omega)]
    simp only [Option.map_some, Option.bind_some, nth_eq', updateNth_eq, List.length_set]
    rw [if_pos (by omega), if_pos (by omega), if_pos (by omega)]
    simp [h2]

theorem good_id : Good .identity where
  miss d h := by cases h
  hit d x h f g e := by cases h; exact e
  fails d x h f e := by cases h; exact e
  put d x h f y e := by cases h; exact ⟨y, e, rfl⟩
  keep d x _ h := rfl
  wf d x w h := by cases h; exact w
  again d x h f g y e := rfl

theorem fetch_k {o : Optic} (h : IsLens o) (k : D → D) (d : D) :
    run o fetching k d = k (view o d) := by
  induction h generalizing k d with
  | identity => rfl
  | «at» => rfl
  | ix => rfl
  | comp a b ha hb iha ihb =>
    exact (iha (run b fetching k) d).trans ((ihb k _).trans (congrArg k (iha (run b fetching id) d).symm))

theorem view_comp {a : Optic} (h : IsLens a) (b : Optic) (d : D) :
    view (.comp a b) d = view b (view a d) := fetch_k h _ _

theorem view_none {o : Optic} (h : IsLens o) : view o none = none := by
  induction h with
  | identity => rfl
  | «at» => rfl
  | ix => rfl
  | comp a b ha hb iha ihb => rw [view_comp ha, iha, ihb]

/-- What a path does to data without repeated keys. -/
structure Lawful (o : Optic) : Prop where
  miss : ∀ d, Wf d → view o (some d) = none → ∀ f, over o f (some d) = some d ∨ over o f (some d) = none
  hit : ∀ d x, view o (some d) = some x → ∀ f g : D → D, f (some x) = g (some x) →
    over o f (some d) = over o g (some d)
  fails : ∀ d x, view o (some d) = some x → ∀ f : D → D, f (some x) = none → over o f (some d) = none
  put : ∀ d x, view o (some d) = some x → ∀ (f : D → D) y, f (some x) = some y →
    ∃ d', over o f (some d) = some d' ∧ view o (some d') = some y
  keep : ∀ d x, Wf d → view o (some d) = some x → over o id (some d) = some d
  wf : ∀ d x, Wf d → view o (some d) = some x → Wf x
  again : ∀ d x, view o (some d) = some x → ∀ (f g : D → D) y, g (some x) = some y →
    over o f (over o g (some d)) = over o (f ∘ g) (some d)

theorem Good.lawful {o : Optic} (g : Good o) : Lawful o where
  miss d _ := g.miss d
  hit := g.hit
  fails := g.fails
  put := g.put
  keep := g.keep
  wf := g.wf
  again := g.again

theorem lawful_comp {a b : Optic} (la : IsLens a) (lb : IsLens b) (ga : Lawful a) (gb : Lawful b) :
    Lawful (.comp a b) where
  miss d w h f := by
    rw [view_comp la] at h
    rw [over_comp]
    cases q : view a (some d) with
    | none => exact ga.miss d w q _
    | some m =>
      rw [q] at h
      rcases gb.miss m (ga.wf d m w q) h f with c | c
      · left; rw [ga.hit d m q (over b f) id c]; exact ga.keep d m w q
      · right; exact ga.fails d m q _ c
  hit d x h f g e := by
    rw [view_comp la] at h
    cases q : view a (some d) with
    | none => rw [q, view_none lb] at h; cases h
    | some m =>
      rw [q] at h
      exact ga.hit d m q (over b f) (over b g) (gb.hit m x h f g e)
  fails d x h f e := by
    rw [view_comp la] at h
    cases q : view a (some d) with
    | none => rw [q, view_none lb] at h; cases h
    | some m =>
      rw [q] at h
      exact ga.fails d m q (over b f) (gb.fails m x h f e)
  put d x h f y e := by
    rw [view_comp la] at h
    cases q : view a (some d) with
    | none => rw [q, view_none lb] at h; cases h
    | some m =>
      rw [q] at h
      obtain ⟨m', h1, h2⟩ := gb.put m x h f y e
      obtain ⟨d', h3, h4⟩ := ga.put d m q (over b f) m' h1
      exact ⟨d', h3, by rw [view_comp la, h4, h2]⟩
  keep d x w h := by
    rw [view_comp la] at h
    cases q : view a (some d) with
    | none => rw [q, view_none lb] at h; cases h
    | some m =>
      rw [q] at h
      rw [over_comp, ga.hit d m q (over b id) id (gb.keep m x (ga.wf d m w q) h)]
      exact ga.keep d m w q
  wf d x w h := by
    rw [view_comp la] at h
    cases q : view a (some d) with
    | none => rw [q, view_none lb] at h; cases h
    | some m => rw [q] at h; exact gb.wf m x (ga.wf d m w q) h
  again d x h f g y e := by
    rw [view_comp la] at h
    cases q : view a (some d) with
    | none => rw [q, view_none lb] at h; cases h
    | some m =>
      rw [q] at h
      obtain ⟨m', h1, h2⟩ := gb.put m x h g y e
      simp only [over_comp]
      rw [ga.again d m q (over b f) (over b g) m' h1]
      exact ga.hit d m q _ _ (gb.again m x h f g y e)

theorem lawful {o : Optic} (h : IsLens o) : Lawful o := by
  induction h with
  | identity => exact good_id.lawful
  | «at» k => exact (good_at k).lawful
  | ix n => exact (good_ix n).lawful
  | comp a b la lb ga gb => exact lawful_comp la lb ga gb

theorem over_cases {o : Optic} (g : Lawful o) {d d' : Val} (w : Wf d) {f : D → D} (h : over o f (some d) = some d') :
    (view o (some d) = none ∧ d' = d) ∨
      ∃ x x', view o (some d) = some x ∧ f (some x) = some x' ∧ view o (some d') = some x' := by
  cases q : view o (some d) with
  | none =>
    left
    refine ⟨rfl, ?_⟩
    rcases g.miss d w q f with c | c
    · rw [c] at h; exact (Option.some.inj h).symm
    · rw [c] at h; cases h
  | some x =>
    right
    cases e : f (some x) with
    | none => rw [g.fails d x q f e] at h; cases h
    | some y =>
      obtain ⟨d2, h1, h2⟩ := g.put d x q f y e
      rw [h1] at h; cases h
      exact ⟨x, y, rfl, e, h2⟩

end Verif.Lens
