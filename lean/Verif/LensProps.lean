import Verif.LensParts

/-!
# What holds of lenses and traversals
-/

namespace Verif.Lens

/-! ## Lenses (C128) -/

theorem path_cons (s : Seg) (xs : List Seg) : path (s :: xs) = .comp s.toLens (path xs) := rfl

/-- Paths of keys and indices are lenses. -/
theorem path_lens (p : List (String ⊕ Nat)) : IsLens (path (segs p)) := by
  induction p with
  | nil => exact .identity
  | cons s p ih =>
    cases s with
    | inl k => exact .comp _ _ (.at k) ih
    | inr n => exact .comp _ _ (.ix n) ih

/-- `view` of a path finds what stands there. -/
theorem view_finds {d x : Val} {p : List (String ⊕ Nat)} (h : Found d p x) :
    view (path (segs p)) (some d) = some x := by
  induction h with
  | here v => rfl
  | key es k v w p hn hm _ ih =>
    show view (.comp (.at k) (path (segs p))) _ = _
    rw [view_comp (.at k), view_at]
    show view _ (Nest.find k es) = _
    rw [find_of_mem hn hm, ih]
  | index l n v w p hv _ ih =>
    show view (.comp (.ix n) (path (segs p))) _ = _
    rw [view_comp (.ix n), view_ix]
    show view _ (Lib.nth n l) = _
    rw [Lib.nth_eq, hv, ih]

/-- What `view` finds stands there. -/
theorem view_found {d x : Val} (w : Wf d) {p : List (String ⊕ Nat)}
    (h : view (path (segs p)) (some d) = some x) : Found d p x := by
  induction p generalizing d with
  | nil => cases h; exact .here _
  | cons s p ih =>
    cases s with
    | inl k =>
      replace h : view (.comp (.at k) (path (segs p))) (some d) = some x := h
      rw [view_comp (.at k), view_at] at h
      cases q : lookup k d with
      | none => rw [q, view_none (path_lens p)] at h; cases h
      | some y =>
        rw [q] at h
        obtain ⟨es, rfl, h1, _⟩ := lookup_some q
        cases w with
        | block _ hn hw => exact .key es k y x p hn (find_mem h1) (ih (hw _ (find_mem h1)) h)
    | inr n =>
      replace h : view (.comp (.ix n) (path (segs p))) (some d) = some x := h
      rw [view_comp (.ix n), view_ix] at h
      cases q : nth n d with
      | none => rw [q, view_none (path_lens p)] at h; cases h
      | some y =>
        rw [q] at h
        obtain ⟨l, m, rfl, hm, h1, _⟩ := nth_some q
        have : n = m := by omega
        subst this
        cases w with
        | list _ hw => exact .index l n y x p h1 (ih (hw _ (List.mem_of_getElem? h1)) h)

/-- After a change at a focus, the focus has the changed value. -/
theorem view_over {o : Optic} (h : IsLens o) {d x y : Val} {f : D → D} (hv : view o (some d) = some x)
    (hf : f (some x) = some y) : ∃ d', over o f (some d) = some d' ∧ view o (some d') = some y :=
  (lawful h).put d x hv f y hf

/-- Putting in what is there changes nothing. -/
theorem over_view {o : Optic} (h : IsLens o) {d x : Val} (w : Wf d) (hv : view o (some d) = some x) :
    over o (fun _ => view o (some d)) (some d) = some d := by
  rw [(lawful h).hit d x hv (fun _ => view o (some d)) id hv]
  exact (lawful h).keep d x w hv

/-- Of two values put in, the second stays. -/
theorem over_over {o : Optic} (h : IsLens o) {d x : Val} (hv : view o (some d) = some x) (y z : Val) :
    over o (fun _ => some z) (over o (fun _ => some y) (some d)) = over o (fun _ => some z) (some d) :=
  (lawful h).again d x hv (fun _ => some z) (fun _ => some y) y rfl

/-- An error made at a focus is an error. -/
theorem over_fails {o : Optic} (h : IsLens o) {d x : Val} (hv : view o (some d) = some x) {f : D → D}
    (hf : f (some x) = none) : over o f (some d) = none := (lawful h).fails d x hv f hf

/-- Going on from one lens with another. -/
theorem view_then {a b : Optic} (ha : IsLens a) (d : D) : view (.comp a b) d = view b (view a d) :=
  view_comp ha b d

theorem alterValue_other {a b : String} (hne : b ≠ a) {m m' : Val} {nv : D}
    (e : alterValue a nv m = some m') : lookup b m' = lookup b m := by
  cases m with
  | block es =>
    cases nv with
    | none =>
      by_cases c : a ∈ es.map Prod.fst
      · simp [alterValue, alter_none c] at e
      · simp only [alterValue, alter_missing c, Option.map_some, Option.some.injEq] at e
        subst e; rfl
    | some v =>
      simp only [alterValue, alter_some, Option.map_some, Option.some.injEq] at e
      subst e
      exact find_other hne v es
  | _ => cases e

theorem updateNth_other {i j : Int} (hne : j ≠ i) {m m' : Val} {nv : D}
    (e : updateNth i nv m = some m') : nth j m' = nth j m := by
  cases m with
  | list l =>
    rw [updateNth_eq] at e
    split at e
    · next q =>
      obtain ⟨v, _, rfl⟩ := Option.map_eq_some_iff.1 e
      rw [nth_eq', nth_eq', List.length_set]
      split
      · next r =>
        rw [List.getElem?_set_ne]
        omega
      · rfl
    · cases e
  | _ => cases e

/-- A change at one place leaves what is found by a path which parts from it. -/
theorem over_frame {p : Optic} (h : IsLens p) {s t : Optic}
    (hst : (∃ a b, s = .at a ∧ t = .at b ∧ b ≠ a) ∨ (∃ i j, s = .ix i ∧ t = .ix j ∧ j ≠ i)) (q r : Optic)
    {d d' : Val} (w : Wf d) {f : D → D} (e : over (.comp p (.comp s q)) f (some d) = some d') :
    view (.comp p (.comp t r)) (some d') = view (.comp p (.comp t r)) (some d) := by
  rw [view_comp h, view_comp h]
  rw [over_comp] at e
  rcases over_cases (lawful h) w e with ⟨_, rfl⟩ | ⟨m, m', h1, h2, h3⟩
  · rfl
  · rw [h1, h3]
    rcases hst with ⟨a, b, rfl, rfl, hne⟩ | ⟨i, j, rfl, rfl, hne⟩
    · rw [view_comp (.at b), view_comp (.at b), view_at, view_at]
      rw [alterValue_other hne (show alterValue a _ m = some m' from h2)]
    · rw [view_comp (.ix j), view_comp (.ix j), view_ix, view_ix]
      rw [updateNth_other hne (show updateNth i _ m = some m' from h2)]

/-- Where `view` finds nothing, `over` changes nothing. -/
theorem over_missing {o : Optic} (h : IsLens o) {d d' : Val} (w : Wf d) (hv : view o (some d) = none)
    {f : D → D} (e : over o f (some d) = some d') : d' = d := by
  rcases over_cases (lawful h) w e with ⟨_, rfl⟩ | ⟨m, m', h1, _, _⟩
  · rfl
  · rw [h1] at hv; cases hv

/-- A key which is not there is an error of `view`, but `over` returns the block as it is, whatever it
should put there. -/
theorem missing_key (k : String) (es : List (String × Val)) (h : k ∉ es.map Prod.fst) (f : D → D) :
    view (.at k) (some (.block es)) = none ∧ over (.at k) f (some (.block es)) = some (.block es) := by
  refine ⟨find_none.2 h, ?_⟩
  simp [over_at, alterValue, alter_missing h]

/-- An index which is not there is an error of both. -/
theorem missing_index (n : Int) (l : List Val) (h : ¬ (0 ≤ n ∧ n < l.length)) (f : D → D) :
    view (.ix n) (some (.list l)) = none ∧ over (.ix n) f (some (.list l)) = none := by
  constructor
  · rw [view_ix, nth_eq', if_neg h]
  · simp only [over_ix, Option.bind_some, updateNth_eq, if_neg h]

/-- That a path which leads nowhere is an error of `over` as it is of `view` is false. -/
theorem over_reports_false : ¬ ∀ (o : Optic) (d : Val) (f : D → D), IsLens o → Wf d →
    view o (some d) = none → over o f (some d) = none := by
  intro h
  have := h (.at "colour") (.block [("color", .atom 1)]) (fun _ => some (.atom 2)) (.at _)
    (.block _ (by simp) (by simp; exact .atom 1)) rfl
  have c := (missing_key "colour" [("color", .atom 1)] (by simp) fun _ => some (.atom 2)).2
  rw [this] at c
  cases c

def isSmall : Val → Bool
  | .atom n => n < 10
  | _ => false

/-- That the focus has the value put there is false of `item`: the value may match no longer. -/
theorem item_false : ¬ ∀ (p : Val → Bool) (d x y : Val), view (.item p) (some d) = some x →
    ∃ d', over (.item p) (fun _ => some y) (some d) = some d' ∧ view (.item p) (some d') = some y := by
  intro h
  obtain ⟨d', h1, h2⟩ := h isSmall (.list [.atom 1, .atom 2]) (.atom 1) (.atom 20) rfl
  have e : over (.item isSmall) (fun _ => some (.atom 20)) (some (.list [.atom 1, .atom 2])) =
    some (.list [.atom 20, .atom 2]) := rfl
  rw [e] at h1
  cases h1
  have c : view (.item isSmall) (some (.list [.atom 20, .atom 2])) = some (.atom 2) := rfl
  rw [c] at h2
  cases h2

theorem firstOf_split {p : Val → Bool} {l : List Val} {x : Val} (h : firstOf p l = some x) :
    ∃ a b, l = a ++ x :: b ∧ (∀ y ∈ a, p y = false) ∧ p x = true := by
  unfold firstOf at h
  rw [Lib.filter_eq] at h
  induction l with
  | nil => cases h
  | cons z zs ih =>
    by_cases c : p z
    · rw [List.filter_cons_of_pos c] at h
      cases h
      exact ⟨[], zs, rfl, by simp, c⟩
    · rw [List.filter_cons_of_neg c] at h
      obtain ⟨a, b, rfl, h1, h2⟩ := ih h
      refine ⟨z :: a, b, rfl, ?_, h2⟩
      intro y hy
      rcases List.mem_cons.1 hy with rfl | hy
      · simpa using c
      · exact h1 y hy

theorem firstOf_of_split {p : Val → Bool} {a b : List Val} {x : Val} (h : ∀ y ∈ a, p y = false)
    (hx : p x = true) : firstOf p (a ++ x :: b) = some x := by
  unfold firstOf
  rw [Lib.filter_eq, List.filter_append, List.filter_cons_of_pos hx,
    List.filter_eq_nil_iff.2 (by simpa using h)]
  rfl

theorem updateFirst_split {p : Val → Bool} {a b : List Val} {x : Val} (h : ∀ y ∈ a, p y = false)
    (hx : p x = true) (v : D) : updateFirst p v (a ++ x :: b) = v.map fun y => a ++ y :: b := by
  unfold updateFirst
  simp only [Lib.splitWhen, Lib.splitAfter_eq, Lib.append_eq]
  have h1 : (a ++ x :: b).dropWhile (fun x => !p x) = x :: b := by
    induction a with
    | nil => simp [hx]
    | cons z zs ih =>
      rw [List.cons_append, List.dropWhile_cons_of_pos (by simp [h z List.mem_cons_self])]
      exact ih fun y hy => h y (List.mem_cons_of_mem _ hy)
  have h2 : (a ++ x :: b).takeWhile (fun x => !p x) = a := by
    have := List.takeWhile_append_dropWhile (p := fun x => !p x) (l := a ++ x :: b)
    rw [h1] at this
    exact List.append_cancel_right this
  rw [h1, h2]

/-- It holds of `item` for values which match, and only the first match is changed. -/
theorem item_partial {p : Val → Bool} {l : List Val} {x y : Val} {f : D → D}
    (hv : view (.item p) (some (.list l)) = some x) (hf : f (some x) = some y) :
    ∃ a b, l = a ++ x :: b ∧ (∀ z ∈ a, p z = false) ∧
      over (.item p) f (some (.list l)) = some (.list (a ++ y :: b)) ∧
      (p y = true → view (.item p) (some (.list (a ++ y :: b))) = some y) := by
  have hv' : firstOf p l = some x := hv
  obtain ⟨a, b, rfl, h1, h2⟩ := firstOf_split hv'
  refine ⟨a, b, rfl, h1, ?_, fun hy => firstOf_of_split h1 hy⟩
  show (updateFirst p (f (firstOf p (a ++ x :: b))) (a ++ x :: b)).map Val.list = _
  rw [hv', hf, updateFirst_split h1 h2]; rfl

/-- `to-list-of` a lens is the list of what it views. -/
theorem list_of_lens {o : Optic} (h : IsLens o) (d : D) :
    toListOf o d = (view o d).map fun x => .list [x] := by
  have key : ∀ (k : D → St) (d : D), coll o k d = k (view o d) := by
    induction h with
    | identity => exact fun _ _ => rfl
    | «at» => exact fun _ _ => rfl
    | ix => exact fun _ _ => rfl
    | comp a b ha hb iha ihb =>
      intro k d
      show coll a (coll b k) d = _
      rw [iha, ihb, view_comp ha]
  rw [toListOf_eq, key]
  cases view o d <;> rfl

example : Found (.list [.block [("a", .atom 1), ("b", .list [.atom 2, .atom 3])]])
    [.inr 0, .inl "b", .inr 1] (.atom 3) :=
  .index _ 0 _ _ _ rfl (.key _ "b" (.list [.atom 2, .atom 3]) _ _ (by simp) (by simp)
    (.index _ 1 _ _ _ rfl (.here _)))

example : ∃ d', over (path [.key "a", .index 1]) (fun _ => some (.atom 9))
    (some (.block [("a", .list [.atom 1, .atom 2]), ("b", .atom 3)])) = some d' ∧
    d' = .block [("a", .list [.atom 1, .atom 9]), ("b", .atom 3)] := ⟨_, rfl, rfl⟩

/-! ## Traversals (C129) -/

/-- `view` of anything with a traversal in it is an error, even if there is only one focus. -/
theorem view_many {o : Optic} (h : Many o) (d : D) : view o d = none := by
  have dead : ∀ (o : Optic) (k : D → D), (∀ x, k x = none) → ∀ d : D, (run o fetching k d : D) = none := by
    intro o
    induction o with
    | identity => exact fun k hk d => hk d
    | «at» => exact fun k hk d => hk _
    | ix => exact fun k hk d => hk _
    | item p => intro k hk d; rcases d with _ | ⟨_ | _ | _ | _⟩ <;> exact hk _
    | element p => intro k hk d; rcases d with _ | ⟨_ | _ | _ | _⟩ <;> exact hk _
    | each => intro k hk d; rcases d with _ | ⟨_ | _ | (_ | _) | _⟩ <;> rfl
    | filtered p =>
      intro k hk d
      rcases d with _ | ⟨_ | _ | (_ | ⟨x, xs⟩) | _⟩
      case some.list.cons =>
        show (if p x then (none : D) else none) = none
        split <;> rfl
      all_goals rfl
    | eachElement => intro k hk d; rcases d with _ | ⟨_ | _ | _ | (_ | _)⟩ <;> rfl
    | filteredElements p =>
      intro k hk d
      rcases d with _ | ⟨_ | _ | _ | (_ | ⟨x, xs⟩)⟩
      case some.block.cons =>
        show (if p (.list [.sym x.1, x.2]) then (none : D) else none) = none
        split <;> rfl
      all_goals rfl
    | partsOf t _ => exact fun k hk d => hk _
    | comp a b iha ihb => exact fun k hk d => iha _ (fun x => ihb k hk x) d
  have key : ∀ {o : Optic}, Many o → ∀ (k : D → D) (d : D), (run o fetching k d : D) = none := by
    intro o h
    induction h with
    | each => intro k d; rcases d with _ | ⟨_ | _ | (_ | _) | _⟩ <;> rfl
    | filtered p =>
      intro k d
      rcases d with _ | ⟨_ | _ | (_ | ⟨x, xs⟩) | _⟩
      case some.list.cons =>
        show (if p x then (none : D) else none) = none
        split <;> rfl
      all_goals rfl
    | eachElement => intro k d; rcases d with _ | ⟨_ | _ | _ | (_ | _)⟩ <;> rfl
    | filteredElements p =>
      intro k d
      rcases d with _ | ⟨_ | _ | _ | (_ | ⟨x, xs⟩)⟩
      case some.block.cons =>
        show (if p (.list [.sym x.1, x.2]) then (none : D) else none) = none
        split <;> rfl
      all_goals rfl
    | left a b _ ih => exact fun k d => ih _ d
    | right a b _ ih => exact fun k d => dead a _ (fun x => ih k x) d
  exact key h id d

/-- `each` collects all elements of a list, `filtered` those which match. -/
theorem list_of_each (p : Val → Bool) (l : List Val) :
    toListOf .each (some (.list l)) = some (.list l) ∧
    toListOf (.filtered p) (some (.list l)) = some (.list (l.filter p)) := by
  constructor
  · show asVal (cWalk single l) = _
    rw [cWalk_eq, flat_id, asVal_some]
  · show asVal (cWalkIf p single l) = _
    rw [cWalkIf_eq, flat_id, asVal_some]

/-- All foci of one optic, and from each of these all foci of another, in order. Of any optics. -/
theorem list_of_comp (a b : Optic) (d : D) (l : List Val) (g : Val → List Val)
    (ha : toListOf a d = some (.list l)) (hb : ∀ x ∈ l, toListOf b (some x) = some (.list (g x))) :
    toListOf (.comp a b) d = some (.list (l.flatMap g)) := by
  obtain ⟨l', e, h1⟩ := asVal_iff.1 ha
  cases e
  show asVal (coll a (coll b single) d) = _
  replace h1 : coll a single d = some (l.map some) := h1
  rw [coll_k, h1, Option.bind_some]
  have : flat (coll b single) (l.map some) = some ((l.flatMap g).map some) := by
    clear ha h1
    induction l with
    | nil => rfl
    | cons x xs ih =>
      obtain ⟨m, e, h2⟩ := asVal_iff.1 (hb x List.mem_cons_self)
      cases e
      have h2 : coll b single (some x) = some ((g x).map some) := h2
      simp only [List.map_cons, flat, h2, ih fun y hy => hb y (List.mem_cons_of_mem _ hy)]
      simp
  rw [this, asVal_some]

/-- `over` with `each` changes each element, with `filtered` those which match; the order stays. -/
theorem over_list (p : Val → Bool) (f : Val → Val) (l : List Val) :
    over .each (fun x => x.map f) (some (.list l)) = some (.list (l.map f)) ∧
    over (.filtered p) (fun x => x.map f) (some (.list l)) =
      some (.list (l.map fun x => if p x then f x else x)) := by
  constructor
  · rw [over_each, oWalk_eq]
    have : (l.map fun x => Option.map f (some x)) = (l.map f).map some := by simp
    rw [this, allOf_map]; rfl
  · show oWalkIf p _ l = _
    rw [oWalkIf_eq]
    have : (l.map fun x => if p x then Option.map f (some x) else some x) =
        (l.map fun x => if p x then f x else x).map some := by
      rw [List.map_map]
      apply List.map_congr_left
      intro x _
      simp only [Function.comp]
      split <;> rfl
    rw [this, allOf_map]; rfl

/-- One failure is a failure of the whole. -/
theorem over_each_fails (f : D → D) (l : List Val) (x : Val) (hx : x ∈ l) (h : f (some x) = none) :
    over .each f (some (.list l)) = none := by
  rw [over_each, oWalk_eq, allOf_none]
  · rfl
  · exact List.mem_map.2 ⟨x, hx, h⟩

/-- The values of a block, by `each-element ∘ _value`: keys and order stay. -/
theorem over_values (f : Val → Val) (es : List (String × Val)) :
    over (.comp .eachElement (.ix 1)) (fun x => x.map f) (some (.block es)) =
      some (.block (es.map fun e => (e.1, f e.2))) ∧
    toListOf (.comp .eachElement (.ix 1)) (some (.block es)) = some (.list (es.map Prod.snd)) := by
  constructor
  · show (oWalk (over (.ix 1) fun x => x.map f) (elements es)).bind toBlock = _
    rw [oWalk_eq]
    have : ((elements es).map fun x => over (.ix 1) (fun x => x.map f) (some x)) =
        (elements (es.map fun e => (e.1, f e.2))).map some := by
      unfold elements
      simp only [List.map_map]
      exact List.map_congr_left fun e _ => rfl
    rw [this, allOf_map]
    exact toBlock_elements _
  · show asVal (cWalk (fun d => single (d.bind (nth 1))) (elements es)) = _
    have : cWalk (fun d => single (d.bind (nth 1))) (elements es) = some ((es.map Prod.snd).map some) := by
      rw [cWalk_eq]
      induction es with
      | nil => rfl
      | cons e es ih =>
        have ih : flat (fun d => single (d.bind (nth 1))) ((elements es).map some) =
          some ((es.map Prod.snd).map some) := ih
        show ((single (some e.2)).bind fun a => (flat (fun d => single (d.bind (nth 1)))
          ((elements es).map some)).map fun b => a ++ b) = _
        rw [ih]; rfl
    rw [this, asVal_some]

/-- Two changes one after the other are one: of `at`, `ix` and `each`, in any composition. -/
theorem over_twice {o : Optic} (h : IsTrav o) {f g : D → D} (hf : Strict f) (hg : Strict g) (d : D) :
    over o f (over o g d) = over o (f ∘ g) d := fuse h hf hg d

/-- What is collected after a change is what was collected before, changed. -/
theorem list_of_over {o : Optic} (h : IsTrav o) {f : D → D} (hf : Strict f) {d d' : Val} {l : List Val}
    (e : over o f (some d) = some d') (hl : toListOf o (some d) = some (.list l)) :
    toListOf o (some d') = (allOf (l.map fun x => f (some x))).map .list := by
  have key := (coll_over h (F := f) (kL := single) (kL' := fun x => single (f x)) hf
    (by show single none = single (f none); rw [hf]) (fun x x' q => by rw [q])).2 d d' e
  obtain ⟨l', e1, h1⟩ := asVal_iff.1 hl
  cases e1
  replace h1 : coll o single (some d) = some (l.map some) := h1
  rw [toListOf_eq, key, coll_k, h1, Option.bind_some]
  have : flat (fun x => single (f x)) (l.map some) = some (l.map fun x => f (some x)) := by
    clear hl h1 key
    induction l with
    | nil => rfl
    | cons x xs ih => simp only [List.map_cons, flat, ih]; rfl
  rw [this]; rfl

/-- That two changes are one is false of `filtered`: what matched need not match after the first. -/
theorem filtered_false : ¬ ∀ (o : Optic) (f g : D → D), Strict f → Strict g → ∀ d,
    over o f (over o g d) = over o (f ∘ g) d := by
  intro h
  have := h (.filtered isSmall) (fun x => x.map fun _ => .atom 5) (fun x => x.map fun _ => .atom 50) rfl rfl
    (some (.list [.atom 1]))
  have a : over (.filtered isSmall) (fun x => x.map fun _ => .atom 5) (over (.filtered isSmall)
    (fun x => x.map fun _ => .atom 50) (some (.list [.atom 1]))) = some (.list [.atom 50]) := rfl
  have b : over (.filtered isSmall) ((fun x : D => x.map fun _ => Val.atom 5) ∘
    (fun x : D => x.map fun _ => Val.atom 50)) (some (.list [.atom 1])) = some (.list [.atom 5]) := rfl
  rw [a, b] at this
  cases this

/-- It holds of `filtered` if what matches still matches after the first change. -/
theorem filtered_partial (p : Val → Bool) (f g : Val → Val) (hg : ∀ x, p x = true → p (g x) = true) (l : List Val) :
    over (.filtered p) (fun x => x.map f) (over (.filtered p) (fun x => x.map g) (some (.list l))) =
      over (.filtered p) (fun x => x.map (f ∘ g)) (some (.list l)) := by
  rw [(over_list p g l).2, (over_list p f _).2, (over_list p (f ∘ g) l).2, List.map_map]
  congr 2
  apply List.map_congr_left
  intro x _
  by_cases c : p x
  · simp [c, hg x c]
  · simp [c]

/-- A change which leaves each focus as it is leaves the data as they are, unless it fails. Of any
optic, with `parts-of` and all. -/
theorem over_identity (o : Optic) (d : Val) (w : Wf d) :
    over o id (some d) = some d ∨ over o id (some d) = none :=
  (over_same (f := id) (fun _ _ => .inl rfl) rfl).1 d w

example : over (.comp .each (.at "a")) (fun x => x.map fun _ => .atom 0)
    (some (.list [.block [("a", .atom 1)], .block [("b", .atom 2)]])) =
    some (.list [.block [("a", .atom 0)], .block [("b", .atom 2)]]) := rfl

example : toListOf (.comp .each .each) (some (.list [.list [.atom 1, .atom 2], .list [.atom 3]])) =
    some (.list [.atom 1, .atom 2, .atom 3]) := rfl

example : Strict (fun x : D => x.map fun _ => Val.atom 50) := rfl

/-! ## `parts-of` (C130) -/

/-- `view` gives the list of the foci, of any optic. -/
theorem view_parts (t : Optic) (d : D) : view (.partsOf t) d = toListOf t d := rfl

/-- As many values as there are foci: each focus has its value, in order. -/
theorem parts_put {t : Optic} (h : IsTrav t) {d : Val} {l : List Val}
    (hl : view (.partsOf t) (some d) = some (.list l)) {f : D → D} {m : List Val}
    (hf : f (some (.list l)) = some (.list m)) (hm : m.length = l.length) :
    ∃ d', over (.partsOf t) f (some d) = some d' ∧ view (.partsOf t) (some d') = some (.list m) := by
  obtain ⟨l', e, h1⟩ := asVal_iff.1 hl
  cases e
  have h1 : coll t single (some d) = some (l.map some) := h1
  obtain ⟨d', h2, h3⟩ := (deals h deals_pop).full d l h1 m hm
  refine ⟨d', ?_, ?_⟩
  · rw [over_parts, h1, asVal_some.2 rfl, hf]
    have := h2 []
    rw [List.append_nil] at this
    show (deal t pop (some d) (some (m.map some))).1 = _
    rw [this]
  · show asVal (coll t single (some d')) = _
    rw [h3, asVal_some]

/-- More values than foci: those over are lost without a word. -/
theorem parts_more {t : Optic} (h : IsTrav t) {d : Val} {l : List Val}
    (hl : view (.partsOf t) (some d) = some (.list l)) {f g : D → D} {m r : List Val}
    (hf : f (some (.list l)) = some (.list (m ++ r))) (hg : g (some (.list l)) = some (.list m))
    (hm : m.length = l.length) : over (.partsOf t) f (some d) = over (.partsOf t) g (some d) := by
  obtain ⟨l', e, h1⟩ := asVal_iff.1 hl
  cases e
  have h1 : coll t single (some d) = some (l.map some) := h1
  obtain ⟨d', h2, _⟩ := (deals h deals_pop).full d l h1 m hm
  rw [over_parts, over_parts, h1, asVal_some.2 rfl, hf, hg]
  show (deal t pop (some d) (some ((m ++ r).map some))).1 = (deal t pop (some d) (some (m.map some))).1
  have := h2 []
  rw [List.append_nil] at this
  rw [List.map_append, h2, this]

/-- Fewer values than foci are an error. -/
theorem parts_fewer {t : Optic} (h : IsTrav t) {d : Val} {l : List Val}
    (hl : view (.partsOf t) (some d) = some (.list l)) {f : D → D} {m : List Val}
    (hf : f (some (.list l)) = some (.list m)) (hm : m.length < l.length) :
    over (.partsOf t) f (some d) = none := by
  obtain ⟨l', e, h1⟩ := asVal_iff.1 hl
  cases e
  have h1 : coll t single (some d) = some (l.map some) := h1
  rw [over_parts, h1, asVal_some.2 rfl, hf]
  show (deal t pop (some d) (some (m.map some))).1 = none
  rw [(deals h deals_pop).short d l h1 m hm]

/-- That the foci have the values put there is false: values may be lost. -/
theorem parts_false : ¬ ∀ (t : Optic) (d d' x y : Val), IsTrav t → view (.partsOf t) (some d) = some x →
    over (.partsOf t) (fun _ => some y) (some d) = some d' → view (.partsOf t) (some d') = some y := by
  intro h
  have := h .each (.list [.atom 1]) (.list [.atom 8]) (.list [.atom 1]) (.list [.atom 8, .atom 9]) .each rfl rfl
  have c : view (.partsOf .each) (some (.list [.atom 8])) = some (.list [.atom 8]) := rfl
  rw [c] at this
  cases this

/-- Putting back the list of the foci changes nothing, of any optic, with filters too. -/
theorem parts_same (t : Optic) (d : Val) (w : Wf d) :
    over (.partsOf t) (fun _ => view (.partsOf t) (some d)) (some d) = some d ∨
    over (.partsOf t) (fun _ => view (.partsOf t) (some d)) (some d) = none := by
  rcases puts t (some d) (wfd_some w) _ (.inr rfl) with c | c
  · exact .inr c
  · exact .inl c

example : over (.partsOf .each) (fun x => x.map fun v => match v with | .list l => .list l.reverse | v => v)
    (some (.list [.atom 1, .atom 2, .atom 3])) = some (.list [.atom 3, .atom 2, .atom 1]) := rfl

example : over (.partsOf (.filtered isSmall))
    (fun x => x.map fun v => match v with | .list l => .list l.reverse | v => v)
    (some (.list [.atom 1, .atom 20, .atom 3])) = some (.list [.atom 3, .atom 20, .atom 1]) := rfl

example : over (.partsOf .each) (fun _ => some (.list [.atom 7])) (some (.list [.atom 1, .atom 2])) = none := rfl

end Verif.Lens
