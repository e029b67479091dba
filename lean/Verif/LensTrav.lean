import Verif.LensLemmas

/-!
# Lemmas on traversals

Proofs only.
-/

namespace Verif.Lens

abbrev St := Option (List D)

def coll (o : Optic) (k : D → St) (d : D) : St := run o collecting k d

def deal (o : Optic) (k : D → St → D × St) (d : D) : St → D × St := run o dealing k d

def cWalk (k : D → St) (l : List Val) : St := walk collecting k l
def cWalkIf (p : Val → Bool) (k : D → St) (l : List Val) : St := walkIf collecting p k l
def dWalk (k : D → St → D × St) (l : List Val) : St → D × St := walk dealing k l
def dWalkIf (p : Val → Bool) (k : D → St → D × St) (l : List Val) : St → D × St := walkIf dealing p k l
def oWalk (f : D → D) (l : List Val) : D := walk changing f l
def oWalkIf (p : Val → Bool) (f : D → D) (l : List Val) : D := walkIf changing p f l

theorem toListOf_eq (o : Optic) (d : D) : toListOf o d = asVal (coll o single d) := rfl

theorem asVal_some {L : List D} {l : List Val} : asVal (some L) = some (.list l) ↔ L = l.map some := by
  simp only [asVal, Option.bind_some, Option.map_eq_some_iff, Val.list.injEq, exists_eq_right, allOf_eq]

theorem asVal_iff {r : St} {v : Val} : asVal r = some v ↔ ∃ l, v = .list l ∧ r = some (l.map some) := by
  constructor
  · intro h
    cases r with
    | none => cases h
    | some L =>
      have : ∃ l, v = .list l := by
        simp only [asVal, Option.bind_some, Option.map_eq_some_iff] at h
        obtain ⟨l, _, rfl⟩ := h
        exact ⟨l, rfl⟩
      obtain ⟨l, rfl⟩ := this
      exact ⟨l, rfl, by rw [asVal_some.1 h]⟩
  · rintro ⟨l, rfl, rfl⟩; exact asVal_some.2 rfl

/-! ## Collecting -/

theorem cWalk_cons (k : D → St) (x : Val) (xs : List Val) :
    cWalk k (x :: xs) = (k (some x)).bind fun a => (cWalk k xs).map fun b => a ++ b := by
  show ((k (some x)).bind fun a => (cWalk k xs).map fun b => Lib.append a b) = _
  simp only [Lib.append_eq]

theorem cWalkIf_cons (p : Val → Bool) (k : D → St) (x : Val) (xs : List Val) :
    cWalkIf p k (x :: xs) = if p x then (k (some x)).bind fun a => (cWalkIf p k xs).map fun b => a ++ b
      else cWalkIf p k xs := by
  have e : cWalkIf p k (x :: xs) = if p x then
      ((k (some x)).bind fun a => (cWalkIf p k xs).map fun b => Lib.append a b)
      else ((some ([] : List D)).bind fun a => (cWalkIf p k xs).map fun b => Lib.append a b) := rfl
  rw [e]
  simp only [Lib.append_eq, Option.bind_some, List.nil_append]
  congr 1
  cases cWalkIf p k xs <;> rfl

/-- The foci of an optic at each of some values, one after the other. -/
def flat (k : D → St) : List D → St
  | [] => some []
  | x :: xs => (k x).bind fun a => (flat k xs).map fun b => a ++ b

theorem flat_append (k : D → St) (l m : List D) :
    flat k (l ++ m) = (flat k l).bind fun a => (flat k m).map fun b => a ++ b := by
  induction l with
  | nil => simp only [List.nil_append, flat, Option.bind_some]; show _ = Option.map id _; simp
  | cons x xs ih =>
    simp only [List.cons_append, flat, ih]
    cases k x with
    | none => rfl
    | some a =>
      cases flat k xs with
      | none => rfl
      | some b =>
        cases flat k m with
        | none => rfl
        | some c => simp

theorem flat_single (k : D → St) (x : D) : flat k [x] = k x := by
  simp only [flat]
  cases k x <;> simp

theorem cWalk_eq (k : D → St) (l : List Val) : cWalk k l = flat k (l.map some) := by
  induction l with
  | nil => rfl
  | cons x xs ih => rw [cWalk_cons, ih]; rfl

theorem cWalkIf_eq (p : Val → Bool) (k : D → St) (l : List Val) :
    cWalkIf p k l = flat k ((l.filter p).map some) := by
  induction l with
  | nil => rfl
  | cons x xs ih =>
    rw [cWalkIf_cons, ih]
    by_cases h : p x
    · rw [if_pos h, List.filter_cons_of_pos h]; rfl
    · rw [if_neg h, List.filter_cons_of_neg h]

theorem flat_id (l : List D) : flat single l = some l := by
  induction l with
  | nil => rfl
  | cons x xs ih => simp [flat, ih, single]

theorem flat_flat (k : D → St) (j : D → St) (l : List D) :
    flat (fun x => (j x).bind (flat k)) l = (flat j l).bind (flat k) := by
  induction l with
  | nil => rfl
  | cons x xs ih =>
    simp only [flat, ih]
    cases j x with
    | none => rfl
    | some a =>
      cases flat j xs with
      | none => cases h : flat k a <;> simp [h]
      | some b => simp [flat_append]

/-- What is collected by going on at each focus. -/
theorem coll_k (o : Optic) (k : D → St) (d : D) : coll o k d = (coll o single d).bind (flat k) := by
  induction o generalizing k d with
  | identity => exact (flat_single k d).symm
  | «at» key => exact (flat_single k _).symm
  | ix n => exact (flat_single k _).symm
  | item p =>
    rcases d with _ | ⟨_ | _ | l | _⟩
    all_goals exact (flat_single k _).symm
  | element p =>
    rcases d with _ | ⟨_ | _ | _ | l⟩
    all_goals exact (flat_single k _).symm
  | each =>
    rcases d with _ | ⟨_ | _ | l | _⟩
    case some.list =>
      show cWalk k l = (cWalk single l).bind _
      rw [cWalk_eq, cWalk_eq, flat_id]; rfl
    all_goals rfl
  | filtered p =>
    rcases d with _ | ⟨_ | _ | l | _⟩
    case some.list =>
      show cWalkIf p k l = (cWalkIf p single l).bind _
      rw [cWalkIf_eq, cWalkIf_eq, flat_id]; rfl
    all_goals rfl
  | eachElement =>
    rcases d with _ | ⟨_ | _ | _ | l⟩
    case some.block =>
      show cWalk k _ = (cWalk single _).bind _
      rw [cWalk_eq, cWalk_eq, flat_id]; rfl
    all_goals rfl
  | filteredElements p =>
    rcases d with _ | ⟨_ | _ | _ | l⟩
    case some.block =>
      show cWalkIf p k _ = (cWalkIf p single _).bind _
      rw [cWalkIf_eq, cWalkIf_eq, flat_id]; rfl
    all_goals rfl
  | partsOf t _ => exact (flat_single k _).symm
  | comp a b iha ihb =>
    show coll a (coll b k) d = (coll a (coll b single) d).bind (flat k)
    rw [iha, iha (coll b single)]
    have : coll b k = fun x => (coll b single x).bind (flat k) := funext fun x => ihb k x
    rw [this]
    cases h : coll a single d with
    | none => rfl
    | some l => simp only [Option.bind_some, flat_flat]

/-! ## Changing -/

theorem oWalk_cons (f : D → D) (x : Val) (xs : List Val) :
    oWalk f (x :: xs) = cons (f (some x)) (oWalk f xs) := rfl

theorem oWalk_eq (f : D → D) (l : List Val) :
    oWalk f l = (allOf (l.map fun x => f (some x))).map .list := by
  induction l with
  | nil => rfl
  | cons x xs ih =>
    rw [oWalk_cons, ih, List.map_cons]
    cases f (some x) with
    | none => rfl
    | some y =>
      simp only [allOf]
      cases allOf (xs.map fun x => f (some x)) <;> rfl

theorem oWalkIf_cons (p : Val → Bool) (f : D → D) (x : Val) (xs : List Val) :
    oWalkIf p f (x :: xs) = cons (if p x then f (some x) else some x) (oWalkIf p f xs) := by
  have e : oWalkIf p f (x :: xs) = if p x then cons (f (some x)) (oWalkIf p f xs)
      else cons (some x) (oWalkIf p f xs) := rfl
  rw [e]
  split <;> rfl

theorem oWalkIf_eq (p : Val → Bool) (f : D → D) (l : List Val) :
    oWalkIf p f l = (allOf (l.map fun x => if p x then f (some x) else some x)).map .list := by
  induction l with
  | nil => rfl
  | cons x xs ih =>
    rw [oWalkIf_cons, ih, List.map_cons]
    cases (if p x then f (some x) else some x) with
    | none => rfl
    | some y =>
      simp only [allOf]
      cases allOf (xs.map fun x => if p x then f (some x) else some x) <;> rfl

theorem over_each (f : D → D) (l : List Val) : over .each f (some (.list l)) = oWalk f l := rfl

theorem over_none {o : Optic} (h : IsTrav o) {f : D → D} (s : Strict f) : over o f none = none := by
  induction h generalizing f with
  | identity => exact s
  | «at» => rfl
  | ix => rfl
  | each => rfl
  | comp a b ha hb iha ihb => exact iha (ihb s)

theorem map_bind_all (f g : D → D) (s : Strict f) (l : List Val) :
    ((oWalk g l).bind fun v => over .each f (some v)) = oWalk (f ∘ g) l := by
  induction l with
  | nil => rfl
  | cons x xs ih =>
    rw [oWalk_cons, oWalk_cons, ← ih]
    cases h : g (some x) with
    | none =>
      show none = cons (f (g (some x))) _
      rw [h, s]; rfl
    | some y =>
      cases q : oWalk g xs with
      | none =>
        show none = cons (f (g (some x))) none
        cases f (g (some x)) <;> rfl
      | some v =>
        rw [oWalk_eq] at q
        obtain ⟨l', h1, h2⟩ := Option.map_eq_some_iff.1 q
        subst h2
        show cons (f (some y)) (oWalk f l') = cons (f (g (some x))) (oWalk f l')
        rw [h]

theorem fuse {o : Optic} (h : IsTrav o) {f g : D → D} (s : Strict f) (t : Strict g) (d : D) :
    over o f (over o g d) = over o (f ∘ g) d := by
  induction h generalizing f g d with
  | identity => rfl
  | «at» key =>
    cases d with
    | none => rfl
    | some d =>
      cases q : view (.at key) (some d) with
      | none =>
        rcases (good_at key).miss d q g with c | c
        · rw [c]
          cases d with
          | block es =>
            have : key ∉ es.map Prod.fst := find_none.1 q
            simp [over_at, alterValue, alter_missing this]
          | _ => rfl
        · cases d with
          | block es =>
            have : key ∉ es.map Prod.fst := find_none.1 q
            simp [over_at, alterValue, alter_missing this] at c
          | _ => rfl
      | some x =>
        cases e : g (some x) with
        | none =>
          rw [(good_at key).fails d x q g e, (good_at key).fails d x q (f ∘ g) (by simp [e]; exact s)]
          rfl
        | some y => exact (good_at key).again d x q f g y e
  | ix n =>
    cases d with
    | none => rfl
    | some d =>
      cases q : view (.ix n) (some d) with
      | none =>
        have fail : ∀ f, over (.ix n) f (some d) = none := by
          intro f
          cases d with
          | list l =>
            rw [view_ix, nth_eq'] at q
            simp only [over_ix, Option.bind_some, updateNth_eq]
            split at q
            · next r => simp at q; omega
            · next r => rw [if_neg r]
          | _ => rfl
        rw [fail, fail]; rfl
      | some x =>
        cases e : g (some x) with
        | none =>
          rw [(good_ix n).fails d x q g e, (good_ix n).fails d x q (f ∘ g) (by simp [e]; exact s)]
          rfl
        | some y => exact (good_ix n).again d x q f g y e
  | each =>
    rcases d with _ | ⟨_ | _ | l | _⟩
    case some.list =>
      have := map_bind_all f g s l
      show over .each f (oWalk g l) = oWalk (f ∘ g) l
      rw [← this]
      cases oWalk g l <;> rfl
    all_goals rfl
  | comp a b ha hb iha ihb =>
    show over a (over b f) (over a (over b g) d) = over a (over b (f ∘ g)) d
    rw [iha (over_none hb s) (over_none hb t)]
    congr 1
    exact funext fun x => ihb s t x

/-- What is collected after a change is what was collected before, changed. -/
theorem coll_over {o : Optic} (h : IsTrav o) {F : D → D} {kL kL' : D → St} (hF : Strict F)
    (hn : kL none = kL' none) (hk : ∀ x x', F (some x) = some x' → kL (some x') = kL' (some x)) :
    (coll o kL none = coll o kL' none) ∧
    ∀ d d', over o F (some d) = some d' → coll o kL (some d') = coll o kL' (some d) := by
  induction h generalizing F kL kL' with
  | identity => exact ⟨hn, hk⟩
  | «at» key =>
    refine ⟨hn, fun d d' e => ?_⟩
    show kL (lookup key d') = kL' (lookup key d)
    cases q : view (.at key) (some d) with
    | none =>
      rcases (good_at key).miss d q F with c | c
      · rw [c] at e
        cases e
        have q' : lookup key d = none := q
        rw [q', hn]
      · rw [c] at e; cases e
    | some x =>
      have q' : lookup key d = some x := q
      cases c : F (some x) with
      | none => rw [(good_at key).fails d x q F c] at e; cases e
      | some y =>
        obtain ⟨d2, h1, h2⟩ := (good_at key).put d x q F y c
        rw [h1] at e; cases e
        have h2' : lookup key d' = some y := h2
        rw [q', h2', hk x y c]
  | ix n =>
    refine ⟨hn, fun d d' e => ?_⟩
    show kL (nth n d') = kL' (nth n d)
    cases q : view (.ix n) (some d) with
    | none =>
      rcases (good_ix n).miss d q F with c | c
      · rw [c] at e
        cases e
        have q' : nth n d = none := q
        rw [q', hn]
      · rw [c] at e; cases e
    | some x =>
      have q' : nth n d = some x := q
      cases c : F (some x) with
      | none => rw [(good_ix n).fails d x q F c] at e; cases e
      | some y =>
        obtain ⟨d2, h1, h2⟩ := (good_ix n).put d x q F y c
        rw [h1] at e; cases e
        have h2' : nth n d' = some y := h2
        rw [q', h2', hk x y c]
  | each =>
    refine ⟨rfl, fun d d' e => ?_⟩
    rcases d with _ | _ | l | _
    case list =>
      rw [over_each, oWalk_eq] at e
      obtain ⟨l', h1, rfl⟩ := Option.map_eq_some_iff.1 e
      show cWalk kL l' = cWalk kL' l
      clear e
      induction l generalizing l' with
      | nil => cases h1; rfl
      | cons x xs ih =>
        simp only [List.map_cons] at h1
        cases c : F (some x) with
        | none => rw [c] at h1; cases h1
        | some y =>
          rw [c] at h1
          simp only [allOf, Option.map_eq_some_iff] at h1
          obtain ⟨m, h2, rfl⟩ := h1
          rw [cWalk_cons, cWalk_cons, ih _ h2, hk x y c]
    all_goals cases e
  | comp a b ha hb iha ihb =>
    have hb' := ihb hF hn hk
    exact iha (F := over b F) (over_none hb hF) hb'.1 hb'.2

/-! ## Leaving as it is -/

def Same (f : D → D) : Prop := ∀ x, Wf x → f (some x) = some x ∨ f (some x) = none

theorem oWalkIf_same {p : Val → Bool} {f : D → D} (h : Same f) {l : List Val} (w : ∀ x ∈ l, Wf x) :
    oWalkIf p f l = some (.list l) ∨ oWalkIf p f l = none := by
  induction l with
  | nil => exact .inl rfl
  | cons x xs ih =>
    rw [oWalkIf_cons]
    have hx : (if p x then f (some x) else some x) = some x ∨ (if p x then f (some x) else some x) = none := by
      split
      · exact h x (w x List.mem_cons_self)
      · exact .inl rfl
    rcases hx with e | e <;> rw [e] <;>
      rcases ih fun y hy => w y (List.mem_cons_of_mem _ hy) with e' | e' <;> rw [e']
    · exact .inl rfl
    all_goals exact .inr rfl

theorem oWalk_same {f : D → D} (h : Same f) {l : List Val} (w : ∀ x ∈ l, Wf x) :
    oWalk f l = some (.list l) ∨ oWalk f l = none := by
  have e : oWalk f l = oWalkIf (fun _ => true) f l := by
    induction l with
    | nil => rfl
    | cons x xs ih =>
      rw [oWalk_cons, oWalkIf_cons, ih fun y hy => w y (List.mem_cons_of_mem _ hy)]; rfl
  rw [e]
  exact oWalkIf_same h w

theorem toPairs_elements (es : List (String × Val)) : toPairs (elements es) = some es := by
  induction es with
  | nil => rfl
  | cons e es ih =>
    show toPairs (.list [.sym e.1, e.2] :: elements es) = _
    simp [toPairs, ih]

theorem toBlock_elements (es : List (String × Val)) : toBlock (.list (elements es)) = some (.block es) := by
  simp [toBlock, toPairs_elements]

theorem elements_wf {es : List (String × Val)} (w : Wf (.block es)) : ∀ x ∈ elements es, Wf x := by
  cases w with
  | block _ hn hw =>
    intro x hx
    simp only [elements, List.mem_map] at hx
    obtain ⟨e, he, rfl⟩ := hx
    refine .list _ fun y hy => ?_
    simp only [List.mem_cons, List.not_mem_nil, or_false] at hy
    rcases hy with rfl | rfl
    · exact .sym _
    · exact hw e he

theorem updateFirst_same {p : Val → Bool} {l : List Val} {nv : D}
    (h : ∀ x, firstOf p l = some x → nv = some x ∨ nv = none) :
    updateFirst p nv l = some l ∨ updateFirst p nv l = none := by
  unfold updateFirst
  simp only [Lib.splitWhen, Lib.splitAfter_eq, Lib.append_eq]
  cases q : l.dropWhile (fun x => !p x) with
  | nil => exact .inl rfl
  | cons x xs =>
    have hl : l = l.takeWhile (fun x => !p x) ++ x :: xs := by
      rw [← q]; exact (List.takeWhile_append_dropWhile).symm
    have hp : p x = true := by
      have := List.head_dropWhile_not (fun x => !p x) (l := l) (by rw [q]; simp)
      simpa [q] using this
    have hf : firstOf p l = some x := by
      unfold firstOf
      rw [Lib.filter_eq, hl, List.filter_append]
      have : (l.takeWhile (fun x => !p x)).filter p = [] := by
        rw [List.filter_eq_nil_iff]
        intro a ha
        have := List.all_eq_true.1 (List.all_takeWhile (p := fun x => !p x) (l := l)) a ha
        simpa using this
      rw [this, List.filter_cons_of_pos hp]; rfl
    rcases h x hf with e | e
    · left; rw [e]; simp only [Option.map_some]; rw [← hl]
    · right; rw [e]; rfl

theorem firstOf_mem {p : Val → Bool} {l : List Val} {x : Val} (h : firstOf p l = some x) : x ∈ l := by
  unfold firstOf at h
  rw [Lib.filter_eq] at h
  cases q : l.filter p with
  | nil => rw [q] at h; cases h
  | cons y ys =>
    rw [q] at h
    cases h
    have : x ∈ l.filter p := by rw [q]; exact List.mem_cons_self
    exact (List.mem_filter.1 this).1

end Verif.Lens
