import Verif.LensTrav

/-!
# Lemmas on `parts-of`

Proofs only.
-/

namespace Verif.Lens

abbrev Kont := D → St → D × St

theorem dWalk_cons (k : Kont) (x : Val) (xs : List Val) (st : St) :
    dWalk k (x :: xs) st = (cons (k (some x) st).1 (dWalk k xs (k (some x) st).2).1,
      (dWalk k xs (k (some x) st).2).2) := rfl

theorem dWalkIf_cons (p : Val → Bool) (k : Kont) (x : Val) (xs : List Val) (st : St) :
    dWalkIf p k (x :: xs) st = if p x then (cons (k (some x) st).1 (dWalkIf p k xs (k (some x) st).2).1,
      (dWalkIf p k xs (k (some x) st).2).2) else (cons (some x) (dWalkIf p k xs st).1, (dWalkIf p k xs st).2) := by
  have e : dWalkIf p k (x :: xs) = if p x then
      (fun st => (cons (k (some x) st).1 (dWalkIf p k xs (k (some x) st).2).1,
      (dWalkIf p k xs (k (some x) st).2).2))
      else fun st => (cons (some x) (dWalkIf p k xs st).1, (dWalkIf p k xs st).2) := rfl
  rw [e]
  split <;> rfl

theorem dWalk_if (k : Kont) (l : List Val) (st : St) : dWalk k l st = dWalkIf (fun _ => true) k l st := by
  induction l generalizing st with
  | nil => rfl
  | cons x xs ih => rw [dWalk_cons, dWalkIf_cons, if_pos rfl, ih]

theorem cWalk_if (k : D → St) (l : List Val) : cWalk k l = cWalkIf (fun _ => true) k l := by
  rw [cWalk_eq, cWalkIf_eq]; simp

/-- Well-formed, if it is no error. -/
def WfD (x : D) : Prop := ∀ v, x = some v → Wf v

def Stays (k : Kont) : Prop := ∀ x, WfD x → ∃ v, k x none = (v, none) ∧ (v = none ∨ v = x)

def Refills (kL : D → St) (kS : Kont) : Prop :=
  ∀ x, WfD x → ∀ L, kL x = some L → ∀ rest : List D,
    ∃ v, kS x (some (L ++ rest)) = (v, some rest) ∧ (v = none ∨ v = x)

theorem wfd_some {x : Val} (w : Wf x) : WfD (some x) := fun _ e => by cases e; exact w

theorem wfd_none : WfD none := fun _ e => by cases e

theorem stays_walk {p : Val → Bool} {k : Kont} (h : Stays k) {l : List Val} (w : ∀ x ∈ l, Wf x) :
    ∃ v, dWalkIf p k l none = (v, none) ∧ (v = none ∨ v = some (.list l)) := by
  induction l with
  | nil => exact ⟨_, rfl, .inr rfl⟩
  | cons x xs ih =>
    obtain ⟨v, h1, h2⟩ := ih fun y hy => w y (List.mem_cons_of_mem _ hy)
    rw [dWalkIf_cons]
    obtain ⟨u, h3, h4⟩ := h (some x) (wfd_some (w x List.mem_cons_self))
    split
    · refine ⟨_, by rw [h3]; simp only [h1]; rfl, ?_⟩
      rcases h4 with rfl | rfl <;> rcases h2 with rfl | rfl
      · exact .inl rfl
      · exact .inl rfl
      · exact .inl rfl
      · exact .inr rfl
    · refine ⟨_, by rw [h1], ?_⟩
      rcases h2 with rfl | rfl
      · exact .inl rfl
      · exact .inr rfl

theorem refill_walk {p : Val → Bool} {kL : D → St} {kS : Kont} (h : Refills kL kS) {l : List Val}
    (w : ∀ x ∈ l, Wf x) {L : List D} (e : cWalkIf p kL l = some L) (rest : List D) :
    ∃ v, dWalkIf p kS l (some (L ++ rest)) = (v, some rest) ∧ (v = none ∨ v = some (.list l)) := by
  induction l generalizing L with
  | nil => cases e; exact ⟨_, rfl, .inr rfl⟩
  | cons x xs ih =>
    have w' : ∀ y ∈ xs, Wf y := fun y hy => w y (List.mem_cons_of_mem _ hy)
    rw [cWalkIf_cons] at e
    rw [dWalkIf_cons]
    by_cases hp : p x
    · rw [if_pos hp] at e
      rw [if_pos hp]
      cases q : kL (some x) with
      | none => rw [q] at e; cases e
      | some a =>
        rw [q] at e
        cases q2 : cWalkIf p kL xs with
        | none => rw [q2] at e; cases e
        | some b =>
          rw [q2] at e
          cases e
          obtain ⟨v, h1, h2⟩ := ih w' q2
          obtain ⟨u, h3, h4⟩ := h (some x) (wfd_some (w x List.mem_cons_self)) a q (b ++ rest)
          rw [List.append_assoc, h3]
          refine ⟨_, by simp only [h1]; rfl, ?_⟩
          rcases h4 with rfl | rfl <;> rcases h2 with rfl | rfl
          · exact .inl rfl
          · exact .inl rfl
          · exact .inl rfl
          · exact .inr rfl
    · rw [if_neg hp] at e
      rw [if_neg hp]
      obtain ⟨v, h1, h2⟩ := ih w' e
      refine ⟨_, by rw [h1], ?_⟩
      rcases h2 with rfl | rfl
      · exact .inl rfl
      · exact .inr rfl

/-- Putting back what was found, or nothing at all: what a lens makes of it. -/
theorem at_same {key : String} {d : Val} (w : Wf d) {v : D} (h : v = none ∨ v = lookup key d) :
    alterValue key v d = none ∨ alterValue key v d = some d := by
  cases q : lookup key d with
  | none =>
    cases d with
    | block es =>
      right
      have : key ∉ es.map Prod.fst := find_none.1 q
      simp [alterValue, alter_missing this]
    | _ => exact .inl rfl
  | some x =>
    rcases h with rfl | rfl
    · exact .inl ((good_at key).fails d x q (fun _ => none) rfl)
    · exact .inr ((good_at key).keep d x w q)

theorem ix_same {n : Int} {d : Val} (w : Wf d) {v : D} (h : v = none ∨ v = nth n d) :
    updateNth n v d = none ∨ updateNth n v d = some d := by
  cases q : nth n d with
  | none =>
    rcases (good_ix n).miss d q (fun _ => v) with c | c
    · exact .inr c
    · exact .inl c
  | some x =>
    rcases h with rfl | rfl
    · exact .inl ((good_ix n).fails d x q (fun _ => none) rfl)
    · exact .inr ((good_ix n).keep d x w q)

theorem item_same {p : Val → Bool} {l : List Val} {v : D} (h : v = none ∨ v = firstOf p l) :
    updateFirst p v l = none ∨ updateFirst p v l = some l := by
  refine (updateFirst_same fun x hx => ?_).symm
  rcases h with rfl | rfl
  · exact .inr rfl
  · exact .inl hx

theorem lookup_wf {key : String} {d : Val} (w : Wf d) : WfD (lookup key d) :=
  fun x e => (good_at key).wf d x w e

theorem nth_wf {n : Int} {d : Val} (w : Wf d) : WfD (nth n d) :=
  fun x e => (good_ix n).wf d x w e

theorem list_wf {l : List Val} (w : Wf (.list l)) : ∀ x ∈ l, Wf x := by
  cases w with
  | list _ h => exact h

theorem coll_wf {o : Optic} {k : D → St} (hk : ∀ x, WfD x → ∀ L, k x = some L → ∀ y ∈ L, WfD y)
    (x : D) (w : WfD x) (L : List D) (h : coll o k x = some L) : ∀ y ∈ L, WfD y := by
  have hw : ∀ (p : Val → Bool) (l : List Val), (∀ x ∈ l, Wf x) → ∀ {k : D → St},
      (∀ x, WfD x → ∀ L, k x = some L → ∀ y ∈ L, WfD y) → ∀ L, cWalkIf p k l = some L → ∀ y ∈ L, WfD y := by
    intro p l wl k hk
    induction l with
    | nil => intro L e y hy; cases e; cases hy
    | cons x xs ih =>
      intro L e y hy
      have ih' := ih fun z hz => wl z (List.mem_cons_of_mem _ hz)
      rw [cWalkIf_cons] at e
      split at e
      · cases q : k (some x) with
        | none => rw [q] at e; cases e
        | some a =>
          rw [q] at e
          cases q2 : cWalkIf p k xs with
          | none => rw [q2] at e; cases e
          | some b =>
            rw [q2] at e
            cases e
            rcases List.mem_append.1 hy with hy | hy
            · exact hk _ (wfd_some (wl x List.mem_cons_self)) a q y hy
            · exact ih' b q2 y hy
      · exact ih' L e y hy
  induction o generalizing k x L with
  | identity => exact hk x w L h
  | «at» key =>
    cases x with
    | none => exact hk none wfd_none L h
    | some d => exact hk _ (lookup_wf (w d rfl)) L h
  | ix n =>
    cases x with
    | none => exact hk none wfd_none L h
    | some d => exact hk _ (nth_wf (w d rfl)) L h
  | item p =>
    rcases x with _ | ⟨_ | _ | l | _⟩
    case some.list =>
      exact hk _ (fun v e => list_wf (w _ rfl) v (firstOf_mem e)) L h
    all_goals exact hk none wfd_none L h
  | element p =>
    rcases x with _ | ⟨_ | _ | _ | es⟩
    case some.block =>
      exact hk _ (fun v e => elements_wf (w _ rfl) v (firstOf_mem e)) L h
    all_goals exact hk none wfd_none L h
  | each =>
    rcases x with _ | ⟨_ | _ | l | _⟩
    case some.list =>
      have h' : cWalk k l = some L := h
      rw [cWalk_if] at h'
      exact hw _ l (list_wf (w _ rfl)) hk L h'
    all_goals cases h
  | filtered p =>
    rcases x with _ | ⟨_ | _ | l | _⟩
    case some.list => exact hw p l (list_wf (w _ rfl)) hk L h
    all_goals cases h
  | eachElement =>
    rcases x with _ | ⟨_ | _ | _ | es⟩
    case some.block =>
      have h' : cWalk k (elements es) = some L := h
      rw [cWalk_if] at h'
      exact hw _ _ (elements_wf (w _ rfl)) hk L h'
    all_goals cases h
  | filteredElements p =>
    rcases x with _ | ⟨_ | _ | _ | es⟩
    case some.block => exact hw p _ (elements_wf (w _ rfl)) hk L h
    all_goals cases h
  | partsOf t ih =>
    refine hk (asVal (coll t single x)) (fun v e => ?_) L h
    obtain ⟨l, rfl, h2⟩ := asVal_iff.1 e
    refine .list _ fun y hy => ?_
    exact ih (k := single) (fun x w L e y hy => by cases e; simp at hy; subst hy; exact w) x w _ h2 (some y)
      (List.mem_map_of_mem hy) y rfl
  | comp a b iha ihb =>
    exact iha (k := coll b k) (fun x w L e => ihb hk x w L e) x w L h

theorem single_wf (x : D) (w : WfD x) (L : List D) (h : single x = some L) : ∀ y ∈ L, WfD y := by
  intro y hy
  cases h
  simp at hy; subst hy; exact w

def PutsBack (t : Optic) : Prop := ∀ x, WfD x → ∀ v, (v = none ∨ v = asVal (coll t single x)) →
  (deal t pop x (asState v)).1 = none ∨ (deal t pop x (asState v)).1 = x

theorem parts_wf {t : Optic} {x : D} (w : WfD x) : WfD (asVal (coll t single x)) := by
  intro v e
  obtain ⟨l, rfl, h2⟩ := asVal_iff.1 e
  exact .list _ fun y hy => coll_wf single_wf x w _ h2 (some y) (List.mem_map_of_mem hy) y rfl

theorem stays_pop : Stays pop := fun x _ => ⟨none, rfl, .inl rfl⟩

theorem refills_pop : Refills single pop := by
  intro x _ L h rest
  cases h
  exact ⟨x, rfl, .inr rfl⟩

theorem puts_back {t : Optic} (h1 : ∀ {k : Kont}, Stays k → Stays (deal t k))
    (h2 : ∀ {kL : D → St} {kS : Kont}, Refills kL kS → Refills (coll t kL) (deal t kS)) : PutsBack t := by
  intro x w v hv
  have none_case : (deal t pop x (asState none)).1 = none ∨ (deal t pop x (asState none)).1 = x := by
    obtain ⟨u, h3, h4⟩ := h1 stays_pop x w
    show (deal t pop x none).1 = none ∨ (deal t pop x none).1 = x
    rw [h3]; exact h4
  rcases hv with rfl | rfl
  · exact none_case
  · cases q : asVal (coll t single x) with
    | none => exact none_case
    | some v =>
      obtain ⟨l, rfl, h3⟩ := asVal_iff.1 q
      obtain ⟨u, h4, h5⟩ := h2 refills_pop x w _ h3 []
      rw [List.append_nil] at h4
      show (deal t pop x (some (l.map some))).1 = none ∨ (deal t pop x (some (l.map some))).1 = x
      rw [h4]; exact h5

theorem stays_step {o : Optic} (hp : ∀ t, o = .partsOf t → PutsBack t) (hc : ∀ a b, o = .comp a b →
    (∀ {k : Kont}, Stays k → Stays (deal a k)) ∧ (∀ {k : Kont}, Stays k → Stays (deal b k)))
    {k : Kont} (h : Stays k) : Stays (deal o k) := by
  cases o with
  | identity => exact h
  | «at» key =>
    intro x w
    cases x with
    | none =>
      obtain ⟨v, h1, _⟩ := h none wfd_none
      refine ⟨none, ?_, .inl rfl⟩
      show ((none : D), (k none none).2) = _
      rw [h1]
    | some d =>
      obtain ⟨v, h1, h2⟩ := h (lookup key d) (lookup_wf (w d rfl))
      refine ⟨alterValue key v d, ?_, at_same (w d rfl) h2⟩
      show (alterValue key (k (lookup key d) none).1 d, (k (lookup key d) none).2) = _
      rw [h1]
  | ix n =>
    intro x w
    cases x with
    | none =>
      obtain ⟨v, h1, _⟩ := h none wfd_none
      refine ⟨none, ?_, .inl rfl⟩
      show ((none : D), (k none none).2) = _
      rw [h1]
    | some d =>
      obtain ⟨v, h1, h2⟩ := h (nth n d) (nth_wf (w d rfl))
      refine ⟨updateNth n v d, ?_, ix_same (w d rfl) h2⟩
      show (updateNth n (k (nth n d) none).1 d, (k (nth n d) none).2) = _
      rw [h1]
  | item p =>
    intro x w
    obtain ⟨v0, h0, _⟩ := h none wfd_none
    rcases x with _ | ⟨_ | _ | l | _⟩
    case some.list =>
      obtain ⟨v, h1, h2⟩ := h (firstOf p l) (fun v e => list_wf (w _ rfl) v (firstOf_mem e))
      refine ⟨(updateFirst p v l).map .list, ?_, ?_⟩
      · show ((updateFirst p (k (firstOf p l) none).1 l).map Val.list, (k (firstOf p l) none).2) = _
        rw [h1]
      · rcases item_same h2 with c | c <;> rw [c]
        · exact .inl rfl
        · exact .inr rfl
    all_goals
      refine ⟨none, ?_, .inl rfl⟩
      show ((none : D), (k none none).2) = _
      rw [h0]
  | element p =>
    intro x w
    obtain ⟨v0, h0, _⟩ := h none wfd_none
    rcases x with _ | ⟨_ | _ | _ | es⟩
    case some.block =>
      obtain ⟨v, h1, h2⟩ := h (firstOf p (elements es)) (fun v e => elements_wf (w _ rfl) v (firstOf_mem e))
      refine ⟨((updateFirst p v (elements es)).map .list).bind toBlock, ?_, ?_⟩
      · show (((updateFirst p (k (firstOf p (elements es)) none).1 (elements es)).map Val.list).bind toBlock,
          (k (firstOf p (elements es)) none).2) = _
        rw [h1]
      · rcases item_same h2 with c | c <;> rw [c]
        · exact .inl rfl
        · exact .inr (toBlock_elements es)
    all_goals
      refine ⟨none, ?_, .inl rfl⟩
      show ((none : D), (k none none).2) = _
      rw [h0]
  | each =>
    intro x w
    rcases x with _ | ⟨_ | _ | l | _⟩
    case some.list =>
      show ∃ v, dWalk k l none = _ ∧ _
      rw [dWalk_if]
      exact stays_walk h (list_wf (w _ rfl))
    all_goals exact ⟨none, rfl, .inl rfl⟩
  | filtered p =>
    intro x w
    rcases x with _ | ⟨_ | _ | l | _⟩
    case some.list => exact stays_walk h (list_wf (w _ rfl))
    all_goals exact ⟨none, rfl, .inl rfl⟩
  | eachElement =>
    intro x w
    rcases x with _ | ⟨_ | _ | _ | es⟩
    case some.block =>
      show ∃ v, ((dWalk k (elements es) none).1.bind toBlock, (dWalk k (elements es) none).2) = _ ∧ _
      rw [dWalk_if]
      obtain ⟨v, h1, h2⟩ := stays_walk (p := fun _ => true) h (elements_wf (w _ rfl))
      refine ⟨_, by rw [h1], ?_⟩
      rcases h2 with rfl | rfl
      · exact .inl rfl
      · exact .inr (toBlock_elements es)
    all_goals exact ⟨none, rfl, .inl rfl⟩
  | filteredElements p =>
    intro x w
    rcases x with _ | ⟨_ | _ | _ | es⟩
    case some.block =>
      show ∃ v, ((dWalkIf p k (elements es) none).1.bind toBlock, (dWalkIf p k (elements es) none).2) = _ ∧ _
      obtain ⟨v, h1, h2⟩ := stays_walk (p := p) h (elements_wf (w _ rfl))
      refine ⟨_, by rw [h1], ?_⟩
      rcases h2 with rfl | rfl
      · exact .inl rfl
      · exact .inr (toBlock_elements es)
    all_goals exact ⟨none, rfl, .inl rfl⟩
  | partsOf t =>
    intro x w
    obtain ⟨v, h1, h2⟩ := h (asVal (coll t single x)) (parts_wf w)
    refine ⟨(deal t pop x (asState v)).1, ?_, hp t rfl x w v h2⟩
    show ((deal t pop x (asState (k (asVal (coll t single x)) none).1)).1, (k (asVal (coll t single x)) none).2) = _
    rw [h1]
  | comp a b => exact (hc a b rfl).1 ((hc a b rfl).2 h)

theorem refills_step {o : Optic} (hp : ∀ t, o = .partsOf t → PutsBack t) (hc : ∀ a b, o = .comp a b →
    (∀ {kL : D → St} {kS : Kont}, Refills kL kS → Refills (coll a kL) (deal a kS)) ∧
    (∀ {kL : D → St} {kS : Kont}, Refills kL kS → Refills (coll b kL) (deal b kS)))
    {kL : D → St} {k : Kont} (h : Refills kL k) : Refills (coll o kL) (deal o k) := by
  cases o with
  | identity => exact h
  | «at» key =>
    intro x w L e rest
    cases x with
    | none =>
      obtain ⟨v, h1, _⟩ := h none wfd_none L e rest
      refine ⟨none, ?_, .inl rfl⟩
      show ((none : D), (k none (some (L ++ rest))).2) = _
      rw [h1]
    | some d =>
      obtain ⟨v, h1, h2⟩ := h (lookup key d) (lookup_wf (w d rfl)) L e rest
      refine ⟨alterValue key v d, ?_, at_same (w d rfl) h2⟩
      show (alterValue key (k (lookup key d) (some (L ++ rest))).1 d, (k (lookup key d) (some (L ++ rest))).2) = _
      rw [h1]
  | ix n =>
    intro x w L e rest
    cases x with
    | none =>
      obtain ⟨v, h1, _⟩ := h none wfd_none L e rest
      refine ⟨none, ?_, .inl rfl⟩
      show ((none : D), (k none (some (L ++ rest))).2) = _
      rw [h1]
    | some d =>
      obtain ⟨v, h1, h2⟩ := h (nth n d) (nth_wf (w d rfl)) L e rest
      refine ⟨updateNth n v d, ?_, ix_same (w d rfl) h2⟩
      show (updateNth n (k (nth n d) (some (L ++ rest))).1 d, (k (nth n d) (some (L ++ rest))).2) = _
      rw [h1]
  | item p =>
    intro x w L e rest
    rcases x with _ | ⟨_ | _ | l | _⟩
    case some.list =>
      obtain ⟨v, h1, h2⟩ := h (firstOf p l) (fun v e' => list_wf (w _ rfl) v (firstOf_mem e')) L e rest
      refine ⟨(updateFirst p v l).map .list, ?_, ?_⟩
      · show ((updateFirst p (k (firstOf p l) (some (L ++ rest))).1 l).map Val.list, (k (firstOf p l) (some (L ++ rest))).2) = _
        rw [h1]
      · rcases item_same h2 with c | c <;> rw [c]
        · exact .inl rfl
        · exact .inr rfl
    all_goals
      refine ⟨none, ?_, .inl rfl⟩
      show ((none : D), (k none (some (L ++ rest))).2) = _
      obtain ⟨v0, h0, _⟩ := h none wfd_none L e rest
      rw [h0]
  | element p =>
    intro x w L e rest
    rcases x with _ | ⟨_ | _ | _ | es⟩
    case some.block =>
      obtain ⟨v, h1, h2⟩ := h (firstOf p (elements es)) (fun v e' => elements_wf (w _ rfl) v (firstOf_mem e')) L e rest
      refine ⟨((updateFirst p v (elements es)).map .list).bind toBlock, ?_, ?_⟩
      · show (((updateFirst p (k (firstOf p (elements es)) (some (L ++ rest))).1 (elements es)).map Val.list).bind toBlock,
          (k (firstOf p (elements es)) (some (L ++ rest))).2) = _
        rw [h1]
      · rcases item_same h2 with c | c <;> rw [c]
        · exact .inl rfl
        · exact .inr (toBlock_elements es)
    all_goals
      refine ⟨none, ?_, .inl rfl⟩
      show ((none : D), (k none (some (L ++ rest))).2) = _
      obtain ⟨v0, h0, _⟩ := h none wfd_none L e rest
      rw [h0]
  | each =>
    intro x w L e rest
    rcases x with _ | ⟨_ | _ | l | _⟩
    case some.list =>
      show ∃ v, dWalk k l (some (L ++ rest)) = _ ∧ _
      rw [dWalk_if]
      have e : cWalk kL _ = some L := e
      rw [cWalk_if] at e
      exact refill_walk h (list_wf (w _ rfl)) e rest
    all_goals cases e
  | filtered p =>
    intro x w L e rest
    rcases x with _ | ⟨_ | _ | l | _⟩
    case some.list => exact refill_walk h (list_wf (w _ rfl)) e rest
    all_goals cases e
  | eachElement =>
    intro x w L e rest
    rcases x with _ | ⟨_ | _ | _ | es⟩
    case some.block =>
      show ∃ v, ((dWalk k (elements es) (some (L ++ rest))).1.bind toBlock, (dWalk k (elements es) (some (L ++ rest))).2) = _ ∧ _
      rw [dWalk_if]
      have e : cWalk kL _ = some L := e
      rw [cWalk_if] at e
      obtain ⟨v, h1, h2⟩ := refill_walk (p := fun _ => true) h (elements_wf (w _ rfl)) e rest
      refine ⟨_, by rw [h1], ?_⟩
      rcases h2 with rfl | rfl
      · exact .inl rfl
      · exact .inr (toBlock_elements es)
    all_goals cases e
  | filteredElements p =>
    intro x w L e rest
    rcases x with _ | ⟨_ | _ | _ | es⟩
    case some.block =>
      show ∃ v, ((dWalkIf p k (elements es) (some (L ++ rest))).1.bind toBlock, (dWalkIf p k (elements es) (some (L ++ rest))).2) = _ ∧ _
      obtain ⟨v, h1, h2⟩ := refill_walk (p := p) h (elements_wf (w _ rfl)) e rest
      refine ⟨_, by rw [h1], ?_⟩
      rcases h2 with rfl | rfl
      · exact .inl rfl
      · exact .inr (toBlock_elements es)
    all_goals cases e
  | partsOf t =>
    intro x w L e rest
    obtain ⟨v, h1, h2⟩ := h (asVal (coll t single x)) (parts_wf w) L e rest
    refine ⟨(deal t pop x (asState v)).1, ?_, hp t rfl x w v h2⟩
    show ((deal t pop x (asState (k (asVal (coll t single x)) (some (L ++ rest))).1)).1, (k (asVal (coll t single x)) (some (L ++ rest))).2) = _
    rw [h1]
  | comp a b => exact (hc a b rfl).1 ((hc a b rfl).2 h)

theorem deal_both (o : Optic) : (∀ {k : Kont}, Stays k → Stays (deal o k)) ∧
    (∀ {kL : D → St} {kS : Kont}, Refills kL kS → Refills (coll o kL) (deal o kS)) := by
  induction o with
  | partsOf t ih =>
    have hp : ∀ t', Optic.partsOf t = .partsOf t' → PutsBack t' := fun t' e => by
      cases e; exact puts_back ih.1 ih.2
    exact ⟨stays_step hp (fun a b e => by cases e), refills_step hp (fun a b e => by cases e)⟩
  | comp a b iha ihb =>
    exact ⟨fun h => iha.1 (ihb.1 h), fun h => iha.2 (ihb.2 h)⟩
  | _ =>
    exact ⟨stays_step (fun t e => by cases e) (fun a b e => by cases e),
      refills_step (fun t e => by cases e) (fun a b e => by cases e)⟩

theorem puts (t : Optic) : PutsBack t := puts_back (deal_both t).1 (deal_both t).2

/-- Putting back what is there changes nothing. -/
theorem over_same {o : Optic} {f : D → D} (h : Same f) (s : Strict f) :
    Same (over o f) ∧ Strict (over o f) := by
  induction o generalizing f with
  | identity => exact ⟨h, s⟩
  | «at» key =>
    refine ⟨fun d w => (at_same w ?_).symm, rfl⟩
    show f (lookup key d) = none ∨ f (lookup key d) = lookup key d
    cases q : lookup key d with
    | none => exact .inl s
    | some x => exact (h x (lookup_wf w x q)).symm
  | ix n =>
    refine ⟨fun d w => (ix_same w ?_).symm, rfl⟩
    show f (nth n d) = none ∨ f (nth n d) = nth n d
    cases q : nth n d with
    | none => exact .inl s
    | some x => exact (h x (nth_wf w x q)).symm
  | item p =>
    refine ⟨fun d w => ?_, rfl⟩
    rcases d with _ | _ | l | _
    case list =>
      show (updateFirst p (f (firstOf p l)) l).map Val.list = _ ∨ (updateFirst p (f (firstOf p l)) l).map Val.list = _
      have : f (firstOf p l) = none ∨ f (firstOf p l) = firstOf p l := by
        cases q : firstOf p l with
        | none => exact .inl s
        | some x => exact (h x (list_wf w x (firstOf_mem q))).symm
      rcases item_same this with c | c <;> rw [c]
      · exact .inr rfl
      · exact .inl rfl
    all_goals exact .inr rfl
  | element p =>
    refine ⟨fun d w => ?_, rfl⟩
    rcases d with _ | _ | _ | es
    case block =>
      show ((updateFirst p (f (firstOf p (elements es))) (elements es)).map Val.list).bind toBlock = _ ∨
        ((updateFirst p (f (firstOf p (elements es))) (elements es)).map Val.list).bind toBlock = _
      have : f (firstOf p (elements es)) = none ∨ f (firstOf p (elements es)) = firstOf p (elements es) := by
        cases q : firstOf p (elements es) with
        | none => exact .inl s
        | some x => exact (h x (elements_wf w x (firstOf_mem q))).symm
      rcases item_same this with c | c <;> rw [c]
      · exact .inr rfl
      · exact .inl (toBlock_elements es)
    all_goals exact .inr rfl
  | each =>
    refine ⟨fun d w => ?_, rfl⟩
    rcases d with _ | _ | l | _
    case list => exact oWalk_same h (list_wf w)
    all_goals exact .inr rfl
  | filtered p =>
    refine ⟨fun d w => ?_, rfl⟩
    rcases d with _ | _ | l | _
    case list => exact oWalkIf_same h (list_wf w)
    all_goals exact .inr rfl
  | eachElement =>
    refine ⟨fun d w => ?_, rfl⟩
    rcases d with _ | _ | _ | es
    case block =>
      show (oWalk f (elements es)).bind toBlock = _ ∨ (oWalk f (elements es)).bind toBlock = _
      rcases oWalk_same h (elements_wf w) with c | c <;> rw [c]
      · exact .inl (toBlock_elements es)
      · exact .inr rfl
    all_goals exact .inr rfl
  | filteredElements p =>
    refine ⟨fun d w => ?_, rfl⟩
    rcases d with _ | _ | _ | es
    case block =>
      show (oWalkIf p f (elements es)).bind toBlock = _ ∨ (oWalkIf p f (elements es)).bind toBlock = _
      rcases oWalkIf_same (p := p) h (elements_wf w) with c | c <;> rw [c]
      · exact .inl (toBlock_elements es)
      · exact .inr rfl
    all_goals exact .inr rfl
  | partsOf t _ =>
    have key : ∀ x, WfD x → over (.partsOf t) f x = none ∨ over (.partsOf t) f x = x := by
      intro x w
      refine puts t x w (f (asVal (coll t single x))) ?_
      cases q : asVal (coll t single x) with
      | none => exact .inl s
      | some v => exact (h v (parts_wf w v q)).symm
    refine ⟨fun d w => (key _ (wfd_some w)).symm, ?_⟩
    rcases key none wfd_none with c | c <;> exact c
  | comp a b iha ihb =>
    have hb := ihb h s
    exact iha hb.1 hb.2

/-! ## Dealing out other values -/

structure Deals (kL : D → St) (kS : Kont) : Prop where
  none : ∀ L, kL none = some L → Option.none ∈ L
  full : ∀ x (l : List Val), kL (some x) = some (l.map some) → ∀ m : List Val, m.length = l.length →
    ∃ x', (∀ rest, kS (some x) (some (m.map some ++ rest)) = (some x', some rest)) ∧
      kL (some x') = some (m.map some)
  short : ∀ x (l : List Val), kL (some x) = some (l.map some) → ∀ m : List Val, m.length < l.length →
    kS (some x) (some (m.map some)) = (Option.none, Option.none)
  out : ∀ x (l : List Val), kL (some x) = some (l.map some) → l ≠ [] →
    kS (some x) Option.none = (Option.none, Option.none)
  idle : ∀ x, kL (some x) = some [] → ∃ v, kS (some x) Option.none = (v, Option.none)

theorem deals_pop : Deals single pop where
  none L h := by cases h; exact List.mem_cons_self
  full x l h m hm := by
    have : [some x] = l.map some := Option.some.inj h
    have hl : l.length = 1 := by simpa using (congrArg List.length this).symm
    rw [hl] at hm
    obtain ⟨y, rfl⟩ := List.length_eq_one_iff.1 hm
    exact ⟨y, fun rest => rfl, rfl⟩
  short x l h m hm := by
    have : [some x] = l.map some := Option.some.inj h
    have hl : l.length = 1 := by simpa using (congrArg List.length this).symm
    have : m = [] := List.length_eq_zero_iff.1 (by omega)
    subst this; rfl
  out x l h _ := rfl
  idle x h := by cases h

theorem not_all_some {l : List Val} (h : (none : D) ∈ l.map some) : False := by simp at h

/-- A single focus which can be put. -/
theorem deals_lens {kL : D → St} {kS : Kont} (h : Deals kL kS) (get : Val → D) (put : D → Val → D)
    (h1 : ∀ d x, get d = some x → ∀ y, ∃ d', put (some y) d = some d' ∧ get d' = some y)
    (h2 : ∀ d x, get d = some x → put none d = none) :
    Deals (fun d => kL (d.bind get))
      (fun d st => (d.bind (put (kS (d.bind get) st).1), (kS (d.bind get) st).2)) where
  none L e := h.none L e
  full d l e m hm := by
    simp only [Option.bind_some] at e ⊢
    cases q : get d with
    | none => rw [q] at e; exact (not_all_some (h.none _ e)).elim
    | some x =>
      rw [q] at e
      obtain ⟨x', h3, h4⟩ := h.full x l e m hm
      obtain ⟨d', h5, h6⟩ := h1 d x q x'
      refine ⟨d', fun rest => ?_, ?_⟩
      · rw [h3]; simp only [h5]
      · rw [h6]; exact h4
  short d l e m hm := by
    simp only [Option.bind_some] at e ⊢
    cases q : get d with
    | none => rw [q] at e; exact (not_all_some (h.none _ e)).elim
    | some x =>
      rw [q] at e
      rw [h.short x l e m hm]; simp only [h2 d x q]
  out d l e hl := by
    simp only [Option.bind_some] at e ⊢
    cases q : get d with
    | none => rw [q] at e; exact (not_all_some (h.none _ e)).elim
    | some x =>
      rw [q] at e
      rw [h.out x l e hl]; simp only [h2 d x q]
  idle d e := by
    simp only [Option.bind_some] at e ⊢
    cases q : get d with
    | none => rw [q] at e; cases h.none _ e
    | some x =>
      rw [q] at e
      obtain ⟨v, hv⟩ := h.idle x e
      exact ⟨_, by rw [hv]⟩

theorem split_some {a b : List D} {l : List Val} (h : a ++ b = l.map some) :
    ∃ l1 l2, l = l1 ++ l2 ∧ a = l1.map some ∧ b = l2.map some := by
  obtain ⟨l1, l2, h1, h2, h3⟩ := List.map_eq_append_iff.1 h.symm
  exact ⟨l1, l2, h1, h2.symm, h3.symm⟩

theorem deals_walk {kL : D → St} {kS : Kont} (h : Deals kL kS) (xs l : List Val)
    (e : cWalk kL xs = some (l.map some)) :
    (∀ m : List Val, m.length = l.length → ∃ ys, (∀ rest, dWalk kS xs (some (m.map some ++ rest)) =
      (some (.list ys), some rest)) ∧ cWalk kL ys = some (m.map some)) ∧
    (∀ m : List Val, m.length < l.length → dWalk kS xs (some (m.map some)) = (none, none)) ∧
    (l ≠ [] → dWalk kS xs none = (none, none)) ∧ (l = [] → ∃ v, dWalk kS xs none = (v, none)) := by
  induction xs generalizing l with
  | nil =>
    have : [] = l.map some := Option.some.inj e
    have : l = [] := by simpa using this.symm
    subst this
    refine ⟨fun m hm => ?_, fun m hm => by simp at hm, fun c => absurd rfl c, fun _ => ⟨_, rfl⟩⟩
    have : m = [] := List.length_eq_zero_iff.1 hm
    subst this
    exact ⟨[], fun rest => rfl, rfl⟩
  | cons x xs ih =>
    rw [cWalk_cons] at e
    cases q1 : kL (some x) with
    | none => rw [q1] at e; cases e
    | some a =>
      cases q2 : cWalk kL xs with
      | none => rw [q1, q2] at e; cases e
      | some b =>
        rw [q1, q2] at e
        obtain ⟨l1, l2, rfl, rfl, rfl⟩ := split_some (Option.some.inj e)
        obtain ⟨i1, i2, i3, i4⟩ := ih l2 q2
        have state : ∃ v, dWalk kS xs none = (v, none) := by
          by_cases c : l2 = []
          · exact i4 c
          · exact ⟨_, i3 c⟩
        obtain ⟨u, hu⟩ := state
        have c0 : ∀ d : D, cons none d = none := fun d => rfl
        have c1 : ∀ d : D, cons d none = none := fun d => by cases d <;> rfl
        refine ⟨fun m hm => ?_, fun m hm => ?_, fun hl => ?_, fun hl => ?_⟩
        · rw [List.length_append] at hm
          obtain ⟨x', j1, j2⟩ := h.full x l1 q1 (m.take l1.length) (by simp; omega)
          obtain ⟨ys, j3, j4⟩ := i1 (m.drop l1.length) (by simp; omega)
          have hm' : m.map some = (m.take l1.length).map some ++ (m.drop l1.length).map some := by
            rw [← List.map_append, List.take_append_drop]
          refine ⟨x' :: ys, fun rest => ?_, ?_⟩
          · rw [dWalk_cons, hm', List.append_assoc, j1]
            simp only [j3]; rfl
          · rw [cWalk_cons, j2, j4, hm']; rfl
        · by_cases c : m.length < l1.length
          · rw [dWalk_cons, h.short x l1 q1 m c]
            simp only [hu, c0]
          · rw [List.length_append] at hm
            obtain ⟨x', j1, j2⟩ := h.full x l1 q1 (m.take l1.length) (by simp; omega)
            have hm' : m.map some = (m.take l1.length).map some ++ (m.drop l1.length).map some := by
              rw [← List.map_append, List.take_append_drop]
            rw [dWalk_cons, hm', j1]
            have := i2 (m.drop l1.length) (by simp; omega)
            simp only [this, c1]
        · by_cases c : l1 = []
          · subst c
            obtain ⟨v, hv⟩ := h.idle x q1
            rw [dWalk_cons, hv]
            simp only [i3 (by simpa using hl), c1]
          · rw [dWalk_cons, h.out x l1 q1 c]
            simp only [hu, c0]
        · obtain ⟨rfl, rfl⟩ := List.append_eq_nil_iff.1 hl
          obtain ⟨v, hv⟩ := h.idle x q1
          rw [dWalk_cons, hv]
          exact ⟨_, by simp only [hu]; rfl⟩

theorem deals {o : Optic} (t : IsTrav o) {kL : D → St} {kS : Kont} (h : Deals kL kS) :
    Deals (coll o kL) (deal o kS) := by
  induction t generalizing kL kS with
  | identity => exact h
  | «at» key =>
    exact deals_lens h (lookup key) (alterValue key)
      (fun d x q y => (good_at key).put d x q (fun _ => some y) y rfl)
      (fun d x q => (good_at key).fails d x q (fun _ => none) rfl)
  | ix n =>
    exact deals_lens h (nth n) (updateNth n)
      (fun d x q y => (good_ix n).put d x q (fun _ => some y) y rfl)
      (fun d x q => (good_ix n).fails d x q (fun _ => none) rfl)
  | each =>
    constructor
    · intro L e; cases e
    · intro x l e m hm
      rcases x with _ | _ | xs | _
      case list =>
        obtain ⟨ys, h1, h2⟩ := (deals_walk h xs l e).1 m hm
        exact ⟨.list ys, h1, h2⟩
      all_goals cases e
    · intro x l e m hm
      rcases x with _ | _ | xs | _
      case list => exact (deals_walk h xs l e).2.1 m hm
      all_goals cases e
    · intro x l e hl
      rcases x with _ | _ | xs | _
      case list => exact (deals_walk h xs l e).2.2.1 hl
      all_goals cases e
    · intro x e
      rcases x with _ | _ | xs | _
      case list => exact (deals_walk h xs [] e).2.2.2 rfl
      all_goals cases e
  | comp a b ta tb iha ihb => exact iha (ihb h)

theorem over_parts (t : Optic) (f : D → D) (d : D) :
    over (.partsOf t) f d = (deal t pop d (asState (f (asVal (coll t single d))))).1 := rfl

end Verif.Lens
