import Verif.DemSpec

/-!
# The loops of the demand analysis

Proofs only.
-/

namespace Verif.Dem
open Verif.Comp

/-! ## Searching -/

theorem countFalse_set {v : List Bool} {j : Nat} (hj : j < v.length) (h : v.getD j false = false) :
    (v.set j true).count false + 1 = v.count false := by
  induction v generalizing j with
  | nil => simp at hj
  | cons b v ih =>
    cases j with
    | zero =>
      have : b = false := by simpa using h
      subst this
      simp
    | succ j =>
      have := ih (j := j) (by simpa using hj) (by simpa using h)
      cases b <;> simp at this ⊢ <;> omega

theorem scan_length {start js v q b v' q'} (h : scan start js v q = (b, v', q')) : v'.length = v.length := by
  induction js generalizing v q with
  | nil => cases h; rfl
  | cons j js ih =>
    unfold scan at h
    split at h
    · cases h; rfl
    · split at h
      · exact ih h
      · simpa using ih h

theorem scan_measure {start js v q b v' q'} (hj : ∀ j ∈ js, j < v.length) (h : scan start js v q = (b, v', q')) :
    v'.count false + q'.length ≤ v.count false + q.length := by
  induction js generalizing v q with
  | nil => cases h; exact Nat.le_refl _
  | cons j js ih =>
    unfold scan at h
    split at h
    · cases h; exact Nat.le_refl _
    · split at h
      · exact ih (fun k hk => hj k (by simp [hk])) h
      · rename_i hv
        have h1 := ih (by simpa using fun k hk => hj k (by simp [hk])) h
        have h2 := countFalse_set (hj j (by simp)) (by simpa using hv)
        simp only [List.length_append, List.length_cons, List.length_nil] at h1
        omega

theorem getD_le {ds : List (List Nat)} {n : Nat} (hd : ∀ l ∈ ds, ∀ j ∈ l, j < n) (i : Nat) : ∀ j ∈ ds.getD i [], j < n := by
  intro j hj
  rw [List.getD_eq_getElem?_getD] at hj
  cases h : ds[i]? with
  | none => rw [h] at hj; simp at hj
  | some l => rw [h] at hj; exact hd l (List.mem_of_getElem? h) j hj

theorem bfs_ends {ds start turns v q} (hd : ∀ l ∈ ds, ∀ j ∈ l, j < v.length) (h : v.count false + q.length < turns) :
    (bfs ds start turns v q).isSome = true := by
  induction turns generalizing v q with
  | zero => omega
  | succ turns ih =>
    cases q with
    | nil => rfl
    | cons k q =>
      unfold bfs
      split
      · rfl
      · rename_i v' q' hs
        have h1 := scan_measure (getD_le hd k) hs
        have h2 := scan_length hs
        refine ih (by rw [h2]; exact hd) ?_
        simp only [List.length_cons] at h
        omega

theorem isRecursive_ends {turns ds start} (hd : ∀ l ∈ ds, ∀ j ∈ l, j < ds.length) (h : ds.length < turns) :
    (isRecursive turns ds start).isSome = true := by
  unfold isRecursive
  split
  · rfl
  · rename_i v q hs
    have h1 := scan_measure (by simpa using getD_le hd start) hs
    have h2 := scan_length hs
    refine bfs_ends (by rw [h2]; simpa using hd) ?_
    have : (List.replicate ds.length false).count false = ds.length := by simp
    simp only [List.length_nil] at h1
    omega

theorem recursives_ends {turns ds is} (hd : ∀ l ∈ ds, ∀ j ∈ l, j < ds.length) (h : ds.length < turns) :
    (recursives turns ds is).isSome = true := by
  induction is with
  | nil => rfl
  | cons i is ih =>
    unfold recursives
    have := isRecursive_ends (start := i) hd h
    split
    · rename_i hn; rw [hn] at this; cases this
    · simpa using ih

theorem recursives_length {turns ds is rs} (h : recursives turns ds is = some rs) : rs.length = is.length := by
  induction is generalizing rs with
  | nil => cases h; rfl
  | cons i is ih =>
    unfold recursives at h
    split at h
    · cases h
    · obtain ⟨r, hr, rfl⟩ := Option.map_eq_some_iff.1 h
      simp [ih hr]

theorem recursives_get {turns ds is rs} (h : recursives turns ds is = some rs) {k i : Nat} (hk : is[k]? = some i) :
    ∃ r, rs[k]? = some r ∧ isRecursive turns ds i = some r := by
  induction is generalizing rs k with
  | nil => simp at hk
  | cons i' is ih =>
    unfold recursives at h
    split at h
    · cases h
    · rename_i r hr
      obtain ⟨rs', hr', rfl⟩ := Option.map_eq_some_iff.1 h
      cases k with
      | zero => simp at hk; subst hk; exact ⟨r, rfl, hr⟩
      | succ k => simpa using ih hr' (by simpa using hk)

/-! ### What is found -/

theorem set_getD {v : List Bool} {j k : Nat} (h : (v.set j true).getD k false = true) : k = j ∨ v.getD k false = true := by
  simp only [List.getD_eq_getElem?_getD, List.getElem?_set] at h ⊢
  split at h
  · exact .inl (by omega)
  · exact .inr h

theorem set_keeps {v : List Bool} {j k : Nat} (h : v.getD k false = true) : (v.set j true).getD k false = true := by
  simp only [List.getD_eq_getElem?_getD, List.getElem?_set] at h ⊢
  split
  · split
    · rfl
    · rename_i h1 h2
      subst h1
      rw [List.getElem?_eq_none (by omega)] at h
      cases h
  · exact h

theorem set_self {v : List Bool} {j : Nat} (h : j < v.length) : (v.set j true).getD j false = true := by
  simp [List.getD_eq_getElem?_getD, h]

/-- What one scan does, if it does not meet `start`. -/
theorem scan_false {start js v q v' q'} (hj : ∀ j ∈ js, j < v.length) (h : scan start js v q = (false, v', q')) :
    start ∉ js ∧ (∀ k, v.getD k false = true → v'.getD k false = true) ∧ (∀ j ∈ js, v'.getD j false = true) ∧
      (∀ k ∈ q, k ∈ q') ∧ (∀ k, v'.getD k false = true → v.getD k false = true ∨ (k ∈ js ∧ k ∈ q')) ∧
      (∀ k ∈ q', k ∈ q ∨ v'.getD k false = true) := by
  induction js generalizing v q with
  | nil =>
    cases h
    exact ⟨by simp, fun _ => id, by simp, fun _ => id, fun _ h => .inl h, fun _ h => .inl h⟩
  | cons j js ih =>
    unfold scan at h
    split at h
    · cases h
    · rename_i hne
      split at h
      · rename_i hv
        obtain ⟨h1, h2, h3, h4, h5, h6⟩ := ih (fun k hk => hj k (by simp [hk])) h
        refine ⟨by simp; exact ⟨fun e => hne e.symm, h1⟩, h2, ?_, h4, fun k hk => (h5 k hk).imp id fun ⟨a, b⟩ => ⟨by simp [a], b⟩, h6⟩
        intro k hk
        rcases List.mem_cons.1 hk with rfl | hk
        · exact h2 _ hv
        · exact h3 k hk
      · obtain ⟨h1, h2, h3, h4, h5, h6⟩ := ih (by simpa using fun k hk => hj k (by simp [hk])) h
        have hjv : v'.getD j false = true := h2 j (set_self (hj j (by simp)))
        refine ⟨by simp; exact ⟨fun e => hne e.symm, h1⟩, fun k hk => h2 k (set_keeps hk), ?_, fun k hk => h4 k (by simp [hk]),
          fun k hk => ?_, fun k hk => ?_⟩
        · intro k hk
          rcases List.mem_cons.1 hk with rfl | hk
          · exact hjv
          · exact h3 k hk
        · rcases h5 k hk with h | ⟨a, b⟩
          · rcases set_getD h with rfl | h
            · exact .inr ⟨by simp, h4 _ (by simp)⟩
            · exact .inl h
          · exact .inr ⟨by simp [a], b⟩
        · rcases h6 k hk with h | h
          · rcases List.mem_append.1 h with h | h
            · exact .inl h
            · simp at h; subst h; exact .inr hjv
          · exact .inr h

theorem scan_true {start js v q v' q'} (h : scan start js v q = (true, v', q')) : start ∈ js := by
  induction js generalizing v q with
  | nil => cases h
  | cons j js ih =>
    unfold scan at h
    split at h
    · rename_i e; simp [e]
    · split at h <;> exact List.mem_cons_of_mem _ (ih h)

/-- While the search goes on: what is seen is led to, its neighbours are seen unless it waits, and `start` is not among
them. -/
structure Seeking (ds : List (List Nat)) (start : Nat) (v : List Bool) (q : List Nat) : Prop where
  fits : ∀ l ∈ ds, ∀ j ∈ l, j < v.length
  sure : ∀ k, v.getD k false = true → Leads ds start k
  waits : ∀ k ∈ q, v.getD k false = true
  done : ∀ k, v.getD k false = true → k ∉ q → start ∉ ds.getD k [] ∧ ∀ j ∈ ds.getD k [], v.getD j false = true
  first : start ∉ ds.getD start [] ∧ ∀ j ∈ ds.getD start [], v.getD j false = true

theorem seeking_all {ds start v} (h : Seeking ds start v []) {j} (hl : Leads ds start j) : v.getD j false = true ∧ j ≠ start := by
  induction hl with
  | edge hj => exact ⟨h.first.2 _ hj, fun e => h.first.1 (e ▸ hj)⟩
  | step _ hk ih =>
    have := h.done _ ih.1 (by simp)
    exact ⟨this.2 _ hk, fun e => this.1 (e ▸ hk)⟩

theorem bfs_right {ds start turns v q b} (h : Seeking ds start v q) (hb : bfs ds start turns v q = some b) :
    b = true ↔ Leads ds start start := by
  induction turns generalizing v q with
  | zero => cases hb
  | succ turns ih =>
    cases q with
    | nil =>
      cases hb
      exact ⟨fun h => (by cases h), fun hl => absurd rfl (seeking_all h hl).2⟩
    | cons k q =>
      unfold bfs at hb
      split at hb
      · rename_i hs
        cases hb
        exact ⟨fun _ => .step (h.sure k (h.waits k (by simp))) (scan_true hs), fun _ => rfl⟩
      · rename_i v' q' hs
        obtain ⟨h1, h2, h3, h4, h5, h6⟩ := scan_false (getD_le h.fits k) hs
        refine ih ⟨by rw [scan_length hs]; exact h.fits, fun j hj => ?_, fun j hj => ?_, fun j hj hq => ?_,
          h.first.1, fun j hj => h2 j (h.first.2 j hj)⟩ hb
        · rcases h5 j hj with h' | ⟨a, _⟩
          · exact h.sure j h'
          · exact .step (h.sure k (h.waits k (by simp))) a
        · rcases h6 j hj with h' | h'
          · exact h2 j (h.waits j (by simp [h']))
          · exact h'
        · rcases h5 j hj with h' | ⟨_, b⟩
          · by_cases hk : j = k
            · subst hk
              exact ⟨h1, h3⟩
            · have := h.done j h' (by simp only [List.mem_cons, not_or]; exact ⟨hk, fun hm => hq (h4 j hm)⟩)
              exact ⟨this.1, fun i hi => h2 i (this.2 i hi)⟩
          · exact absurd b hq

theorem isRecursive_right {turns ds start b} (hd : ∀ l ∈ ds, ∀ j ∈ l, j < ds.length) (h : isRecursive turns ds start = some b) :
    b = true ↔ Leads ds start start := by
  unfold isRecursive at h
  split at h
  · rename_i hs
    cases h
    exact ⟨fun _ => .edge (scan_true hs), fun _ => rfl⟩
  · rename_i v q hs
    obtain ⟨h1, h2, h3, h4, h5, h6⟩ := scan_false (by simpa using getD_le hd start) hs
    refine bfs_right ⟨by rw [scan_length hs]; simpa using hd, fun k hk => ?_, fun k hk => ?_, fun k hk hq => ?_, h1, h3⟩ h
    · rcases h5 k hk with h' | ⟨a, _⟩
      · simp [List.getD_eq_getElem?_getD, List.getElem?_replicate] at h'
        split at h' <;> cases h'
      · exact .edge a
    · rcases h6 k hk with h' | h'
      · simp at h'
      · exact h'
    · rcases h5 k hk with h' | ⟨_, b⟩
      · simp [List.getD_eq_getElem?_getD, List.getElem?_replicate] at h'
        split at h' <;> cases h'
      · exact absurd b hq

/-! ## Loops until nothing changes -/

theorem settle_ends {α : Type} [DecidableEq α] {f : α → α} {I : α → Prop} {μ : α → Nat} (hI : ∀ x, I x → I (f x))
    (hμ : ∀ x, I x → f x ≠ x → μ (f x) < μ x) {turns x} (hx : I x) (h : μ x < turns) : (settle f turns x).isSome = true := by
  induction turns generalizing x with
  | zero => omega
  | succ turns ih =>
    unfold settle
    split
    · rfl
    · rename_i hne
      exact ih (hI x hx) (by have := hμ x hx hne; omega)

theorem settle_inv {α : Type} [DecidableEq α] {f : α → α} {I : α → Prop} (hI : ∀ x, I x → I (f x)) {turns x y} (hx : I x)
    (h : settle f turns x = some y) : I y ∧ f y = y := by
  induction turns generalizing x with
  | zero => cases h
  | succ turns ih =>
    unfold settle at h
    split at h
    · rename_i hf
      cases h
      exact ⟨hI x hx, by rw [hf, hf]⟩
    · exact ih (hI x hx) h

/-! ### Taint -/

theorem foldl_set_length (js : List Nat) (t : List Bool) : (js.foldl (fun t j => t.set j true) t).length = t.length := by
  induction js generalizing t with
  | nil => rfl
  | cons j js ih => simp [ih]

/-- `t` is a list of the same length, with no fewer set. -/
def Up (t t' : List Bool) : Prop := t'.length = t.length ∧ ∀ k, t.getD k false = true → t'.getD k false = true

theorem Up.refl (t : List Bool) : Up t t := ⟨rfl, fun _ => id⟩
theorem Up.trans {a b c : List Bool} (h : Up a b) (h' : Up b c) : Up a c :=
  ⟨h'.1.trans h.1, fun k hk => h'.2 k (h.2 k hk)⟩

theorem foldl_set_up (js : List Nat) (t : List Bool) : Up t (js.foldl (fun t j => t.set j true) t) := by
  induction js generalizing t with
  | nil => exact .refl t
  | cons j js ih => exact .trans ⟨by simp, fun k hk => set_keeps hk⟩ (ih _)

theorem taint_up (ds : List (List Nat)) (t : List Bool) (i : Nat) : Up t (taint ds t i) := by
  unfold taint
  split
  · exact foldl_set_up _ t
  · exact .refl t

theorem taintAll_up (ds : List (List Nat)) (t : List Bool) : Up t (taintAll ds t) := by
  unfold taintAll
  generalize List.range ds.length = is
  induction is generalizing t with
  | nil => exact .refl t
  | cons i is ih => exact .trans (taint_up ds t i) (ih _)

theorem up_count {t t' : List Bool} (h : Up t t') (hne : t' ≠ t) : t'.count false < t.count false := by
  obtain ⟨hl, hu⟩ := h
  have key : ∀ (t t' : List Bool), t'.length = t.length → (∀ k, t.getD k false = true → t'.getD k false = true) →
      t'.count false ≤ t.count false ∧ (t' ≠ t → t'.count false < t.count false) := by
    intro t
    induction t with
    | nil => intro t' hl _; simp at hl; subst hl; simp
    | cons b t ih =>
      intro t' hl hu
      cases t' with
      | nil => simp at hl
      | cons b' t' =>
        have h1 := ih t' (by simpa using hl) (fun k hk => by simpa using hu (k + 1) (by simpa using hk))
        have h2 := hu 0
        cases b <;> cases b' <;> simp at h2 h1 ⊢ <;> refine ⟨by omega, ?_⟩ <;> intros <;> first | omega | (exact h1.2 (by assumption))
  exact (key t t' hl hu).2 hne

theorem taint_ends {turns : Nat} {ds : List (List Nat)} {rs : List Bool} (h : rs.length < turns) :
    (settle (taintAll ds) turns rs).isSome = true :=
  settle_ends (I := fun _ => True) (μ := fun t => t.count false) (fun _ _ => trivial)
    (fun t _ hne => up_count (taintAll_up ds t) hne) trivial (Nat.lt_of_le_of_lt List.count_le_length h)

/-! ### Demands -/

def rankC : Card → Nat
  | .absent => 0
  | .once => 1
  | .multi => 2
  | .unknown => 3
def rankS : Strictness → Nat
  | .unknown => 0
  | .lazy => 1
  | .strict => 2

/-- What can come up in the loop. -/
structure Plain (d : Demand) : Prop where
  card : d.card ≠ .unknown
  whnf : d.whnf = false
  recursive : d.recursive = false

structure Le (d e : Demand) : Prop where
  card : rankC d.card ≤ rankC e.card
  strictness : rankS d.strictness ≤ rankS e.strictness

theorem Le.refl (d : Demand) : Le d d := ⟨Nat.le_refl _, Nat.le_refl _⟩
theorem Le.trans {a b c : Demand} (h : Le a b) (h' : Le b c) : Le a c :=
  ⟨Nat.le_trans h.1 h'.1, Nat.le_trans h.2 h'.2⟩

def rank (d : Demand) : Nat := rankC d.card + rankS d.strictness

theorem plain_absent : Plain absent := ⟨by decide, rfl, rfl⟩
theorem Use.plain {d : Demand} (h : Use d) : Plain d :=
  ⟨by rcases h.card with h | h <;> rw [h] <;> decide, h.whnf, h.recursive⟩

theorem rank_le {d : Demand} (h : Plain d) : rank d ≤ 4 := by
  obtain ⟨c, s, w, r⟩ := d
  have := h.card
  cases c <;> cases s <;> simp_all [rank, rankC, rankS]

theorem Le.eq {d e : Demand} (hd : Plain d) (he : Plain e) (h : Le d e) (hr : rank e ≤ rank d) : d = e := by
  obtain ⟨c, s, w, r⟩ := d
  obtain ⟨c', s', w', r'⟩ := e
  obtain ⟨_, h1, h2⟩ := hd
  obtain ⟨_, h3, h4⟩ := he
  obtain ⟨h5, h6⟩ := h
  simp only [rank] at hr h1 h2 h3 h4 h5 h6
  subst h1 h2 h3 h4
  have : rankC c = rankC c' ∧ rankS s = rankS s' := by constructor <;> omega
  cases c <;> cases c' <;> cases s <;> cases s' <;> simp_all [rankC, rankS]

theorem plus_plain {d e : Demand} (hd : Plain d) (he : Plain e) : Plain (plus d e) := by
  refine ⟨?_, by simp [plus, hd.whnf], by simp [plus, hd.recursive, he.recursive]⟩
  have := hd.card
  have := he.card
  simp only [plus]
  cases hc : d.card <;> cases hc' : e.card <;> simp_all [plusCard]

theorem scale_plain {d e : Demand} (hd : Plain d) (he : Plain e) : Plain (scale d e) := by
  refine ⟨?_, rfl, by simp [scale, hd.recursive, he.recursive]⟩
  have := hd.card
  have := he.card
  simp only [scale]
  cases hc : d.card <;> cases hc' : e.card <;> simp_all [scaleCard]

theorem le_plus {d e : Demand} (hd : Plain d) (he : Plain e) : Le d (plus d e) := by
  have h1 := hd.card
  have h2 := he.card
  constructor
  · simp only [plus]
    cases hc : d.card <;> cases hc' : e.card <;> simp_all [plusCard, rankC]
  · simp only [plus]
    cases d.strictness <;> cases e.strictness <;> simp [plusStrict, rankS]

theorem plus_mono {a b c d : Demand} (ha : Plain a) (hb : Plain b) (hc : Plain c) (hd : Plain d) (h : Le a b) (h' : Le c d) :
    Le (plus a c) (plus b d) := by
  obtain ⟨ca, sa, _, _⟩ := a
  obtain ⟨cb, sb, _, _⟩ := b
  obtain ⟨cc, sc, _, _⟩ := c
  obtain ⟨cd, sd, _, _⟩ := d
  have := ha.card
  have := hb.card
  have := hc.card
  have := hd.card
  have h1 := h.card
  have h2 := h'.card
  have h3 := h.strictness
  have h4 := h'.strictness
  constructor
  · clear h3 h4
    cases ca <;> cases cb <;> cases cc <;> cases cd <;> simp_all [plus, plusCard, rankC]
  · clear h1 h2
    simp only [plus]
    cases sa <;> cases sb <;> cases sc <;> cases sd <;> simp_all [plusStrict, rankS]

theorem scale_mono {r a b : Demand} (hr : Use r) (ha : Plain a) (hb : Plain b) (h : Le a b) : Le (scale r a) (scale r b) := by
  obtain ⟨ca, sa, _, _⟩ := a
  obtain ⟨cb, sb, _, _⟩ := b
  obtain ⟨cr, sr, _, _⟩ := r
  have h1 := hr.card
  have h2 := hr.strictness
  have := ha.card
  have := hb.card
  have h3 := h.card
  have h4 := h.strictness
  simp only at h1 h2
  constructor
  · clear h4 h2
    cases ca <;> cases cb <;> cases cr <;> simp_all [scale, scaleCard, rankC]
  · clear h3 h1
    simp only [scale]
    cases sa <;> cases sb <;> cases sr <;> simp_all [scaleStrict, rankS]

/-- An environment of uses. -/
def Uses (e : Asks) : Prop := ∀ s i d, e s i = some d → Use d

theorem asked_plain {e : Asks} (h : Uses e) (i : Nat) : Plain (asked e i) := by
  unfold asked
  cases he : e 0 i with
  | none => exact plain_absent
  | some d => exact (h _ _ _ he).plain

/-- What a list of demands is at each place; `absent` beyond its end. -/
abbrev at_ (ds : List Demand) (i : Nat) : Demand := ds.getD i absent

def PlainAll (ds : List Demand) : Prop := ∀ d ∈ ds, Plain d

theorem plainAll_at {ds : List Demand} (h : PlainAll ds) (i : Nat) : Plain (at_ ds i) := by
  unfold at_
  rw [List.getD_eq_getElem?_getD]
  cases hi : ds[i]? with
  | none => exact plain_absent
  | some d => exact h d (List.mem_of_getElem? hi)

def LeAll (ds ds' : List Demand) : Prop := ∀ i, Le (at_ ds i) (at_ ds' i)

section
variable {body : Asks} {rhs : List Asks} (hb : Uses body) (hr : ∀ e ∈ rhs, Uses e)
include hr

theorem rhs_use {j i : Nat} {r : Demand} (h : (rhs.getD j none_) 0 i = some r) : Use r := by
  rw [List.getD_eq_getElem?_getD] at h
  cases hj : rhs[j]? with
  | none => rw [hj] at h; cases h
  | some e => rw [hj] at h; exact hr e (List.mem_of_getElem? hj) _ _ _ h

theorem demandOf_go {ds : List Demand} (hp : PlainAll ds) (i : Nat) (js : List Nat) {d : Demand} (hd : Plain d) :
    Plain (js.foldl (fun d j => match (rhs.getD j none_) 0 i with
      | some r => plus d (scale r (ds.getD j absent))
      | none => d) d) ∧ Le d (js.foldl (fun d j => match (rhs.getD j none_) 0 i with
      | some r => plus d (scale r (ds.getD j absent))
      | none => d) d) := by
  induction js generalizing d with
  | nil => exact ⟨hd, .refl d⟩
  | cons j js ih =>
    simp only [List.foldl_cons]
    cases hj : (rhs.getD j none_) 0 i with
    | none => exact ih hd
    | some r =>
      have hs := scale_plain (rhs_use hr hj).plain (plainAll_at hp j)
      have h1 := ih (plus_plain hd hs)
      exact ⟨h1.1, .trans (le_plus hd hs) h1.2⟩

include hb

theorem demandOf_plain {ds : List Demand} (hp : PlainAll ds) (i : Nat) : Plain (demandOf body rhs ds i) :=
  (demandOf_go hr hp i _ (asked_plain hb i)).1

theorem asked_le {ds : List Demand} (hp : PlainAll ds) (i : Nat) : Le (asked body i) (demandOf body rhs ds i) :=
  (demandOf_go hr hp i _ (asked_plain hb i)).2

theorem demandOf_mono {ds ds' : List Demand} (hp : PlainAll ds) (hp' : PlainAll ds') (h : LeAll ds ds') (i : Nat) :
    Le (demandOf body rhs ds i) (demandOf body rhs ds' i) := by
  unfold demandOf
  have h0 := asked_plain hb i
  have : ∀ (js : List Nat) (d d' : Demand), Plain d → Plain d' → Le d d' →
      Le (js.foldl (fun d j => match (rhs.getD j none_) 0 i with
          | some r => plus d (scale r (ds.getD j absent))
          | none => d) d)
        (js.foldl (fun d j => match (rhs.getD j none_) 0 i with
          | some r => plus d (scale r (ds'.getD j absent))
          | none => d) d') := by
    intro js
    induction js with
    | nil => intro d d' _ _ h; exact h
    | cons j js ih =>
      intro d d' hd hd' hle
      simp only [List.foldl_cons]
      cases hj : (rhs.getD j none_) 0 i with
      | none => exact ih d d' hd hd' hle
      | some r =>
        have hu := rhs_use hr hj
        have s1 := scale_plain hu.plain (plainAll_at hp j)
        have s2 := scale_plain hu.plain (plainAll_at hp' j)
        exact ih _ _ (plus_plain hd s1) (plus_plain hd' s2)
          (plus_mono hd hd' s1 s2 hle (scale_mono hu (plainAll_at hp j) (plainAll_at hp' j) (h j)))
  exact this _ _ _ h0 h0 (.refl _)

omit hb hr in
theorem at_set {ds : List Demand} {i k : Nat} {d : Demand} (hi : i < ds.length) :
    at_ (ds.set i d) k = if i = k then d else at_ ds k := by
  unfold at_
  simp only [List.getD_eq_getElem?_getD, List.getElem?_set]
  split
  · rename_i h; subst h; simp
  · rfl

omit hb hr in
theorem plainAll_set {ds : List Demand} {i : Nat} {d : Demand} (h : PlainAll ds) (hd : Plain d) : PlainAll (ds.set i d) := by
  intro e he
  rcases List.mem_or_eq_of_mem_set he with h' | rfl
  · exact h e h'
  · exact hd

/-- The demands so far are below what they ask for. -/
structure Rising (body : Asks) (rhs : List Asks) (ds : List Demand) : Prop where
  length : ds.length = rhs.length
  plain : PlainAll ds
  below : ∀ i, i < ds.length → Le (at_ ds i) (demandOf body rhs ds i)

theorem rising_set {ds : List Demand} (h : Rising body rhs ds) {i : Nat} (hi : i < ds.length) :
    Rising body rhs (ds.set i (demandOf body rhs ds i)) ∧ LeAll ds (ds.set i (demandOf body rhs ds i)) := by
  have hp := plainAll_set (i := i) h.plain (demandOf_plain hb hr h.plain i)
  have hle : LeAll ds (ds.set i (demandOf body rhs ds i)) := by
    intro k
    rw [at_set hi]
    split
    · rename_i e; subst e; exact h.below i hi
    · exact .refl _
  refine ⟨⟨by simpa using h.length, hp, fun k hk => ?_⟩, hle⟩
  rw [at_set hi]
  have hm := demandOf_mono hb hr h.plain hp hle k
  split
  · rename_i e; subst e; exact hm
  · exact .trans (h.below k (by simpa using hk)) hm

theorem rising_fold {ds : List Demand} (h : Rising body rhs ds) (is : List Nat) (hi : ∀ i ∈ is, i < ds.length) :
    Rising body rhs (is.foldl (fun ds i => ds.set i (demandOf body rhs ds i)) ds) ∧
      LeAll ds (is.foldl (fun ds i => ds.set i (demandOf body rhs ds i)) ds) := by
  induction is generalizing ds with
  | nil => exact ⟨h, fun i => .refl _⟩
  | cons i is ih =>
    obtain ⟨h1, h2⟩ := rising_set hb hr h (hi i (by simp))
    obtain ⟨h3, h4⟩ := ih h1 (fun k hk => by simpa using hi k (by simp [hk]))
    exact ⟨h3, fun k => .trans (h2 k) (h4 k)⟩

theorem rising_sweep {ds : List Demand} (h : Rising body rhs ds) : Rising body rhs (sweep body rhs ds) ∧ LeAll ds (sweep body rhs ds) :=
  rising_fold hb hr h _ fun i hi => by rw [h.length]; exact List.mem_range.1 hi

omit hb hr in
/-- How far a list of demands is from the top. -/
def room (ds : List Demand) : Nat := (ds.map fun d => 4 - rank d).sum

omit hb hr in
theorem room_lt : ∀ (ds ds' : List Demand), ds'.length = ds.length → PlainAll ds → PlainAll ds' → LeAll ds ds' →
    room ds' ≤ room ds ∧ (ds' ≠ ds → room ds' < room ds)
  | [], ds', hl, _, _, _ => by simp at hl; subst hl; simp [room]
  | d :: ds, [], hl, _, _, _ => by simp at hl
  | d :: ds, d' :: ds', hl, hp, hp', h => by
    have ih := room_lt ds ds' (by simpa using hl) (fun e he => hp e (by simp [he])) (fun e he => hp' e (by simp [he]))
      (fun i => by simpa [at_] using h (i + 1))
    have h0 : Le d d' := by simpa [at_] using h 0
    have hd := hp d (by simp)
    have hd' := hp' d' (by simp)
    have h1 := rank_le hd
    have h2 := rank_le hd'
    have h3 : rank d ≤ rank d' := by have := h0.1; have := h0.2; unfold rank; omega
    simp only [room, List.map_cons, List.sum_cons] at ih ⊢
    refine ⟨by omega, fun hne => ?_⟩
    by_cases he : d = d'
    · subst he
      have := ih.2 (fun e => hne (by rw [e]))
      omega
    · have : ¬ rank d' ≤ rank d := fun hr => he (h0.eq hd hd' hr)
      omega

theorem rising_start : Rising body rhs ((List.range rhs.length).map (asked body)) := by
  have hp : PlainAll ((List.range rhs.length).map (asked body)) := by
    intro d hd
    obtain ⟨i, _, rfl⟩ := List.mem_map.1 hd
    exact asked_plain hb i
  refine ⟨by simp, hp, fun i hi => ?_⟩
  have : at_ ((List.range rhs.length).map (asked body)) i = asked body i := by
    simp only [List.length_map, List.length_range] at hi
    simp [at_, List.getD_eq_getElem?_getD, hi]
  rw [this]
  exact asked_le hb hr hp i

omit hb hr in
theorem room_le (ds : List Demand) : room ds ≤ 4 * ds.length := by
  induction ds with
  | nil => simp [room]
  | cons d ds ih =>
    simp only [room, List.map_cons, List.sum_cons, List.length_cons] at ih ⊢
    omega

theorem sweep_ends {turns : Nat} (h : 4 * rhs.length < turns) :
    (settle (sweep body rhs) turns ((List.range rhs.length).map (asked body))).isSome = true := by
  refine settle_ends (I := Rising body rhs) (μ := room) (fun ds h => (rising_sweep hb hr h).1) (fun ds h hne => ?_)
    (rising_start hb hr) ?_
  · obtain ⟨h1, h2⟩ := rising_sweep hb hr h
    exact (room_lt ds _ (by rw [h1.length, h.length]) h.plain h1.plain h2).2 hne
  · have := room_le ((List.range rhs.length).map (asked body))
    simp only [List.length_map, List.length_range] at this
    omega

omit hb hr in
theorem deps_fit (n : Nat) (rhs : List Asks) : ∀ l ∈ deps n rhs, ∀ j ∈ l, j < n := by
  intro l hl j hj
  obtain ⟨e, _, rfl⟩ := List.mem_map.1 hl
  exact List.mem_range.1 (List.mem_filter.1 hj).1

omit hb hr in
theorem deps_length (n : Nat) (rhs : List Asks) : (deps n rhs).length = rhs.length := by simp [deps]

/-- The demands of a let are found, in no more than four turns for each binding and one. -/
theorem letDemands_ends {turns : Nat} {block : Bool} (h : 4 * rhs.length < turns) :
    (letDemands turns block body rhs).isSome = true := by
  unfold letDemands
  have hl := deps_length rhs.length rhs
  have h1 : (recursives turns (deps rhs.length rhs) (List.range rhs.length)).isSome = true :=
    recursives_ends (by rw [hl]; exact deps_fit _ _) (by omega)
  simp only
  split
  · rename_i hn; rw [hn] at h1; cases h1
  · rename_i rs hrs
    have h2 : (settle (taintAll (deps rhs.length rhs)) turns rs).isSome = true :=
      taint_ends (by rw [recursives_length hrs]; simp; omega)
    split
    · rename_i hn; rw [hn] at h2; cases h2
    · have h3 := sweep_ends hb hr h
      split
      · rename_i hn; rw [hn] at h3; cases h3
      · rfl
end

end Verif.Dem
