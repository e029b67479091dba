import Verif.ArrLemmas

/-!
# Proofs only.  The operations
-/

namespace Verif.Arr

variable (F : Floats)

/-! ## Numbers given -/

/-- Natural coordinates from those given. -/
def nats (c : List Int) : List Nat := c.map asUsize

theorem toUsizes_ok {c : List Int} (h : ∀ x ∈ c, 0 ≤ x) : toUsizes c = .ok (nats c) := by
  induction c with
  | nil => rfl
  | cons x c ih =>
    rw [toUsizes, if_neg (by have := h x (by simp); omega), ih fun y hy => h y (by simp [hy])]
    rfl

theorem toUsizes_error {c : List Int} (h : ∃ x ∈ c, x < 0) : toUsizes c = .error .negative := by
  induction c with
  | nil => obtain ⟨x, hx, _⟩ := h; cases hx
  | cons x c ih =>
    rw [toUsizes]
    by_cases hx : x < 0
    · rw [if_pos hx]
    · rw [if_neg hx]
      obtain ⟨y, hy, hn⟩ := h
      rcases List.mem_cons.mp hy with rfl | hy
      · exact absurd hn hx
      · rw [ih ⟨y, hy, hn⟩]; rfl

theorem toUsizes_nat {c : List Nat} (h : ∀ x ∈ c, x ≤ usizeMax) : toUsizes (c.map Int.ofNat) = .ok c := by
  rw [toUsizes_ok (fun x hx => by obtain ⟨n, _, rfl⟩ := List.mem_map.mp hx; exact Int.natCast_nonneg n)]
  congr 1
  unfold nats
  rw [List.map_map]
  conv_rhs => rw [← List.map_id c]
  refine List.map_congr_left fun x hx => ?_
  have := h x hx
  simp only [Function.comp_apply, asUsize, Int.ofNat_eq_natCast, Int.toNat_natCast, id_eq]
  omega

theorem inside_nat {c s : List Nat} : Inside (c.map Int.ofNat) (s.map Int.ofNat) ↔ InB c s := by
  unfold Inside InB
  rw [List.forall₂_map_left_iff, List.forall₂_map_right_iff]
  constructor
  · intro h; exact h.imp fun a b h => by simp at h; omega
  · intro h; exact h.imp fun a b h => by simp; omega

theorem inside_nats {c : List Int} {s : List Nat} (h : Inside c (s.map Int.ofNat)) (hd : ∀ d ∈ s, d ≤ usizeMax) :
    c = (nats c).map Int.ofNat ∧ InB (nats c) s ∧ ∀ x ∈ c, 0 ≤ x := by
  induction s generalizing c with
  | nil => cases h; exact ⟨rfl, .nil, by simp⟩
  | cons d s ih =>
    cases h with
    | @cons x _ c _ hx h =>
      obtain ⟨h1, h2, h3⟩ := ih h (fun e he => hd e (by simp [he]))
      have := hd d (by simp)
      have hx' : 0 ≤ x ∧ x < (d : Int) := hx
      have ha : (asUsize x : Int) = x := by unfold asUsize; omega
      refine ⟨?_, .cons (by omega) h2, ?_⟩
      · have : nats (x :: c) = asUsize x :: nats c := rfl
        rw [this, List.map_cons, ← h1]
        congr 1
        exact ha.symm
      · intro y hy
        rcases List.mem_cons.mp hy with rfl | hy
        · exact hx'.1
        · exact h3 y hy

theorem inB_nats {c : List Int} {s : List Nat} (h : InB (nats c) s) (hn : ∀ x ∈ c, 0 ≤ x) (hd : ∀ d ∈ s, d ≤ usizeMax) :
    Inside c (s.map Int.ofNat) := by
  induction s generalizing c with
  | nil =>
    cases c with
    | nil => exact .nil
    | cons x c => cases h
  | cons d s ih =>
    cases c with
    | nil => cases h
    | cons x c =>
      cases h with
      | cons hx h =>
        have h1 := hn x (by simp)
        have h2 := hd d (by simp)
        refine .cons ⟨h1, ?_⟩ (ih h (fun y hy => hn y (by simp [hy])) fun e he => hd e (by simp [he]))
        unfold asUsize at hx
        simp only [Int.ofNat_eq_natCast]
        omega

/-! ## Reading -/

theorem get_eq_ok {a : Nd F.V} (h : a.Ok) {c : List Int} (hc : Inside c (shape F a)) :
    ∃ v, a.get (nats c) = some v ∧ get F c a = .ok (read F v) := by
  obtain ⟨_, h2, h3⟩ := inside_nats hc h.dims
  obtain ⟨v, hv⟩ := get_inB h h2
  refine ⟨v, hv, ?_⟩
  unfold get
  rw [toUsizes_ok h3]
  show (match a.get (nats c) with | some v => Except.ok (read F v) | none => Except.error Err.bounds) = _
  rw [hv]

theorem get_eq_error {a : Nd F.V} (h : a.Ok) {c : List Int} (hc : ¬Inside c (shape F a)) :
    get F c a = .error (outside c) := by
  unfold get outside
  by_cases hn : ∃ x ∈ c, x < 0
  · rw [toUsizes_error hn, if_pos hn]; rfl
  · rw [if_neg hn]
    have hn' : ∀ x ∈ c, 0 ≤ x := fun x hx => by
      by_contra h0
      exact hn ⟨x, hx, by omega⟩
    rw [toUsizes_ok hn']
    show (match a.get (nats c) with | some v => Except.ok (read F v) | none => Except.error Err.bounds) = _
    rw [get_none (fun hb => hc (inB_nats hb hn' h.dims))]

/-- Reading at natural coordinates. -/
theorem get_nat {a : Nd F.V} (h : a.Ok) {c : List Nat} (hc : InB c a.shape) :
    ∃ v, a.get c = some v ∧ get F (c.map Int.ofNat) a = .ok (read F v) := by
  obtain ⟨v, h1, h2⟩ := get_eq_ok F h (c := c.map Int.ofNat) (inside_nat.mpr hc)
  have : nats (c.map Int.ofNat) = c := by
    have hm : ∀ x ∈ c, x ≤ usizeMax := by
      intro x hx
      have hl := hc
      clear h1 h2
      have : ∀ (c s : List Nat), List.Forall₂ (· < ·) c s → (∀ d ∈ s, d ≤ usizeMax) → ∀ x ∈ c, x ≤ usizeMax := by
        intro c s hf
        induction hf with
        | nil => intro _ x hx; cases hx
        | @cons a b _ _ hab _ ih =>
          intro hd x hx
          have := hd b (by simp)
          rcases List.mem_cons.mp hx with rfl | hx
          · omega
          · exact ih (fun d hd' => hd d (by simp [hd'])) x hx
      exact this c a.shape hl h.dims x hx
    have h1 := toUsizes_nat hm
    rw [toUsizes_ok (fun x hx => by obtain ⟨n, _, rfl⟩ := List.mem_map.mp hx; exact Int.natCast_nonneg n)] at h1
    exact Except.ok.inj h1
  rw [this] at h1
  exact ⟨v, h1, h2⟩

/-- Reading is decided by the elements at natural coordinates. -/
theorem get_congr {a b : Nd F.V} (ha : a.Ok) (hb : b.Ok) (hs : a.shape = b.shape) {c : List Int}
    (h : Inside c (shape F a) → a.get (nats c) = b.get (nats c)) : get F c a = get F c b := by
  by_cases hc : Inside c (shape F a)
  · obtain ⟨v, h1, h2⟩ := get_eq_ok F ha hc
    have hc' : Inside c (shape F b) := by unfold shape at hc ⊢; rw [← hs]; exact hc
    obtain ⟨w, h3, h4⟩ := get_eq_ok F hb hc'
    rw [h2, h4]
    have := h hc
    rw [h1, h3] at this
    cases this
    rfl
  · have hc' : ¬Inside c (shape F b) := by unfold shape at hc ⊢; rw [← hs]; exact hc
    rw [get_eq_error F ha hc, get_eq_error F hb hc']

/-! ## Making -/

theorem fromFlat_eq {s : List Nat} (hs : ∀ d ∈ s, d ≤ usizeMax) {l : List F.V} (h : l.length = s.prod) :
    fromFlat F (s.map Int.ofNat) l = .ok ⟨s, l⟩ := by
  unfold fromFlat
  rw [toUsizes_nat hs]
  show (match fromFlatN s l with | some a => Except.ok a | none => Except.error Err.shape) = _
  rw [fromFlatN, if_pos h]

theorem withSet_eq {V : Type} {a : Nd V} (h : a.Ok) {c : List Nat} {v : V} (hc : InB c a.shape) :
    ∃ i, offset a.shape c = some i ∧ a.withSet c v = some { a with elems := a.elems.set i v } := by
  obtain ⟨i, hi⟩ := offset_inB hc
  have hl := (offset_some hi).1
  rw [← h.size] at hl
  exact ⟨i, hi, by rw [Nd.withSet, hi, Option.bind_some, if_pos hl]⟩

theorem withSet_get {V : Type} {a : Nd V} (h : a.Ok) {c : List Nat} {v : V} {i : Nat} (hi : offset a.shape c = some i)
    (c' : List Nat) : Nd.get { a with elems := a.elems.set i v } c' = if c' = c then some v else a.get c' := by
  have hl := (offset_some hi).1
  rw [← h.size] at hl
  unfold Nd.get
  dsimp only
  split
  · rename_i he
    rw [he, hi, Option.bind_some, List.getElem?_set_self hl]
  · rename_i hne
    cases ho : offset a.shape c' with
    | none => rfl
    | some j =>
      rw [Option.bind_some, Option.bind_some]
      refine List.getElem?_set_ne fun hij => hne ?_
      rw [← (offset_some ho).2.1, ← (offset_some hi).2.1, hij]

theorem zipWith_getElem? {α β γ : Type} (f : α → β → γ) (l : List α) (m : List β) (i : Nat) :
    (List.zipWith f l m)[i]? = l[i]?.bind fun x => m[i]?.map (f x) := by
  rw [List.getElem?_zipWith]
  cases l[i]? <;> cases m[i]? <;> rfl

theorem map_get {V : Type} {s : List Nat} {l : List V} {f : V → V} (c : List Nat) :
    Nd.get ⟨s, l.map f⟩ c = (Nd.get ⟨s, l⟩ c).map f := by
  unfold Nd.get
  dsimp only
  cases offset s c with
  | none => rfl
  | some i => simp

theorem zip_get {V : Type} {s : List Nat} {l m : List V} {f : V → V → V} (c : List Nat) :
    Nd.get ⟨s, List.zipWith f l m⟩ c = (Nd.get ⟨s, l⟩ c).bind fun x => (Nd.get ⟨s, m⟩ c).map (f x) := by
  unfold Nd.get
  dsimp only
  cases offset s c with
  | none => rfl
  | some i => rw [Option.bind_some, Option.bind_some, zipWith_getElem?]; rfl

end Verif.Arr
