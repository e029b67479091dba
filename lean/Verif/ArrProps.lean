import Verif.ArrEmit

/-!
# Properties of arrays
-/

namespace Verif.Arr

variable (F : Floats)

/-- Numbers for the examples: those from 1000 on are not finite. -/
def toy : Floats where
  V := Int
  zero := 0
  one := 1
  finite v := decide (v.natAbs < 1000)
  add := (· + ·)
  sub := (· - ·)
  mul := (· * ·)
  div a b := if b = 0 then 1000 else a / b

instance : DecidableEq toy.V := inferInstanceAs (DecidableEq Int)
instance : Neg toy.V := inferInstanceAs (Neg Int)
instance (n : Nat) : OfNat toy.V n := inferInstanceAs (OfNat Int n)

/-- Two rows of three. -/
def grid : Nd toy.V := ⟨[2, 3], [1, 2, 3, 4, 5, 6]⟩

theorem grid_made : Made toy grid := .flat (s := [2, 3]) (l := [1, 2, 3, 4, 5, 6]) (by decide +kernel)

/-! ## Coordinates -/

/-- The coordinates listed are those inside. -/
theorem indices_inside {a : Nd F.V} (h : Made F a) (c : List Int) : c ∈ indices F a ↔ Inside c (shape F a) := by
  have hok := made_ok F h
  unfold indices
  rw [indices_eq hok, List.mem_map]
  constructor
  · rintro ⟨n, hn, rfl⟩
    exact inside_nat.mpr (mem_positions.mp hn)
  · intro hc
    obtain ⟨h1, h2, _⟩ := inside_nats hc hok.dims
    exact ⟨nats c, mem_positions.mpr h2, h1.symm⟩

theorem lex_map {a b : List Nat} (h : List.Lex (· < ·) a b) : Before (a.map Int.ofNat) (b.map Int.ofNat) := by
  induction h with
  | nil => exact .nil
  | cons _ ih => exact .cons ih
  | rel hab => exact .rel (by simpa using hab)

/-- They are in order, by the first coordinate, then by the second and so on. -/
theorem indices_order {a : Nd F.V} (h : Made F a) : (indices F a).Pairwise Before := by
  unfold indices
  rw [indices_eq (made_ok F h), List.pairwise_map]
  exact (positions_sorted a.shape).imp lex_map

theorem before_irrefl (c : List Int) : ¬Before c c := by
  intro h
  induction c with
  | nil => cases h
  | cons x c ih =>
    cases h with
    | cons h => exact ih h
    | rel h => omega

/-- None is listed twice. -/
theorem indices_nodup {a : Nd F.V} (h : Made F a) : (indices F a).Nodup :=
  (indices_order F h).imp (S := (· ≠ ·)) fun {x y} hxy he => before_irrefl x (by rw [← he] at hxy; exact hxy)

theorem indices_length {a : Nd F.V} (h : Made F a) :
    (indices F a).length = length F a ∧ length F a = (shape F a).prod := by
  have hok := made_ok F h
  unfold indices length shape
  rw [indices_eq hok, List.length_map, positions_length, hok.size]
  refine ⟨rfl, ?_⟩
  generalize a.shape = s
  induction s with
  | nil => rfl
  | cons d s ih =>
    rw [List.prod_cons, List.map_cons, List.prod_cons, ← ih]
    simp

theorem mapRes_ok {α β γ : Type} {f : α → Res β} {g : γ → α} {k : γ → Option β} {l : List γ}
    (h : ∀ x ∈ l, ∃ y, k x = some y ∧ f (g x) = .ok y) : mapRes f (l.map g) = .ok (l.filterMap k) := by
  induction l with
  | nil => rfl
  | cons x l ih =>
    obtain ⟨y, h1, h2⟩ := h x (by simp)
    rw [List.filterMap_cons_some h1, List.map_cons, mapRes, h2, ih fun z hz => h z (by simp [hz])]
    rfl

/-- The list of an array is what is read at the coordinates in the order in which they are listed. -/
theorem to_list_indices {a : Nd F.V} (h : Made F a) : mapRes (get F · a) (indices F a) = .ok (toList F a) := by
  have hok := made_ok F h
  unfold indices
  rw [indices_eq hok, ← elems_read F hok]
  refine mapRes_ok fun c hc => ?_
  obtain ⟨v, h1, h2⟩ := get_nat F hok (mem_positions.mp hc)
  exact ⟨_, by rw [h1]; rfl, h2⟩

example : indices toy grid = [[0, 0], [0, 1], [0, 2], [1, 0], [1, 1], [1, 2]] := by decide +kernel
example : toList toy grid = [1, 2, 3, 4, 5, 6] := by decide +kernel
example : indices toy grid.transpose = [[0, 0], [0, 1], [1, 0], [1, 1], [2, 0], [2, 1]] := by decide +kernel
example : toList toy grid.transpose = [1, 4, 2, 5, 3, 6] := by decide +kernel
/-- The array of no dimensions has one element. -/
example : indices toy ⟨[], [7]⟩ = [[]] := by decide +kernel
example : indices toy ⟨[2, 0], []⟩ = [] := by decide +kernel

/-! ## Reading and setting -/

/-- Reading gives a number inside. -/
theorem get_inside {a : Nd F.V} (h : Made F a) {c : List Int} (hc : Inside c (shape F a)) : ∃ v, get F c a = .ok v := by
  obtain ⟨v, _, h2⟩ := get_eq_ok F (made_ok F h) hc
  exact ⟨_, h2⟩

/-- It is refused outside, whether there are too few coordinates, too many, or one is negative or too great. -/
theorem get_outside {a : Nd F.V} (h : Made F a) {c : List Int} (hc : ¬Inside c (shape F a)) :
    get F c a = .error (outside c) := get_eq_error F (made_ok F h) hc

/-- Setting inside: the number is read there, all else is as it was. -/
theorem set_inside {a : Nd F.V} (h : Made F a) {c : List Int} (hc : Inside c (shape F a)) {v : F.V} (hv : F.finite v = true) :
    ∃ b, set F c v a = .ok b ∧ shape F b = shape F a ∧ get F c b = .ok v ∧ ∀ c', c' ≠ c → get F c' b = get F c' a := by
  have hok := made_ok F h
  obtain ⟨h1, h2, h3⟩ := inside_nats hc hok.dims
  obtain ⟨i, hi, hw⟩ := withSet_eq hok (v := v) h2
  have hb : set F c v a = .ok { a with elems := a.elems.set i v } := by
    unfold set
    rw [toUsizes_ok h3]
    show (match a.withSet (nats c) v with | some a => Except.ok a | none => Except.error Err.bounds) = _
    rw [hw]
  have hbok := set_ok F hok hb
  refine ⟨_, hb, rfl, ?_, fun c' hne => ?_⟩
  · obtain ⟨w, hw1, hw2⟩ := get_eq_ok F hbok (c := c) hc
    rw [withSet_get hok hi, if_pos rfl] at hw1
    cases hw1
    rw [hw2, read, if_pos hv]
  · refine get_congr F hbok hok rfl fun hc' => ?_
    rw [withSet_get hok hi, if_neg]
    intro he
    have h4 := (inside_nats (s := a.shape) hc' hok.dims).1
    rw [he, ← h1] at h4
    exact hne h4

/-- Setting outside is refused as reading is. -/
theorem set_outside {a : Nd F.V} (h : Made F a) {c : List Int} (hc : ¬Inside c (shape F a)) (v : F.V) :
    set F c v a = .error (outside c) := by
  have hok := made_ok F h
  unfold set outside
  by_cases hn : ∃ x ∈ c, x < 0
  · rw [toUsizes_error hn, if_pos hn]; rfl
  · rw [if_neg hn]
    have hn' : ∀ x ∈ c, 0 ≤ x := fun x hx => by
      by_contra h0
      exact hn ⟨x, hx, by omega⟩
    rw [toUsizes_ok hn']
    show (match a.withSet (nats c) v with | some a => Except.ok a | none => Except.error Err.bounds) = _
    rw [Nd.withSet, offset_none (fun hb => hc (inB_nats hb hn' hok.dims))]
    rfl

example : Inside [1, 2] (shape toy grid) := .cons (by decide) (.cons (by decide) .nil)
example : set toy [1, 2] 9 grid = .ok ⟨[2, 3], [1, 2, 3, 4, 5, 9]⟩ := by decide +kernel
example : get toy [1, 3] grid = .error .bounds := by decide +kernel
example : get toy [1] grid = .error .bounds := by decide +kernel
example : get toy [5, -1] grid = .error .negative := by decide +kernel

/-! ## Other shapes -/

/-- A shape that asks for as many elements is taken. -/
theorem reshape_taken {a : Nd F.V} (h : Made F a) {s : List Int} (hs : ∀ d ∈ s, 0 ≤ d ∧ d < 2 ^ 64)
    (hp : s.prod = length F a) : ∃ b, reshape F s a = .ok b ∧ shape F b = s ∧ toList F b = toList F a ∧
      reshape F (shape F a) b = .ok a := by
  have hok := made_ok F h
  have hn : (nats s).map Int.ofNat = s := by
    unfold nats
    rw [List.map_map]
    conv_rhs => rw [← List.map_id s]
    refine List.map_congr_left fun x hx => ?_
    have := hs x hx
    show ((asUsize x : Nat) : Int) = x
    unfold asUsize usizeMax
    omega
  have hm : ∀ d ∈ nats s, d ≤ usizeMax := fun d hd => by
    obtain ⟨x, _, rfl⟩ := List.mem_map.mp hd
    unfold asUsize
    omega
  have hl : a.elems.length = (nats s).prod := by
    have h1 : ∀ l : List Nat, (l.map Int.ofNat).prod = ((l.prod : Nat) : Int) := by
      intro l
      induction l with
      | nil => rfl
      | cons d l ih => rw [List.prod_cons, List.map_cons, List.prod_cons, ih]; simp
    have h2 := h1 (nats s)
    rw [hn, hp] at h2
    unfold length at h2
    omega
  refine ⟨⟨nats s, a.elems⟩, ?_, hn, rfl, ?_⟩
  · show fromFlat F s a.elems = _
    conv_lhs => rw [← hn]
    exact fromFlat_eq F hm hl
  · show fromFlat F (a.shape.map Int.ofNat) a.elems = _
    exact fromFlat_eq F hok.dims hok.size

/-- Any other is refused. -/
theorem reshape_refused {a : Nd F.V} {s : List Int} (hs : ∀ d ∈ s, 0 ≤ d ∧ d < 2 ^ 64) (hp : s.prod ≠ length F a) :
    reshape F s a = .error .shape := by
  have hn : (nats s).map Int.ofNat = s := by
    unfold nats
    rw [List.map_map]
    conv_rhs => rw [← List.map_id s]
    refine List.map_congr_left fun x hx => ?_
    have := hs x hx
    show ((asUsize x : Nat) : Int) = x
    unfold asUsize usizeMax
    omega
  have h1 : ∀ l : List Nat, (l.map Int.ofNat).prod = ((l.prod : Nat) : Int) := by
    intro l
    induction l with
    | nil => rfl
    | cons d l ih => rw [List.prod_cons, List.map_cons, List.prod_cons, ih]; simp
  unfold reshape
  rw [toUsizes_ok fun x hx => (hs x hx).1]
  show (match a.reshape (nats s) with | some a => Except.ok a | none => Except.error Err.shape) = _
  rw [Nd.reshape, fromFlatN, if_neg]
  intro hl
  refine hp ?_
  rw [← hn, h1, ← hl]
  rfl

theorem reshape_negative {a : Nd F.V} {s : List Int} (hs : ∃ d ∈ s, d < 0) : reshape F s a = .error .negative := by
  unfold reshape
  rw [toUsizes_error hs]
  rfl

theorem inside_reverse {c s : List Int} : Inside c.reverse s.reverse ↔ Inside c s := List.forall₂_reverse_iff

theorem outside_reverse (c : List Int) : outside c.reverse = outside c := by
  unfold outside
  simp

/-- The transpose is read with the coordinates turned round. -/
theorem transpose_get {a : Nd F.V} (h : Made F a) (c : List Int) : get F c.reverse a.transpose = get F c a := by
  have hok := made_ok F h
  have htok := transpose_ok hok
  have hs : shape F a.transpose = (shape F a).reverse := List.map_reverse
  by_cases hc : Inside c (shape F a)
  · obtain ⟨v, h1, h2⟩ := get_eq_ok F hok hc
    have hc' : Inside c.reverse (shape F a.transpose) := by rw [hs]; exact inside_reverse.mpr hc
    obtain ⟨w, h3, h4⟩ := get_eq_ok F htok hc'
    have hb := (inside_nats (s := a.transpose.shape) hc' htok.dims).2.1
    have hn : nats c.reverse = (nats c).reverse := List.map_reverse
    rw [Nd.transpose, view_get (view_transpose hok) _ hb, hn, List.reverse_reverse, h1] at h3
    cases h3
    rw [h2, h4]
  · have hc' : ¬Inside c.reverse (shape F a.transpose) := by rw [hs]; exact fun hh => hc (inside_reverse.mp hh)
    rw [get_eq_error F hok hc, get_eq_error F htok hc', outside_reverse]

theorem transpose_shape (a : Nd F.V) : shape F a.transpose = (shape F a).reverse := List.map_reverse

/-- The transpose of the transpose is the array. -/
theorem transpose_twice {a : Nd F.V} (h : Made F a) : a.transpose.transpose = a := by
  have hok := made_ok F h
  have htok := transpose_ok hok
  refine nd_ext (transpose_ok htok) hok ?_ fun c hc => ?_
  · show a.shape.reverse.reverse = _
    exact List.reverse_reverse _
  · rw [Nd.transpose, view_get (view_transpose htok) c hc]
    have hc' : InB c.reverse a.shape.reverse := by
      have : InB c a.shape.reverse.reverse := hc
      rw [← inB_reverse, List.reverse_reverse] at this
      exact this
    rw [Nd.transpose, view_get (view_transpose hok) _ hc', List.reverse_reverse]

/-- A slice is read as the array, with the index put in among the coordinates. -/
theorem slice_get {a : Nd F.V} (h : Made F a) {axis idx : Int} (hx : 0 ≤ axis) (hi : 0 ≤ idx) {d : Int}
    (hd : (shape F a)[axis.toNat]? = some d) (hid : idx < d) (hax : axis < 2 ^ 64) :
    ∃ b, slice F axis idx a = .ok b ∧ shape F b = (shape F a).eraseIdx axis.toNat ∧
      ∀ c : List Int, c.length + 1 = rank F a → get F c b = get F (c.insertIdx axis.toNat idx) a := by
  have hok := made_ok F h
  have hA : asUsize axis = axis.toNat := by unfold asUsize usizeMax; omega
  unfold shape at hd
  rw [List.getElem?_map] at hd
  cases hd' : a.shape[axis.toNat]? with
  | none => rw [hd'] at hd; cases hd
  | some n =>
    rw [hd'] at hd
    simp only [Option.map_some, Option.some.injEq, Int.ofNat_eq_natCast] at hd
    have hn := hok.dims n (List.mem_of_getElem? hd')
    have hI : (asUsize idx : Int) = idx := by unfold asUsize; omega
    have hlt : asUsize idx < n := by omega
    have : ∃ b, a.sliceAlong axis.toNat (asUsize idx) = some b := by
      unfold Nd.sliceAlong
      rw [hd']
      exact ⟨_, if_neg (by omega)⟩
    obtain ⟨b, hb⟩ := this
    obtain ⟨_, _, _, hsh, hbok, hg⟩ := slice_ok hok hb
    refine ⟨b, by unfold slice; rw [hA, hb], ?_, fun c hl => ?_⟩
    · unfold shape
      rw [hsh]
      exact (List.eraseIdx_map Int.ofNat a.shape axis.toNat).symm
    · have hm : nats (c.insertIdx axis.toNat idx) = (nats c).insertIdx axis.toNat (asUsize idx) :=
        List.map_insertIdx asUsize c axis.toNat idx
      have hl' : (nats c).length + 1 = a.shape.length := by
        unfold nats rank at *
        rw [List.length_map]
        omega
      by_cases hneg : ∃ x ∈ c, x < 0
      · have hle : axis.toNat ≤ c.length := by
          have := (List.getElem?_eq_some_iff.mp hd').1
          unfold nats at hl'
          rw [List.length_map] at hl'
          omega
        have hneg' : ∃ x ∈ c.insertIdx axis.toNat idx, x < 0 := by
          obtain ⟨x, h1, h2⟩ := hneg
          exact ⟨x, (List.mem_insertIdx hle).mpr (.inr h1), h2⟩
        unfold get
        rw [toUsizes_error hneg, toUsizes_error hneg']
        rfl
      · have hn' : ∀ x ∈ c, 0 ≤ x := fun x hx => by
          by_contra h0
          exact hneg ⟨x, hx, by omega⟩
        have hn'' : ∀ x ∈ c.insertIdx axis.toNat idx, 0 ≤ x := by
          intro x hx'
          rcases List.eq_or_mem_of_mem_insertIdx hx' with rfl | hx'
          · exact hi
          · exact hn' x hx'
        unfold get
        rw [toUsizes_ok hn', toUsizes_ok hn'', hm]
        show (match b.get (nats c) with | some v => Except.ok (read F v) | none => Except.error Err.bounds) =
          (match a.get ((nats c).insertIdx axis.toNat (asUsize idx)) with
            | some v => Except.ok (read F v) | none => Except.error Err.bounds)
        by_cases hc : InB (nats c) b.shape
        · rw [hg _ hc]
        · rw [get_none hc, get_none]
          rw [inB_insert_iff hd' hlt hl', ← hsh]
          exact hc

/-- Slices that are not there are refused, when the numbers are not negative. -/
theorem slice_refused_partial {a : Nd F.V} {axis idx : Int} (hx : 0 ≤ axis) (hi : 0 ≤ idx) (hax : axis < 2 ^ 64)
    (hix : idx < 2 ^ 64) (h : ∀ d, (shape F a)[axis.toNat]? = some d → d ≤ idx) : slice F axis idx a = .error .shape := by
  have hA : asUsize axis = axis.toNat := by unfold asUsize usizeMax; omega
  have hI : (asUsize idx : Int) = idx := by unfold asUsize usizeMax; omega
  unfold slice Nd.sliceAlong
  rw [hA]
  cases hd : a.shape[axis.toNat]? with
  | none => rfl
  | some n =>
    dsimp only
    have := h n (by unfold shape; rw [List.getElem?_map, hd]; rfl)
    rw [if_pos (by omega)]

/-- Negative numbers are not refused, as they are elsewhere: they count as 0. -/
theorem slice_negative : slice toy (-1) (-5) grid = slice toy 0 0 grid ∧ slice toy 0 0 grid = .ok ⟨[3], [1, 2, 3]⟩ := by
  decide +kernel

example : reshape toy [3, 2] grid = .ok ⟨[3, 2], [1, 2, 3, 4, 5, 6]⟩ := by decide +kernel
example : reshape toy [4, 2] grid = .error .shape := by decide +kernel
example : grid.transpose = ⟨[3, 2], [1, 4, 2, 5, 3, 6]⟩ := by decide +kernel
example : slice toy 1 2 grid = .ok ⟨[2], [3, 6]⟩ := by decide +kernel
example : slice toy 1 3 grid = .error .shape := by decide +kernel

/-! ## Operations on elements -/

theorem finite_get {a : Nd F.V} (hf : a.Finite) {c : List Nat} {v : F.V} (h : a.get c = some v) : read F v = v := by
  rw [read, if_pos (hf v (get_mem h))]

/-- Of two arrays of one shape with finite elements, the elements at the same coordinates are taken. -/
theorem binop_arrays {a b : Nd F.V} (ha : Made F a) (hb : Made F b) (fa : a.Finite) (fb : b.Finite) (f : F.V → F.V → F.V)
    (hs : shape F a = shape F b) : ∃ r, binop F f (.array a) (.array b) = .ok r ∧ shape F r = shape F a ∧
      ∀ c x y, get F c a = .ok x → get F c b = .ok y → get F c r = .ok (read F (f x y)) := by
  have hs' : a.shape = b.shape := List.map_injective_iff.mpr (fun x y h => Int.ofNat.inj h) hs
  have hr : binop F f (.array a) (.array b) = .ok ⟨a.shape, List.zipWith f a.elems b.elems⟩ := by
    rw [binop, Nd.zipWith, if_neg (by simpa using hs')]
  have hrok := made_ok F (.binop (.array ha) (.array hb) hr)
  refine ⟨_, hr, rfl, fun c x y hx hy => ?_⟩
  by_cases hc : Inside c (shape F a)
  · obtain ⟨v, h1, h2⟩ := get_eq_ok F (made_ok F ha) hc
    obtain ⟨w, h3, h4⟩ := get_eq_ok F (made_ok F hb) (hs ▸ hc)
    obtain ⟨u, h5, h6⟩ := get_eq_ok F hrok (c := c) hc
    rw [h2, finite_get F fa h1] at hx
    rw [h4, finite_get F fb h3] at hy
    cases hx
    cases hy
    have hb' : b.get (nats c) = Nd.get ⟨a.shape, b.elems⟩ (nats c) := by rw [hs']
    rw [zip_get, show Nd.get ⟨a.shape, a.elems⟩ (nats c) = some x from h1, ← hb', h3] at h5
    cases h5
    exact h6
  · rw [get_eq_error F (made_ok F ha) hc] at hx
    cases hx

/-- Arrays of different shapes are refused. -/
theorem binop_shapes {a b : Nd F.V} (f : F.V → F.V → F.V) (hs : shape F a ≠ shape F b) :
    binop F f (.array a) (.array b) = .error .shape := by
  rw [binop, Nd.zipWith, if_pos]
  intro h
  exact hs (by unfold shape; rw [h])

/-- With a number, on either side, it is taken with each element. -/
theorem binop_number {a : Nd F.V} (ha : Made F a) (fa : a.Finite) (f : F.V → F.V → F.V) (n : F.V) :
    (∃ r, binop F f (.array a) (.number n) = .ok r ∧ shape F r = shape F a ∧
      ∀ c x, get F c a = .ok x → get F c r = .ok (read F (f x n))) ∧
    (∃ r, binop F f (.number n) (.array a) = .ok r ∧ shape F r = shape F a ∧
      ∀ c x, get F c a = .ok x → get F c r = .ok (read F (f n x))) := by
  have key : ∀ g : F.V → F.V, Nd.Ok ⟨a.shape, a.elems.map g⟩ → ∀ c x, get F c a = .ok x →
      get F c ⟨a.shape, a.elems.map g⟩ = .ok (read F (g x)) := by
    intro g hrok c x hx
    by_cases hc : Inside c (shape F a)
    · obtain ⟨v, h1, h2⟩ := get_eq_ok F (made_ok F ha) hc
      obtain ⟨u, h5, h6⟩ := get_eq_ok F hrok (c := c) hc
      rw [h2, finite_get F fa h1] at hx
      cases hx
      rw [map_get, show Nd.get ⟨a.shape, a.elems⟩ (nats c) = some x from h1] at h5
      cases h5
      exact h6
    · rw [get_eq_error F (made_ok F ha) hc] at hx
      cases hx
  refine ⟨⟨_, rfl, rfl, key (f · n) ?_⟩, ⟨_, rfl, rfl, key (f n ·) ?_⟩⟩
  · exact made_ok F (Made.binop (f := f) (.array ha) (.number (v := n)) rfl)
  · exact made_ok F (Made.binop (f := f) (.number (v := n)) (.array ha) rfl)

/-- A result that is not finite reads as 0; but it is kept, so what is read of an array does not settle what is read of a
sum with it. -/
theorem not_finite_read :
    let one : Nd toy.V := ⟨[1], [1]⟩
    let zero : Nd toy.V := ⟨[1], [0]⟩
    ∃ q p r : Nd toy.V, binop toy toy.div (.array one) (.array zero) = .ok q ∧ get toy [0] q = get toy [0] zero ∧
      binop toy toy.add (.array q) (.array one) = .ok p ∧ binop toy toy.add (.array zero) (.array one) = .ok r ∧
      get toy [0] p = .ok 0 ∧ get toy [0] r = .ok 1 :=
  ⟨⟨[1], [1000]⟩, ⟨[1], [1001]⟩, ⟨[1], [1]⟩, by decide +kernel, by decide +kernel, by decide +kernel, by decide +kernel,
    by decide +kernel, by decide +kernel⟩

example : binop toy toy.sub (.number 10) (.array grid) = .ok ⟨[2, 3], [9, 8, 7, 6, 5, 4]⟩ := by decide +kernel
example : binop toy toy.sub (.array grid) (.number 10) = .ok ⟨[2, 3], [-9, -8, -7, -6, -5, -4]⟩ := by decide +kernel
example : grid.Finite (F := toy) := show ∀ v ∈ grid.elems, toy.finite v = true by decide +kernel

/-- `map` gives the array of what the function makes of what is read. -/
theorem map_get_each {a : Nd F.V} (h : Made F a) (f : F.V → F.V) : ∃ r, map F f a = .ok r ∧ shape F r = shape F a ∧
    ∀ c x, get F c a = .ok x → get F c r = .ok (read F (f x)) := by
  have hok := made_ok F h
  have hr : map F f a = .ok ⟨a.shape, (toList F a).map f⟩ :=
    fromFlat_eq F hok.dims (by unfold toList; simpa using hok.size)
  have hrok := made_ok F (.flat hr)
  refine ⟨_, hr, rfl, fun c x hx => ?_⟩
  by_cases hc : Inside c (shape F a)
  · obtain ⟨v, h1, h2⟩ := get_eq_ok F hok hc
    obtain ⟨u, h5, h6⟩ := get_eq_ok F hrok (c := c) hc
    rw [h2] at hx
    cases hx
    unfold toList at h5
    rw [map_get, map_get, show Nd.get ⟨a.shape, a.elems⟩ (nats c) = some v from h1] at h5
    cases h5
    exact h6
  · rw [get_eq_error F hok hc] at hx
    cases hx

/-- `map-indexed` likewise, with the coordinates. -/
theorem map_indexed_get {a : Nd F.V} (h : Made F a) (f : List Int → F.V → F.V) :
    ∃ r, mapIndexed F f a = .ok r ∧ shape F r = shape F a ∧
      ∀ c x, get F c a = .ok x → get F c r = .ok (read F (f c x)) := by
  have hok := made_ok F h
  have hl : (List.map (fun p => f p.1 p.2) (List.zip (indices F a) (toList F a))).length = a.shape.prod := by
    unfold indices toList
    rw [indices_eq hok]
    simp [positions_length, hok.size]
  have hr : mapIndexed F f a = .ok ⟨a.shape, (List.zip (indices F a) (toList F a)).map fun p => f p.1 p.2⟩ :=
    fromFlat_eq F hok.dims hl
  have hrok := made_ok F (.flat hr)
  refine ⟨_, hr, rfl, fun c x hx => ?_⟩
  by_cases hc : Inside c (shape F a)
  · obtain ⟨v, h1, h2⟩ := get_eq_ok F hok hc
    obtain ⟨u, h5, h6⟩ := get_eq_ok F hrok (c := c) hc
    rw [h2] at hx
    cases hx
    obtain ⟨hn, hb, _⟩ := inside_nats hc hok.dims
    obtain ⟨i, hi⟩ := offset_inB hb
    have hp := positions_get.mp hi
    have hv : a.elems[i]? = some v := by
      unfold Nd.get at h1
      rw [hi] at h1
      exact h1
    unfold Nd.get at h5
    dsimp only at h5
    have hzip : (List.zip (indices F a) (toList F a))[i]? = some (c, read F v) :=
      List.getElem?_zip_eq_some.mpr ⟨by unfold indices; rw [indices_eq hok, List.getElem?_map, hp, Option.map_some, ← hn],
        by unfold toList; rw [List.getElem?_map, hv]; rfl⟩
    rw [hi, Option.bind_some, List.getElem?_map, hzip] at h5
    cases h5
    exact h6
  · rw [get_eq_error F hok hc] at hx
    cases hx

/-- `fold` goes through the coordinates in the order in which they are listed. -/
theorem fold_order {β : Type} {a : Nd F.V} (h : Made F a) (f : β → F.V → β) (init : β) :
    ∃ l, mapRes (get F · a) (indices F a) = .ok l ∧ fold F f init a = l.foldl f init :=
  ⟨_, to_list_indices F h, rfl⟩

example : mapIndexed toy (fun c (x : Int) => c.sum * 100 + x) grid = .ok ⟨[2, 3], [1, 102, 203, 104, 205, 306]⟩ := by
  decide +kernel
example : fold toy (fun (n : Int) (x : Int) => n * 10 + x) 0 grid = 123456 := by decide +kernel

theorem mapRes_forall {α β : Type} {f : α → Res β} {l : List α} {P : α → β → Prop}
    (h : ∀ x ∈ l, ∃ y, f x = .ok y ∧ P x y) : ∃ r, mapRes f l = .ok r ∧ List.Forall₂ P l r := by
  induction l with
  | nil => exact ⟨[], rfl, .nil⟩
  | cons x l ih =>
    obtain ⟨y, h1, h2⟩ := h x (by simp)
    obtain ⟨r, h3, h4⟩ := ih fun z hz => h z (by simp [hz])
    exact ⟨y :: r, by rw [mapRes, h1, h3]; rfl, .cons h2 h4⟩

/-- The unit arrays: one for each coordinate inside, in order, that is 1 there and 0 elsewhere. -/
theorem unit_arrays {s : List Int} (hs : ∀ d ∈ s, 0 ≤ d ∧ d < 2 ^ 64) (hz : F.finite F.zero = true)
    (ho : F.finite F.one = true) : ∃ z r, zeros F s = .ok z ∧ unitArrays F s = .ok r ∧ shape F z = s ∧
      List.Forall₂ (fun c u => shape F u = s ∧ get F c u = .ok F.one ∧
        ∀ c', Inside c' s → c' ≠ c → get F c' u = .ok F.zero) (indices F z) r := by
  have hn : (nats s).map Int.ofNat = s := by
    unfold nats
    rw [List.map_map]
    conv_rhs => rw [← List.map_id s]
    refine List.map_congr_left fun x hx => ?_
    have := hs x hx
    show ((asUsize x : Nat) : Int) = x
    unfold asUsize usizeMax
    omega
  have hz' : zeros F s = .ok (filled (nats s) F.zero) := by
    unfold zeros fill
    rw [toUsizes_ok fun x hx => (hs x hx).1]
    rfl
  have hm : Made F (filled (nats s) F.zero) := .fill (s := s) (v := F.zero) hz'
  have hsh : shape F (filled (nats s) F.zero) = s := hn
  have key : ∀ c ∈ indices F (filled (nats s) F.zero), ∃ u, (do
      let z ← zeros F s
      set F c F.one z) = Except.ok u ∧ (shape F u = s ∧ get F c u = .ok F.one ∧
        ∀ c', Inside c' s → c' ≠ c → get F c' u = .ok F.zero) := by
    intro c hc
    obtain ⟨u, h1, h2, h3, h4⟩ := set_inside F hm ((indices_inside F hm c).mp hc) ho
    refine ⟨u, by rw [hz']; exact h1, by rw [h2, hsh], h3, fun c' hc' hne => ?_⟩
    rw [h4 c' hne]
    obtain ⟨v, h5, h6⟩ := get_eq_ok F (made_ok F hm) (c := c') (by rw [hsh]; exact hc')
    have hv : v = F.zero := by
      have := get_mem h5
      exact List.eq_of_mem_replicate this
    rw [h6, hv, read, if_pos hz]
  obtain ⟨r, h1, h2⟩ := mapRes_forall key
  refine ⟨_, r, hz', ?_, hsh, h2⟩
  unfold unitArrays
  rw [hz']
  rw [hz'] at h1
  exact h1

example : unitArrays toy [2, 1] = .ok [⟨[2, 1], [1, 0]⟩, ⟨[2, 1], [0, 1]⟩] := by decide +kernel

/-! ## Neighbours -/

/-- The neighbours: what is read at the coordinates moved by each offset, those outside left out. -/
theorem neighbours_get_partial {a : Nd F.V} (h : Made F a) {coords : List Int} {offsets : List (List Int)}
    (hr : 0 < rank F a) (hm : rank F a < 2 ^ 64) (hc : (coords.length : Int) = rank F a)
    (ho : ∀ o ∈ offsets, (o.length : Int) = rank F a) (hn : Near coords offsets) (hd : ∀ d ∈ shape F a, d < 2 ^ 63) :
    neighbours F coords offsets a = .ok (offsets.filterMap fun o => (get F (moved coords o) a).toOption) := by
  have hok := made_ok F h
  have hA : asUsize (rank F a) = a.shape.length := by unfold asUsize rank usizeMax at *; omega
  have hsat : offsets.flatten.map satI64 = offsets.flatten := by
    conv_rhs => rw [← List.map_id offsets.flatten]
    refine List.map_congr_left fun x hx => ?_
    obtain ⟨o, ho', hx⟩ := List.mem_flatten.mp hx
    have := hn.offs o ho' x hx
    show satI64 x = x
    unfold satI64
    omega
  have hch : (if asUsize (rank F a) = 0 ∨ offsets.flatten = [] then [] else
      chunks (asUsize (rank F a)) offsets.flatten.length offsets.flatten) = offsets := by
    rw [hA]
    have h0 : 0 < a.shape.length := by unfold rank at hr; omega
    have hl : ∀ o ∈ offsets, o.length = a.shape.length := fun o ho' => by
      have := ho o ho'
      unfold rank at this
      omega
    by_cases hf : offsets.flatten = []
    · rw [if_pos (.inr hf)]
      cases offsets with
      | nil => rfl
      | cons o os =>
        have := hl o (by simp)
        rw [List.flatten_cons, List.append_eq_nil_iff] at hf
        rw [hf.1] at this
        simp at this
        omega
    · rw [if_neg (by rintro (h1 | h1); · omega
                     · exact hf h1)]
      exact chunks_flatten h0 hl (Nat.le_refl _)
  unfold neighbours
  rw [toUsizes_ok fun x hx => (hn.coord x hx).1]
  show Except.ok ((a.neighbours (nats coords) (if asUsize (rank F a) = 0 ∨ offsets.flatten.map satI64 = [] then [] else
      chunks (asUsize (rank F a)) (offsets.flatten.map satI64).length (offsets.flatten.map satI64))).map (read F)) = _
  rw [hsat, hch]
  congr 1
  unfold Nd.neighbours
  rw [List.map_filterMap]
  refine List.filterMap_congr fun o ho' => ?_
  have hl1 : coords.length = a.shape.length := by unfold rank at hc; omega
  have hl2 : o.length = a.shape.length := by have := ho o ho'; unfold rank at this; omega
  rw [if_neg (by unfold nats; rw [List.length_map]; omega), steps_eq hl1 hl2 hn.coord (hn.offs o ho') (hn.sum o ho')
    (fun d hd' => by
      have := hd (Int.ofNat d) (List.mem_map.mpr ⟨d, hd', rfl⟩)
      simp only [Int.ofNat_eq_natCast] at this
      omega)]
  by_cases hi : Inside (moved coords o) (shape F a)
  · obtain ⟨v, h1, h2⟩ := get_eq_ok F hok hi
    rw [if_pos (show Inside (moved coords o) (a.shape.map Int.ofNat) from hi), Option.bind_some, h1, h2]
    rfl
  · rw [if_neg (show ¬Inside (moved coords o) (a.shape.map Int.ofNat) from hi), get_eq_error F hok hi]
    rfl

example : neighbours toy [0, 1] [[0, -1], [-1, 0], [0, 1], [1, 0]] grid = .ok [1, 3, 5] := by decide +kernel

/-- An offset of the wrong length is not left out, but cut up: two numbers are two offsets of a row. -/
theorem neighbours_cut : neighbours toy [0] [[1, 2]] ⟨[4], [10, 11, 12, 13]⟩ = .ok [11, 12] ∧
    get toy (moved [0] [1, 2]) ⟨[4], [10, 11, 12, 13]⟩ = .ok 11 ∧
    neighbours toy [0, 0] [[1], [0, 0], [1]] grid = .ok [4, 2] := by decide +kernel

/-- An array of no dimensions has no neighbours, though the offset of no numbers leads to its element. -/
theorem neighbours_scalar : neighbours toy [] [[]] ⟨[], [7]⟩ = .ok [] ∧ get toy (moved [] []) ⟨[], [7]⟩ = .ok 7 := by
  decide +kernel

/-- Coordinates beyond the numbers of the machine come round to the beginning. -/
theorem neighbours_wrap : neighbours toy [10 ^ 20] [[1]] ⟨[2], [7, 8]⟩ = .ok [7] ∧
    get toy (moved [10 ^ 20] [1]) ⟨[2], [7, 8]⟩ = .error .bounds := by
  decide +kernel

/-! ## Writing out -/

/-- What is written out is nested as the shape says, has at some coordinates what is read at them, and all of it in order. -/
theorem emit_nested {a : Nd F.V} (h : Made F a) : Shaped a.shape (emit F a) ∧ flatten (emit F a) = toList F a ∧
    ∀ (c : List Nat) (v : F.V), dig (emit F a) c = some v ↔ get F (c.map Int.ofNat) a = .ok v := by
  have hok := made_ok F h
  refine ⟨emitN_shaped F _ a hok rfl, ?_, fun c v => ?_⟩
  · rw [emit, emitN_flatten F _ a hok rfl]
    exact elems_read F hok
  · rw [emit, emitN_dig F _ a hok rfl]
    by_cases hc : InB c a.shape
    · obtain ⟨w, h1, h2⟩ := get_nat F hok hc
      rw [h1, h2]
      simp
    · rw [get_none hc, get_eq_error F hok (fun hh => hc (inside_nat.mp hh))]
      simp

example : emit toy grid = .seq [.seq [.num 1, .num 2, .num 3], .seq [.num 4, .num 5, .num 6]] := rfl

end Verif.Arr
