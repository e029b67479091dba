import Verif.GraphModel
import Verif.GraphSpec
import Mathlib.Data.Nat.Find

/-!
# Proofs only.

The forest of `find` and `union`: every node has a root, and two nodes have the same one when they are connected.
-/

namespace Verif.Graph

/-- Parents lead to the root `ro`, through ranks that grow. -/
structure Forest (n : Nat) (rk ro : Nat → Nat) (p : List Nat) : Prop where
  len : p.length = n
  ok : ∀ x a, p[x]? = some a → a < n ∧ ro a = ro x ∧ (a = x → ro x = x) ∧ (a ≠ x → rk x < rk a)
  lt : ∀ x, x < n → ro x < n
  root : ∀ x, x < n → p[ro x]? = some (ro x)

theorem Forest.get {n : Nat} {rk ro : Nat → Nat} {p : List Nat} (h : Forest n rk ro p) {x : Nat} (hx : x < n) : ∃ a, p[x]? = some a :=
  ⟨p[x]'(by rw [h.len]; exact hx), List.getElem?_eq_getElem _⟩

theorem Forest.ro_ro {n : Nat} {rk ro : Nat → Nat} {p : List Nat} (h : Forest n rk ro p) {x : Nat} (hx : x < n) : ro (ro x) = ro x :=
  (h.ok _ _ (h.root x hx)).2.2.1 rfl

theorem Forest.halve {n : Nat} {rk ro : Nat → Nat} {p : List Nat} (h : Forest n rk ro p) {x a b : Nat} (ha : p[x]? = some a)
    (hne : a ≠ x) (hb : p[a]? = some b) : Forest n rk ro (p.set x b) ∧ rk x < rk b ∧ b < n ∧ ro b = ro x := by
  obtain ⟨_, ha2, _, ha4⟩ := h.ok _ _ ha
  obtain ⟨hb1, hb2, _, hb4⟩ := h.ok _ _ hb
  have hrk : rk x < rk b := by
    have := ha4 hne
    by_cases hba : b = a
    · rw [hba]; exact this
    · have := hb4 hba; omega
  have hbx : b ≠ x := fun e => by rw [e] at hrk; omega
  refine ⟨⟨by simp [h.len], ?_, h.lt, ?_⟩, hrk, hb1, hb2.trans ha2⟩
  · intro y c hy
    rw [List.getElem?_set] at hy
    by_cases hxy : x = y
    · subst hxy
      rw [if_pos rfl] at hy
      split at hy
      · cases hy; exact ⟨hb1, hb2.trans ha2, fun e => absurd e hbx, fun _ => hrk⟩
      · cases hy
    · rw [if_neg hxy] at hy; exact h.ok _ _ hy
  · intro y hy
    have hr := h.root y hy
    have : x ≠ ro y := by
      intro e
      rw [← e, ha] at hr
      exact hne (Option.some.inj hr)
    rw [List.getElem?_set_ne this]
    exact hr

theorem find_ok {n : Nat} {rk ro : Nat → Nat} {B : Nat} (hB : ∀ x, rk x ≤ B) : ∀ (fuel : Nat) (p : List Nat) (x : Nat),
    Forest n rk ro p → x < n → B < fuel + rk x → ∃ p', find fuel p x = some (p', ro x) ∧ Forest n rk ro p' := by
  intro fuel
  induction fuel with
  | zero => intro p x _ _ hf; have := hB x; omega
  | succ fuel ih =>
    intro p x h hx hf
    obtain ⟨a, ha⟩ := h.get hx
    simp only [find, ha, Option.bind_eq_bind, Option.bind_some]
    by_cases hax : a = x
    · rw [if_pos hax, (h.ok _ _ ha).2.2.1 hax]
      exact ⟨p, rfl, h⟩
    · rw [if_neg hax]
      obtain ⟨b, hb⟩ := h.get (h.ok _ _ ha).1
      obtain ⟨h1, h2, h3, h4⟩ := h.halve ha hax hb
      simp only [hb, Option.bind_some]
      obtain ⟨p', hp, hf'⟩ := ih (p.set x b) b h1 h3 (by omega)
      rw [h4] at hp
      exact ⟨p', hp, hf'⟩

/-- The roots after `c` was put under `r`. -/
def under (ro : Nat → Nat) (c r : Nat) (y : Nat) : Nat := if ro y = c then r else ro y

theorem Forest.link {n : Nat} {rk rk' ro : Nat → Nat} {p : List Nat} (h : Forest n rk ro p) {c r : Nat} (hr : r < n)
    (hcr : c ≠ r) (hroc : ro c = c) (hror : ro r = r) (hup : ∀ y, rk y ≤ rk' y) (hsame : ∀ y, y ≠ r → rk' y = rk y)
    (hlt : rk' c < rk' r) : Forest n rk' (under ro c r) (p.set c r) := by
  refine ⟨by simp [h.len], ?_, ?_, ?_⟩
  · intro y a hy
    rw [List.getElem?_set] at hy
    by_cases hcy : c = y
    · subst hcy
      rw [if_pos rfl] at hy
      split at hy
      · cases hy
        refine ⟨hr, ?_, fun e => absurd e.symm hcr, fun _ => hlt⟩
        simp only [under, hroc, hror, if_true]
        rw [if_neg (Ne.symm hcr)]
      · cases hy
    · rw [if_neg hcy] at hy
      obtain ⟨h1, h2, h3, h4⟩ := h.ok _ _ hy
      refine ⟨h1, by simp only [under, h2], ?_, ?_⟩
      · intro e
        have := h3 e
        simp only [under, this, if_neg (Ne.symm hcy)]
      · intro hne
        have h5 := h4 hne
        have hyr : y ≠ r := by
          intro e
          subst e
          have hyn : y < n := hr
          have := h.root y hyn
          rw [hror, hy] at this
          exact hne (Option.some.inj this)
        rw [hsame y hyr]
        have := hup a
        omega
  · intro y hy
    simp only [under]
    split
    · exact hr
    · exact h.lt y hy
  · intro y hy
    simp only [under]
    split
    · rw [List.getElem?_set_ne hcr]
      have := h.root r hr
      rwa [hror] at this
    · rename_i hne
      rw [List.getElem?_set_ne (Ne.symm hne)]
      exact h.root y hy

/-- Edges within natural numbers. -/
def Nat2 (e : Int × Int) : Prop := 0 ≤ e.1 ∧ 0 ≤ e.2

/-- The rank as a function. -/
def rankOf (u : UF) (x : Nat) : Nat := u.rank[x]?.getD 0

/-- After the edges `done`. -/
structure Good (n : Nat) (es : List (Int × Int)) (B : Nat) (u : UF) (ro : Nat → Nat) : Prop where
  forest : Forest n (rankOf u) ro u.parent
  rlen : u.rank.length = n
  bound : ∀ x, rankOf u x ≤ B
  to_root : ∀ x, x < n → Connected n es x (ro x)
  from_root : ∀ i j, Connected n es i j → ro i = ro j

theorem Good.same {n : Nat} {es : List (Int × Int)} {B : Nat} {u : UF} {ro : Nat → Nat} (h : Good n es B u ro) {i j : Nat} (hi : i < n)
    (hj : j < n) : ro i = ro j ↔ Connected n es i j := by
  constructor
  · intro e
    have h1 := h.to_root i hi
    have h2 := h.to_root j hj
    rw [← e] at h2
    exact .trans _ _ _ h1 (.symm _ _ h2)
  · exact h.from_root i j

theorem connected_mono {n : Nat} {es fs : List (Int × Int)} (h : ∀ i j, Edge n es i j → Edge n fs i j) {i j : Nat}
    (hc : Connected n es i j) : Connected n fs i j := Relation.EqvGen.mono h _ _ hc

theorem edge_append {n : Nat} {es : List (Int × Int)} {a b : Int} {i j : Nat} : Edge n (es ++ [(a, b)]) i j ↔
    Edge n es i j ∨ (i < n ∧ j < n ∧ (i : Int) = a ∧ (j : Int) = b) := by
  simp only [Edge, List.mem_append, List.mem_singleton, Prod.mk.injEq]
  constructor
  · rintro ⟨h1, h2, h3 | h3⟩
    · exact .inl ⟨h1, h2, h3⟩
    · exact .inr ⟨h1, h2, h3.1, h3.2⟩
  · rintro (⟨h1, h2, h3⟩ | ⟨h1, h2, h3⟩)
    · exact ⟨h1, h2, .inl h3⟩
    · exact ⟨h1, h2, .inr h3⟩

/-- An edge that names no node changes nothing. -/
theorem Good.skip {n : Nat} {es : List (Int × Int)} {B : Nat} {u : UF} {ro : Nat → Nat} (h : Good n es B u ro) {a b : Int}
    (hab : Nat2 (a, b)) (hout : ¬ (asUsize a < n ∧ asUsize b < n)) : Good n (es ++ [(a, b)]) B u ro := by
  have he : ∀ i j, Edge n (es ++ [(a, b)]) i j ↔ Edge n es i j := by
    intro i j
    rw [edge_append]
    constructor
    · rintro (h | ⟨h1, h2, rfl, rfl⟩)
      · exact h
      · exact absurd ⟨h1, h2⟩ hout
    · exact .inl
  exact ⟨h.forest, h.rlen, h.bound, fun x hx => connected_mono (fun i j => (he i j).2) (h.to_root x hx),
    fun i j hc => h.from_root i j (connected_mono (fun i j => (he i j).1) hc)⟩

theorem to_from {a : Int} (h : 0 ≤ a) : ((asUsize a : Nat) : Int) = a := Int.toNat_of_nonneg h

/-- An edge within a component changes nothing. -/
theorem Good.within {n : Nat} {es : List (Int × Int)} {B : Nat} {u : UF} {ro : Nat → Nat} (h : Good n es B u ro) {a b : Int}
    (hab : Nat2 (a, b)) (he : ro (asUsize a) = ro (asUsize b)) {p : List Nat} (hp : Forest n (rankOf u) ro p) :
    Good n (es ++ [(a, b)]) B { u with parent := p } ro := by
  refine ⟨hp, h.rlen, h.bound, fun x hx => connected_mono (fun i j hij => edge_append.2 (.inl hij)) (h.to_root x hx), ?_⟩
  intro i j hc
  induction hc with
  | rel x y hxy =>
    rcases edge_append.1 hxy with h1 | ⟨_, _, h1, h2⟩
    · exact h.from_root x y (.rel _ _ h1)
    · have hx : x = asUsize a := by have : ((asUsize a : Nat) : Int) = a := to_from hab.1; omega
      have hy : y = asUsize b := by have : ((asUsize b : Nat) : Int) = b := to_from hab.2; omega
      rw [hx, hy]; exact he
  | refl x => rfl
  | symm x y _ ih => exact ih.symm
  | trans x y z _ _ ih1 ih2 => exact ih1.trans ih2

theorem under_eq {ro : Nat → Nat} {c r x y : Nat} (h : ro x = ro y) : under ro c r x = under ro c r y := by simp only [under, h]

/-- Two components are joined. -/
theorem Good.join {n : Nat} {es : List (Int × Int)} {B : Nat} {u u' : UF} {ro : Nat → Nat} (h : Good n es B u ro) {a b : Int}
    (hab : Nat2 (a, b)) (ha : asUsize a < n) (hb : asUsize b < n) {c r : Nat}
    (hcr : (c = ro (asUsize a) ∧ r = ro (asUsize b)) ∨ (c = ro (asUsize b) ∧ r = ro (asUsize a)))
    (hforest : Forest n (rankOf u') (under ro c r) u'.parent) (hrlen : u'.rank.length = n) {B' : Nat} (hbound : ∀ x, rankOf u' x ≤ B') :
    Good n (es ++ [(a, b)]) B' u' (under ro c r) := by
  have hup : ∀ i j, Connected n es i j → Connected n (es ++ [(a, b)]) i j := fun i j hc =>
    connected_mono (fun i j hij => edge_append.2 (.inl hij)) hc
  have hnew : Connected n (es ++ [(a, b)]) (asUsize a) (asUsize b) :=
    .rel _ _ (edge_append.2 (.inr ⟨ha, hb, to_from hab.1, to_from hab.2⟩))
  have hjoin : Connected n (es ++ [(a, b)]) c r := by
    have h1 := hup _ _ (h.to_root _ ha)
    have h2 := hup _ _ (h.to_root _ hb)
    rcases hcr with ⟨rfl, rfl⟩ | ⟨rfl, rfl⟩
    · exact .trans _ _ _ (.symm _ _ h1) (.trans _ _ _ hnew h2)
    · exact .trans _ _ _ (.symm _ _ h2) (.trans _ _ _ (.symm _ _ hnew) h1)
  refine ⟨hforest, hrlen, hbound, ?_, ?_⟩
  · intro x hx
    have h1 := hup _ _ (h.to_root x hx)
    simp only [under]
    split
    · rename_i e; rw [e] at h1; exact .trans _ _ _ h1 hjoin
    · exact h1
  · intro i j hc
    induction hc with
    | rel x y hxy =>
      rcases edge_append.1 hxy with h1 | ⟨_, _, h1, h2⟩
      · exact under_eq (h.from_root x y (.rel _ _ h1))
      · have hx : x = asUsize a := by have : ((asUsize a : Nat) : Int) = a := to_from hab.1; omega
        have hy : y = asUsize b := by have : ((asUsize b : Nat) : Int) = b := to_from hab.2; omega
        subst hx; subst hy
        simp only [under]
        rcases hcr with ⟨rfl, rfl⟩ | ⟨rfl, rfl⟩
        · rw [if_pos rfl]; split <;> rfl
        · rw [if_pos rfl]; split <;> rfl
    | refl x => rfl
    | symm x y _ ih => exact ih.symm
    | trans x y z _ _ ih1 ih2 => exact ih1.trans ih2

theorem link_ok {n : Nat} {es : List (Int × Int)} {B : Nat} {u : UF} {ro : Nat → Nat} (h : Good n es B u ro) {a b : Int}
    (hab : Nat2 (a, b)) (ha : asUsize a < n) (hb : asUsize b < n) (hne : ro (asUsize a) ≠ ro (asUsize b)) {p : List Nat}
    (hp : Forest n (rankOf u) ro p) :
    ∃ u' c r, link { u with parent := p } (ro (asUsize a)) (ro (asUsize b)) = some u' ∧
      Good n (es ++ [(a, b)]) (B + 1) u' (under ro c r) ∧ c < n ∧ ro c = c ∧ ro r = r ∧ c ≠ r := by
  have hra := hp.lt _ ha
  have hrb := hp.lt _ hb
  have hroa := hp.ro_ro ha
  have hrob := hp.ro_ro hb
  generalize hx : ro (asUsize a) = x at *
  generalize hy : ro (asUsize b) = y at *
  have hgx : u.rank[x]? = some (rankOf u x) := by
    rw [rankOf, List.getElem?_eq_getElem (by rw [h.rlen]; exact hra)]; rfl
  have hgy : u.rank[y]? = some (rankOf u y) := by
    rw [rankOf, List.getElem?_eq_getElem (by rw [h.rlen]; exact hrb)]; rfl
  simp only [link, hgx, hgy, Option.bind_eq_bind, Option.bind_some]
  by_cases h1 : rankOf u x < rankOf u y
  · rw [if_pos h1]
    refine ⟨_, x, y, rfl, ?_, hra, hroa, hrob, hne⟩
    refine h.join (u' := ⟨p.set x y, u.rank⟩) hab ha hb (.inl ⟨hx.symm, hy.symm⟩) ?_ h.rlen (fun z => Nat.le_succ_of_le (h.bound z))
    exact hp.link hrb hne hroa hrob (fun _ => Nat.le_refl _) (fun _ _ => rfl) h1
  · rw [if_neg h1]
    by_cases h2 : rankOf u y < rankOf u x
    · rw [if_pos h2]
      refine ⟨_, y, x, rfl, ?_, hrb, hrob, hroa, hne.symm⟩
      refine h.join (u' := ⟨p.set y x, u.rank⟩) hab ha hb (.inr ⟨hy.symm, hx.symm⟩) ?_ h.rlen (fun z => Nat.le_succ_of_le (h.bound z))
      exact hp.link hra hne.symm hrob hroa (fun _ => Nat.le_refl _) (fun _ _ => rfl) h2
    · rw [if_neg h2]
      have hrank : ∀ z, rankOf ⟨p.set y x, u.rank.set x (rankOf u x + 1)⟩ z = if z = x then rankOf u x + 1 else rankOf u z := by
        intro z
        simp only [rankOf, List.getElem?_set]
        by_cases hz : x = z
        · subst hz
          rw [if_pos rfl, if_pos (by rw [h.rlen]; exact hra), if_pos rfl]; rfl
        · rw [if_neg hz, if_neg (Ne.symm hz)]
      refine ⟨_, y, x, rfl, ?_, hrb, hrob, hroa, hne.symm⟩
      refine h.join hab ha hb (.inr ⟨hy.symm, hx.symm⟩) ?_ (by simp [h.rlen]) ?_
      · refine hp.link hra hne.symm hrob hroa ?_ ?_ ?_
        · intro z; rw [hrank]; split
          · rename_i e; subst e; omega
          · exact Nat.le_refl _
        · intro z hz; rw [hrank, if_neg hz]
        · rw [hrank, hrank, if_neg hne.symm, if_pos rfl]; omega
      · intro z
        rw [hrank]
        have := h.bound x
        have := h.bound z
        split <;> omega

theorem start_good (n : Nat) : Good n [] 0 ⟨List.range n, List.replicate n 0⟩ id := by
  have hrk : ∀ x, rankOf ⟨List.range n, List.replicate n 0⟩ x = 0 := by
    intro x
    simp only [rankOf, List.getElem?_replicate]
    split <;> rfl
  refine ⟨⟨by simp, ?_, fun x h => h, ?_⟩, by simp, fun x => Nat.le_of_eq (hrk x), fun x _ => .refl _, ?_⟩
  · intro x a ha
    rw [List.getElem?_eq_some_iff] at ha
    obtain ⟨h1, h2⟩ := ha
    rw [List.getElem_range] at h2
    subst h2
    exact ⟨by simpa using h1, rfl, fun _ => rfl, fun h => absurd rfl h⟩
  · intro x hx
    simp only [id]
    rw [List.getElem?_range hx]
  · intro i j hc
    induction hc with
    | rel x y h => exact absurd h.2.2 (by simp)
    | refl x => rfl
    | symm x y _ ih => exact ih.symm
    | trans x y z _ _ ih1 ih2 => exact ih1.trans ih2

theorem union_ok {n : Nat} {es : List (Int × Int)} {B : Nat} {u : UF} {ro : Nat → Nat} (h : Good n es B u ro) {a b : Int}
    (hab : Nat2 (a, b)) (ha : asUsize a < n) (hb : asUsize b < n) {fuel : Nat} (hf : B < fuel) :
    ∃ u' ro', union fuel u (asUsize a) (asUsize b) = some u' ∧ Good n (es ++ [(a, b)]) (B + 1) u' ro' := by
  obtain ⟨p1, h1, hp1⟩ := find_ok h.bound fuel u.parent _ h.forest ha (by omega)
  obtain ⟨p2, h2, hp2⟩ := find_ok h.bound fuel p1 _ hp1 hb (by omega)
  simp only [union, h1, h2, Option.bind_eq_bind, Option.bind_some]
  by_cases he : ro (asUsize a) = ro (asUsize b)
  · rw [if_neg (by simpa using he)]
    have := h.within hab he hp2
    exact ⟨_, ro, rfl, this.forest, this.rlen, fun x => Nat.le_succ_of_le (this.bound x), this.to_root, this.from_root⟩
  · rw [if_pos he]
    obtain ⟨u', c, r, hl, hg, _⟩ := link_ok h hab ha hb he hp2
    exact ⟨u', _, hl, hg⟩

theorem Good.up {n : Nat} {es : List (Int × Int)} {B : Nat} {u : UF} {ro : Nat → Nat} (h : Good n es B u ro) : Good n es (B + 1) u ro :=
  ⟨h.forest, h.rlen, fun x => Nat.le_succ_of_le (h.bound x), h.to_root, h.from_root⟩

theorem unions_ok {n fuel : Nat} : ∀ (es done : List (Int × Int)) (u : UF) (ro : Nat → Nat), (∀ e ∈ es, Nat2 e) →
    Good n done done.length u ro → done.length + es.length < fuel + 1 →
    ∃ u' ro', unions fuel n es u = some u' ∧ Good n (done ++ es) (done ++ es).length u' ro'
  | [], done, u, ro, _, h, _ => ⟨u, ro, rfl, by simpa using h⟩
  | (a, b) :: es, done, u, ro, hn, h, hf => by
    simp only [List.length_cons] at hf
    have hab := hn (a, b) (List.mem_cons_self ..)
    have hstep : ∃ u1 ro1, (if asUsize a < n ∧ asUsize b < n then union fuel u (asUsize a) (asUsize b) else some u) = some u1 ∧
        Good n (done ++ [(a, b)]) (done ++ [(a, b)]).length u1 ro1 := by
      rw [List.length_append]
      by_cases hin : asUsize a < n ∧ asUsize b < n
      · rw [if_pos hin]
        exact union_ok h hab hin.1 hin.2 (show done.length < fuel by omega)
      · rw [if_neg hin]
        exact ⟨u, ro, rfl, (h.skip hab hin).up⟩
    obtain ⟨u1, ro1, h1, hg1⟩ := hstep
    obtain ⟨u2, ro2, h2, hg2⟩ := unions_ok (fuel := fuel) es (done ++ [(a, b)]) u1 ro1 (fun e he => hn e (List.mem_cons_of_mem _ he)) hg1
      (by simp only [List.length_append, List.length_cons, List.length_nil]; omega)
    refine ⟨u2, ro2, ?_, by simpa using hg2⟩
    simp only [unions, Option.bind_eq_bind]
    by_cases hin : asUsize a < n ∧ asUsize b < n
    · rw [if_pos hin] at h1 ⊢
      rw [h1]
      exact h2
    · rw [if_neg hin] at h1 ⊢
      cases h1
      exact h2

theorem labels_ok {n : Nat} {rk ro : Nat → Nat} {B fuel : Nat} (hB : ∀ x, rk x ≤ B) (hf : B < fuel) : ∀ (is : List Nat) (p : List Nat),
    Forest n rk ro p → (∀ i ∈ is, i < n) → labels fuel is p = some (is.map ro)
  | [], _, _, _ => rfl
  | i :: is, p, h, hi => by
    obtain ⟨p1, h1, hp1⟩ := find_ok hB fuel p i h (hi i (List.mem_cons_self ..)) (by omega)
    simp only [labels, h1, Option.bind_eq_bind, Option.bind_some,
      labels_ok hB hf is p1 hp1 (fun j hj => hi j (List.mem_cons_of_mem _ hj)), List.map_cons]

theorem pairs_lists : ∀ es, pairs (lists es) = es
  | [] => rfl
  | e :: es => by
    have := pairs_lists es
    simp only [pairs, lists] at this
    simp only [pairs, lists, List.map_cons, List.flatten_cons, List.cons_append, List.nil_append, chunks, this]

/-! ## Components -/

/-- The roots are as many as the components. -/
theorem count_roots {n : Nat} {es : List (Int × Int)} {B : Nat} {u : UF} {ro : Nat → Nat} (h : Good n es B u ro) :
    components n es = ((Finset.range n).filter fun i => ro i = i).card := by
  classical
  unfold components
  refine Finset.card_bij (fun i _ => ro i) ?_ ?_ ?_
  · intro i hi
    simp only [Finset.mem_filter, Finset.mem_range] at hi ⊢
    exact ⟨h.forest.lt i hi.1, h.forest.ro_ro hi.1⟩
  · intro i hi j hj he
    simp only [Finset.mem_filter, Finset.mem_range] at hi hj
    have hc := (h.same hi.1 hj.1).1 he
    rcases Nat.lt_trichotomy i j with hlt | heq | hlt
    · exact absurd hc (hj.2 i hlt)
    · exact heq
    · exact absurd (.symm _ _ hc) (hi.2 j hlt)
  · intro x hx
    simp only [Finset.mem_filter, Finset.mem_range] at hx
    have hne : ∃ y, Connected n es y x := ⟨x, .refl _⟩
    have hfind := Nat.find_spec hne
    have hle : Nat.find hne ≤ x := Nat.find_min' hne (.refl _)
    refine ⟨Nat.find hne, ?_, ?_⟩
    · simp only [Finset.mem_filter, Finset.mem_range]
      exact ⟨by omega, fun j hj hc => Nat.find_min hne hj (.trans _ _ _ hc hfind)⟩
    · rw [h.from_root _ _ hfind, hx.2]

theorem count_join {n : Nat} {ro : Nat → Nat} {c r : Nat} (hc : c < n) (hroc : ro c = c) (hror : ro r = r) (hcr : c ≠ r) :
    ((Finset.range n).filter fun i => under ro c r i = i).card + 1 = ((Finset.range n).filter fun i => ro i = i).card := by
  have : ((Finset.range n).filter fun i => under ro c r i = i) = ((Finset.range n).filter fun i => ro i = i).erase c := by
    apply Finset.ext
    intro i
    rw [Finset.mem_filter, Finset.mem_erase, Finset.mem_filter, Finset.mem_range]
    simp only [under]
    constructor
    · rintro ⟨h1, h2⟩
      split at h2
      · rename_i e
        exfalso
        subst h2
        rw [hror] at e
        exact hcr e.symm
      · rename_i e
        refine ⟨?_, h1, h2⟩
        rintro rfl
        exact e h2
    · rintro ⟨h1, h2, h3⟩
      refine ⟨h2, ?_⟩
      rw [if_neg (by rw [h3]; exact h1)]
      exact h3
  rw [this]
  exact Finset.card_erase_add_one (by simp [hc, hroc])

/-- What one turn of the loop may add. -/
def Chosen (n : Nat) (all : List (Int × Int)) (k c : Nat) : Prop :=
  ∃ i j : Nat, i < n ∧ j < n ∧ all[k]? = some ((i : Int), (j : Int)) ∧ ¬ Connected n (all.take k) i j ∧ c = components n (all.take (k + 1))

theorem merges_ok {n fuel : Nat} : ∀ (es done : List (Int × Int)) (u : UF) (ro : Nat → Nat) (count : Nat), (∀ e ∈ es, Nat2 e) →
    Good n done done.length u ro → done.length + es.length < fuel + 1 → count = components n done →
    ∃ out, merges fuel n done.length es u count = some out ∧ out.Pairwise (fun x y => x.1 < y.1) ∧
      ∀ k c, (k, c) ∈ out ↔ done.length ≤ k ∧ Chosen n (done ++ es) k c
  | [], done, u, ro, count, _, h, _, _ => by
    refine ⟨[], rfl, .nil, fun k c => ⟨(fun h => by cases h), ?_⟩⟩
    rintro ⟨hk, i, j, _, _, hg, _⟩
    have := (List.getElem?_eq_some_iff.1 hg).1
    simp only [List.append_nil] at this
    omega
  | (a, b) :: es, done, u, ro, count, hn, h, hf, hc => by
    simp only [List.length_cons] at hf
    have hab := hn (a, b) (List.mem_cons_self ..)
    have hlen : (done ++ [(a, b)]).length = done.length + 1 := by simp
    have happ : done ++ (a, b) :: es = (done ++ [(a, b)]) ++ es := by simp
    have hat : (done ++ (a, b) :: es)[done.length]? = some (a, b) := by simp
    have htake : (done ++ (a, b) :: es).take done.length = done := by simp
    have htake1 : (done ++ (a, b) :: es).take (done.length + 1) = done ++ [(a, b)] := by
      rw [happ, ← hlen, List.take_left]
    -- the rest of the loop
    have hrest : ∀ u1 ro1 count1, Good n (done ++ [(a, b)]) (done.length + 1) u1 ro1 → count1 = components n (done ++ [(a, b)]) →
        ∃ out, merges fuel n (done.length + 1) es u1 count1 = some out ∧ out.Pairwise (fun x y => x.1 < y.1) ∧
          ∀ k c, (k, c) ∈ out ↔ done.length + 1 ≤ k ∧ Chosen n (done ++ (a, b) :: es) k c := by
      intro u1 ro1 count1 hg hcount
      rw [← hlen] at hg
      obtain ⟨out, h1, h2, h3⟩ := merges_ok (fuel := fuel) es (done ++ [(a, b)]) u1 ro1 count1 (fun e he => hn e (List.mem_cons_of_mem _ he)) hg
        (by rw [hlen]; omega) hcount
      rw [hlen] at h1 h3
      rw [happ]
      exact ⟨out, h1, h2, h3⟩
    -- a turn that adds nothing
    have hskip : ¬ (∃ c, Chosen n (done ++ (a, b) :: es) done.length c) → ∀ u1 ro1, Good n (done ++ [(a, b)]) (done.length + 1) u1 ro1 →
        components n (done ++ [(a, b)]) = count →
        ∃ out, merges fuel n (done.length + 1) es u1 count = some out ∧ out.Pairwise (fun x y => x.1 < y.1) ∧
          ∀ k c, (k, c) ∈ out ↔ done.length ≤ k ∧ Chosen n (done ++ (a, b) :: es) k c := by
      intro hno u1 ro1 hg hcount
      obtain ⟨out, h1, h2, h3⟩ := hrest u1 ro1 count hg hcount.symm
      refine ⟨out, h1, h2, fun k c => ?_⟩
      rw [h3]
      constructor
      · rintro ⟨hk, hch⟩; exact ⟨by omega, hch⟩
      · rintro ⟨hk, hch⟩
        refine ⟨?_, hch⟩
        rcases Nat.lt_or_ge done.length k with h | h
        · exact h
        · have : k = done.length := by omega
          subst this
          exact absurd ⟨c, hch⟩ hno
    have hij : ∀ i j : Nat, (done ++ (a, b) :: es)[done.length]? = some ((i : Int), (j : Int)) → i = asUsize a ∧ j = asUsize b := by
      intro i j hg
      rw [hat] at hg
      simp only [Option.some.injEq, Prod.mk.injEq] at hg
      have : ((asUsize a : Nat) : Int) = a := to_from hab.1
      have : ((asUsize b : Nat) : Int) = b := to_from hab.2
      exact ⟨by omega, by omega⟩
    simp only [merges]
    by_cases hin : asUsize a < n ∧ asUsize b < n
    · rw [if_pos hin]
      obtain ⟨p1, h1, hp1⟩ := find_ok h.bound fuel u.parent _ h.forest hin.1 (by omega)
      obtain ⟨p2, h2, hp2⟩ := find_ok h.bound fuel p1 _ hp1 hin.2 (by omega)
      simp only [h1, h2, Option.bind_eq_bind, Option.bind_some]
      by_cases he : ro (asUsize a) = ro (asUsize b)
      · rw [if_neg (by simpa using he)]
        have hg := h.within hab he hp2
        refine hskip ?_ _ ro hg.up ?_
        · rintro ⟨c, i, j, _, _, hg, hnc, _⟩
          obtain ⟨rfl, rfl⟩ := hij i j hg
          rw [htake] at hnc
          exact hnc ((h.same hin.1 hin.2).1 he)
        · rw [hc, count_roots hg, count_roots h]
      · rw [if_pos he]
        obtain ⟨u', c, r, hl, hg, hcn, hroc, hror, hcr⟩ := link_ok h hab hin.1 hin.2 he hp2
        have hcount : components n (done ++ [(a, b)]) + 1 = count := by
          rw [hc, count_roots hg, count_roots h]
          exact count_join hcn hroc hror hcr
        have hpos : ¬ count = 0 := by omega
        simp only [hl, Option.bind_some, if_neg hpos]
        obtain ⟨out, h3, h4, h5⟩ := hrest u' _ (count - 1) hg (by omega)
        simp only [h3, Option.bind_some]
        refine ⟨_, rfl, .cons ?_ h4, ?_⟩
        · intro y hy
          have := (h5 y.1 y.2).1 hy
          exact this.1
        · intro k c'
          rw [List.mem_cons, h5]
          constructor
          · rintro (hkc | ⟨hk, hch⟩)
            · cases hkc
              exact ⟨Nat.le_refl _, _, _, hin.1, hin.2, by rw [hat]; exact congrArg some (Prod.ext (to_from hab.1).symm (to_from hab.2).symm),
                by rw [htake]; exact fun hcon => he (h.from_root _ _ hcon), by rw [htake1]; omega⟩
            · exact ⟨by omega, hch⟩
          · rintro ⟨hk, hch⟩
            rcases Nat.lt_or_ge done.length k with hlt | hge
            · exact .inr ⟨hlt, hch⟩
            · have : k = done.length := by omega
              subst this
              obtain ⟨i, j, _, _, _, _, hcc⟩ := hch
              rw [htake1] at hcc
              left
              rw [hcc]
              congr 1
              omega
    · rw [if_neg hin]
      refine hskip ?_ u ro (h.skip hab hin).up ?_
      · rintro ⟨c, i, j, hi, hj, hg, _⟩
        obtain ⟨rfl, rfl⟩ := hij i j hg
        exact hin ⟨hi, hj⟩
      · rw [hc, count_roots (h.skip hab hin), count_roots h]

end Verif.Graph
