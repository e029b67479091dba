import Verif.PruneLemmas

/-! Helper lemmas about pruning: marking reaches everything that is referred to. -/

namespace Verif.Prune

open Verif.Core

/-! ## Statements -/

/-- Marked as reached. -/
def Active (st : St) (p : Path) : Prop := st.seen p = .seen ∨ st.seen p = .traversed

/-- On the way to the body of the unit. -/
def Top (p : Path) : Prop := ∀ s ∈ p, s = .body ∨ s = .part 0

/-- In something reached, or on the way to the body of the unit. -/
def Hot (st : St) (p : Path) : Prop := Top p ∨ ∃ a, a <:+ p ∧ Active st a

/-- The fallback is the object, a variable. -/
def selfFallback : Option (List Scope × Core) → Prop
  | some (_, .node (.lookup _) (o :: f :: _)) => ∃ r, boundVar o = some r ∧ boundVar f = some r
  | _ => False

/-- A variable that is handled as part of a lookup. -/
def Exempt (root : Core) : Path → Prop
  | .obj :: _ => True
  | .fb :: p => selfFallback (subAt root p)
  | _ => False

/-- What a reference at a node is to is marked. -/
structure Handled (root : Core) (st : St) (q : Path) : Prop where
  bare : ∀ sc s i n t, subAt root q = some (sc, .var (.bound s i n)) → ¬ Exempt root q →
    target sc s i = some (some t) → st.seen t ≠ .unseen ∧ st.disq t = true
  look : ∀ sc m o fs s i t, subAt root q = some (sc, .node (.lookup m) (o :: fs)) → boundVar o = some (s, i) →
    target sc s i = some (some t) → st.seen t ≠ .unseen ∧
      ∀ sc' v, subAt root t = some (sc', v) → isDefaultLet v = true → st.disq t = true ∨ m ∈ st.acc t

def CoveredAt (root : Core) (st : St) (p : Path) : Prop := ∀ q, p <:+ q → Handled root st q

theorem CoveredAt.sub {root : Core} {st : St} {p q : Path} (h : CoveredAt root st p) (hq : p <:+ q) :
    CoveredAt root st q := fun _ hr => h _ (hq.trans hr)

/-- Marks are only added. -/
structure Mono (st st' : St) : Prop where
  marked : ∀ q, st.seen q ≠ .unseen → st'.seen q ≠ .unseen
  active : ∀ q, Active st q → Active st' q
  soft : ∀ q, st.seen q = .soft → st'.seen q = .soft
  disq : ∀ q, st.disq q = true → st'.disq q = true
  acc : ∀ q m, m ∈ st.acc q → m ∈ st'.acc q
  reg : ∀ q, st.cand q = true ∨ st.disq q = true → st'.cand q = true ∨ st'.disq q = true
  count : st.count ≤ st'.count
  quiet : st'.count = st.count → ∀ q, st.seen q = .unseen → st'.seen q = .unseen

theorem Mono.refl (st : St) : Mono st st :=
  ⟨fun _ h => h, fun _ h => h, fun _ h => h, fun _ h => h, fun _ _ h => h, fun _ h => h, Nat.le_refl _, fun _ _ h => h⟩

theorem Mono.trans {a b c : St} (h : Mono a b) (h' : Mono b c) : Mono a c := by
  refine ⟨fun _ x => h'.marked _ (h.marked _ x), fun _ x => h'.active _ (h.active _ x), fun _ x => h'.soft _ (h.soft _ x),
    fun _ x => h'.disq _ (h.disq _ x), fun _ _ x => h'.acc _ _ (h.acc _ _ x), fun _ x => h'.reg _ (h.reg _ x),
    Nat.le_trans h.count h'.count, ?_⟩
  intro hc q hq
  have h1 := h.count
  have h2 := h'.count
  exact h'.quiet (by omega) q (h.quiet (by omega) q hq)

theorem Handled.mono {root : Core} {st st' : St} (h : Mono st st') {q : Path} (hq : Handled root st q) :
    Handled root st' q := by
  constructor
  · intro sc s i n t h1 h2 h3
    obtain ⟨g1, g2⟩ := hq.bare sc s i n t h1 h2 h3
    exact ⟨h.marked _ g1, h.disq _ g2⟩
  · intro sc m o fs s i t h1 h2 h3
    obtain ⟨g1, g2⟩ := hq.look sc m o fs s i t h1 h2 h3
    exact ⟨h.marked _ g1, fun sc' v h4 h5 => (g2 sc' v h4 h5).imp (h.disq _) (h.acc _ _)⟩

theorem CoveredAt.mono {root : Core} {st st' : St} (h : Mono st st') {q : Path} (hq : CoveredAt root st q) :
    CoveredAt root st' q := fun r hr => (hq r hr).mono h

theorem Hot.mono {st st' : St} (h : Mono st st') {q : Path} (hq : Hot st q) : Hot st' q :=
  hq.imp id fun ⟨a, h1, h2⟩ => ⟨a, h1, h.active _ h2⟩

/-- Where the marks are. -/
structure Inv (root : Core) (st : St) : Prop where
  place : ∀ x, Active st x → Top x ∨ (∃ p, x = .part 1 :: p ∧ Top p) ∨ ∃ i p, x = .bind i :: p ∧ Hot st p
  soft : ∀ x, st.seen x = .soft → Hot st x
  cov : ∀ x, st.seen x = .traversed → CoveredAt root st x
  dis : ∀ x, st.disq x = true → st.cand x = false

theorem Top.suffix {p q : Path} (h : Top p) (hq : q <:+ p) : Top q := fun s hs => h s (hq.subset hs)

theorem not_top_bind {i : Nat} {p : Path} : ¬ Top (.bind i :: p) := fun h => by
  cases h (.bind i) (by simp) <;> contradiction

theorem suffix_total {a b c : Path} (h : a <:+ c) (h' : b <:+ c) : a <:+ b ∨ b <:+ a :=
  List.suffix_or_suffix_of_suffix h h'

/-- What encloses something reached is reached itself, or on the way to the body. -/
theorem hot_up {root : Core} {st : St} (hi : Inv root st) : ∀ (n : Nat) (x L : Path), x.length ≤ n → Active st x →
    L <:+ x → Hot st L := by
  intro n
  induction n with
  | zero =>
    intro x L hx _ hL
    have : x = [] := by cases x <;> simp_all
    subst this
    have : L = [] := List.suffix_nil.1 hL
    subst this
    exact .inl fun s hs => by simp at hs
  | succ n ih =>
    intro x L hx ha hL
    rcases hi.place x ha with h | ⟨p, rfl, h⟩ | ⟨i, p, rfl, h⟩
    · exact .inl (h.suffix hL)
    · rcases List.suffix_cons_iff.1 hL with rfl | hL
      · exact .inr ⟨_, List.suffix_refl _, ha⟩
      · exact .inl (h.suffix hL)
    · rcases List.suffix_cons_iff.1 hL with rfl | hL
      · exact .inr ⟨_, List.suffix_refl _, ha⟩
      · rcases h with h | ⟨a, h1, h2⟩
        · exact .inl (h.suffix hL)
        · rcases suffix_total h1 hL with g | g
          · exact .inr ⟨a, g, h2⟩
          · refine ih a L ?_ h2 g
            have := h1.length_le
            simp at hx
            omega

/-- What encloses something hot is hot. -/
theorem Hot.up {root : Core} {st : St} (hi : Inv root st) {x L : Path} (h : Hot st x) (hL : L <:+ x) : Hot st L := by
  rcases h with h | ⟨a, h1, h2⟩
  · exact .inl (h.suffix hL)
  · rcases suffix_total h1 hL with g | g
    · exact .inr ⟨a, g, h2⟩
    · exact hot_up hi _ a L (Nat.le_refl _) h2 g

/-! ## Single steps -/

/-- The nodes that are not marked. -/
def measure (root : Core) (st : St) : Nat := (nodes [] root).countP fun p => decide (st.seen p = .unseen)

/-- A step of the traversal. -/
structure Good (root : Core) (st st' : St) : Prop where
  mono : Mono st st'
  inv : Inv root st'
  meas : measure root st' + st'.count ≤ measure root st + st.count

theorem Good.refl {root : Core} {st : St} (h : Inv root st) : Good root st st := ⟨.refl _, h, Nat.le_refl _⟩

theorem Good.trans {root : Core} {a b c : St} (h : Good root a b) (h' : Good root b c) : Good root a c :=
  ⟨h.mono.trans h'.mono, h'.inv, Nat.le_trans h'.meas h.meas⟩

theorem countP_lt {α : Type} {p q : α → Bool} {l : List α} (h : ∀ x ∈ l, p x = true → q x = true) {y : α} (hy : y ∈ l)
    (h1 : q y = true) (h2 : p y = false) : l.countP p + 1 ≤ l.countP q := by
  induction l with
  | nil => simp at hy
  | cons x xs ih =>
    simp only [List.countP_cons]
    have hle : xs.countP p ≤ xs.countP q := List.countP_mono_left fun z hz => h z (by simp [hz])
    rcases List.mem_cons.1 hy with rfl | hy
    · simp [h1, h2]; exact hle
    · have := ih (fun z hz => h z (by simp [hz])) hy
      have hx := h x (by simp)
      split <;> split <;> simp_all <;> omega

theorem mono_mark (st : St) (q : Path) : Mono st (st.mark q) := by
  unfold St.mark
  split
  · rename_i hu
    refine ⟨?_, ?_, ?_, fun _ h => h, fun _ _ h => h, fun _ h => h, by simp, ?_⟩
    · intro x hx; simp only [St.set]; split <;> simp_all
    · intro x hx; simp only [Active, St.set] at *; split <;> simp_all
    · intro x hx; simp only [St.set]; split <;> simp_all
    · intro hc; simp at hc
  · exact .refl _

theorem mono_markSoft (st : St) (q : Path) : Mono st (st.markSoft q) := by
  unfold St.markSoft
  split
  · rename_i hu
    refine ⟨?_, ?_, ?_, fun _ h => h, fun _ _ h => h, fun _ h => h, by simp, ?_⟩
    · intro x hx; simp only [St.set]; split <;> simp_all
    · intro x hx; simp only [Active, St.set] at *; split <;> simp_all
    · intro x hx; simp only [St.set]; split <;> simp_all
    · intro hc; simp at hc
  · exact .refl _

theorem meas_set {root : Core} {st : St} {q : Path} {s : Seen} (hq : q ∈ nodes [] root) (hu : st.seen q = .unseen)
    (hs : s ≠ .unseen) : measure root (st.set q s) + 1 ≤ measure root st := by
  refine countP_lt ?_ hq ?_ ?_
  · intro x _ hx
    simp only [St.set, decide_eq_true_eq] at *
    split at hx <;> simp_all
  · simpa using hu
  · simpa [St.set] using hs

theorem good_mark {root : Core} {st : St} (hi : Inv root st) {q : Path} (hq : q ∈ nodes [] root)
    (hp : Top q ∨ (∃ p, q = .part 1 :: p ∧ Top p) ∨ ∃ i p, q = .bind i :: p ∧ Hot st p) : Good root st (st.mark q) := by
  have hm := mono_mark st q
  refine ⟨hm, ?_, ?_⟩
  · refine ⟨?_, ?_, ?_, ?_⟩
    · intro x hx
      have hx' : x = q ∨ Active st x := by
        unfold St.mark at hx
        split at hx
        · simp only [Active, St.set] at hx
          split at hx
          · rename_i h; exact .inl h
          · exact .inr hx
        · exact .inr hx
      have key : Top x ∨ (∃ p, x = .part 1 :: p ∧ Top p) ∨ ∃ i p, x = .bind i :: p ∧ Hot st p := by
        rcases hx' with rfl | hx'
        · exact hp
        · exact hi.place x hx'
      exact key.imp id (Or.imp id fun ⟨i, p, h1, h2⟩ => ⟨i, p, h1, h2.mono hm⟩)
    · intro x hx
      refine (hi.soft x ?_).mono hm
      unfold St.mark at hx
      split at hx
      · simp only [St.set] at hx
        split at hx <;> simp_all
      · exact hx
    · intro x hx
      refine (hi.cov x ?_).mono hm
      unfold St.mark at hx
      split at hx
      · simp only [St.set] at hx
        split at hx <;> simp_all
      · exact hx
    · intro x hx
      unfold St.mark at hx ⊢
      split at hx
      · rw [if_pos ‹_›]; exact hi.dis x hx
      · rw [if_neg ‹_›]; exact hi.dis x hx
  · unfold St.mark
    split
    · rename_i hu
      have := meas_set hq hu (s := .seen) (by simp)
      simp only [measure, St.set] at *
      omega
    · exact Nat.le_refl _

theorem good_markSoft {root : Core} {st : St} (hi : Inv root st) {q : Path} (hq : q ∈ nodes [] root)
    (hp : Hot st q) : Good root st (st.markSoft q) := by
  have hm := mono_markSoft st q
  refine ⟨hm, ?_, ?_⟩
  · refine ⟨?_, ?_, ?_, ?_⟩
    · intro x hx
      have hx' : Active st x := by
        unfold St.markSoft at hx
        split at hx
        · simp only [Active, St.set] at hx
          split at hx
          · simp at hx
          · exact hx
        · exact hx
      exact (hi.place x hx').imp id (Or.imp id fun ⟨i, p, h1, h2⟩ => ⟨i, p, h1, h2.mono hm⟩)
    · intro x hx
      refine Hot.mono hm ?_
      unfold St.markSoft at hx
      split at hx
      · simp only [St.set] at hx
        split at hx
        · rename_i h; subst h; exact hp
        · exact hi.soft x hx
      · exact hi.soft x hx
    · intro x hx
      refine (hi.cov x ?_).mono hm
      unfold St.markSoft at hx
      split at hx
      · simp only [St.set] at hx
        split at hx <;> simp_all
      · exact hx
    · intro x hx
      unfold St.markSoft at hx ⊢
      split at hx
      · rw [if_pos ‹_›]; exact hi.dis x hx
      · rw [if_neg ‹_›]; exact hi.dis x hx
  · unfold St.markSoft
    split
    · rename_i hu
      have := meas_set hq hu (s := .soft) (by simp)
      simp only [measure, St.set] at *
      omega
    · exact Nat.le_refl _

/-- Changes that leave the marks alone. -/
theorem good_access {root : Core} {st st' : St} (hi : Inv root st) (hs : st'.seen = st.seen) (hc : st'.count = st.count)
    (hd : ∀ q, st.disq q = true → st'.disq q = true) (ha : ∀ q m, m ∈ st.acc q → m ∈ st'.acc q)
    (hr : ∀ q, st.cand q = true ∨ st.disq q = true → st'.cand q = true ∨ st'.disq q = true)
    (hx : ∀ x, st'.disq x = true → st'.cand x = false) : Good root st st' := by
  have hm : Mono st st' := by
    refine ⟨?_, ?_, ?_, hd, ha, hr, by omega, ?_⟩ <;> simp [Active, hs]
  refine ⟨hm, ⟨?_, ?_, ?_, hx⟩, ?_⟩
  · intro x hx
    exact (hi.place x (by simpa [Active, hs] using hx)).imp id (Or.imp id fun ⟨i, p, h1, h2⟩ => ⟨i, p, h1, h2.mono hm⟩)
  · intro x hx; exact (hi.soft x (by simpa [hs] using hx)).mono hm
  · intro x hx; exact (hi.cov x (by simpa [hs] using hx)).mono hm
  · simp [measure, hs, hc]

theorem good_register {root : Core} {st : St} (hi : Inv root st) (p : Path) : Good root st (st.register p) := by
  unfold St.register
  split
  · exact .refl hi
  · rename_i hd
    refine good_access hi rfl rfl (fun _ h => h) (fun _ _ h => h) ?_ ?_
    · intro q hq
      simp only
      split
      · exact .inl rfl
      · exact hq
    · intro x hx
      simp only at hx ⊢
      split
      · simp_all
      · exact hi.dis x hx

theorem register_reg (st : St) (p : Path) : (st.register p).cand p = true ∨ (st.register p).disq p = true := by
  unfold St.register
  split
  · exact .inr ‹_›
  · simp

theorem good_disqualify {root : Core} {st : St} (hi : Inv root st) (p : Path) : Good root st (st.disqualify p) := by
  unfold St.disqualify
  refine good_access hi rfl rfl ?_ (fun _ _ h => h) ?_ ?_
  · intro q hq
    simp only
    split
    · rfl
    · exact hq
  · intro q hq
    simp only
    split
    · exact .inr rfl
    · exact hq
  · intro x hx
    simp only at hx ⊢
    split
    · rfl
    · rw [if_neg ‹_›] at hx
      exact hi.dis x hx

theorem good_record {root : Core} {st : St} (hi : Inv root st) (p : Path) (m : String) : Good root st (st.record p m) := by
  unfold St.record
  split
  · refine good_access hi rfl rfl (fun _ h => h) ?_ (fun _ h => h) hi.dis
    intro q m' hq
    simp only
    split
    · exact List.mem_cons_of_mem _ hq
    · exact hq
  · exact .refl hi

theorem good_registerAll {root : Core} (p : Path) : ∀ (vs : List Core) (i : Nat) {st : St}, Inv root st →
    Good root st (st.registerAll p i vs) ∧ ∀ j v, vs[j]? = some v → isDefaultLet v = true →
      (st.registerAll p i vs).cand (.bind (i + j) :: p) = true ∨ (st.registerAll p i vs).disq (.bind (i + j) :: p) = true := by
  intro vs
  induction vs with
  | nil => intro i st hi; exact ⟨.refl hi, fun j v h => by simp at h⟩
  | cons v vs ih =>
    intro i st hi
    have h1 : Good root st (if isDefaultLet v then st.register (.bind i :: p) else st) := by
      split
      · exact good_register hi _
      · exact .refl hi
    obtain ⟨g1, g2⟩ := ih (i + 1) h1.inv
    refine ⟨h1.trans g1, ?_⟩
    intro j w hj hw
    simp only [St.registerAll]
    cases j with
    | zero =>
      simp at hj
      subst hj
      refine g1.mono.reg _ ?_
      rw [if_pos hw]
      exact register_reg _ _
    | succ j =>
      have := g2 j w (by simpa using hj) hw
      rwa [show i + 1 + j = i + (j + 1) by omega] at this

end Verif.Prune
