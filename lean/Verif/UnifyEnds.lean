import Verif.UnifyLemmas

/-!
# Unification of types comes to an end: lemmas

Proofs only.
-/

namespace Verif.Unify

open Spec

/-- Each binding was made when its variable was not bound and not in the type, and the variables of the
type were not bound. -/
def Tri : Sub → Prop
  | [] => True
  | p :: s => Tri s ∧ get p.1 s = none ∧ occurs p.1 p.2 = false ∧
      ∀ y, occurs y p.2 = true → get y s = none

def rank (x : String) : Sub → Nat
  | [] => 0
  | p :: s => if p.1 = x then 1 else if rank x s = 0 then 0 else rank x s + 1

theorem rank_zero {x : String} {s : Sub} (h : get x s = none) : rank x s = 0 := by
  induction s with
  | nil => rfl
  | cons p s ih =>
    rw [get] at h
    split at h
    · cases h
    · rename_i hp
      rw [rank, if_neg hp, if_pos (ih h)]

theorem rank_lt {s : Sub} (ht : Tri s) {x y : String} {t : Ty} (h : get x s = some t)
    (ho : occurs y t = true) : rank y s < rank x s := by
  induction s with
  | nil => simp [get] at h
  | cons p s ih =>
    obtain ⟨h1, h2, h3, h4⟩ := ht
    rw [get] at h
    split at h
    · rename_i hp
      injection h with h
      subst h
      have hy : p.1 ≠ y := by
        intro e
        rw [e, ho] at h3
        cases h3
      rw [rank, rank, if_neg hy, if_pos hp, if_pos (rank_zero (h4 y ho))]
      omega
    · rename_i hp
      have := ih h1 h
      have hx : rank x s ≠ 0 := by omega
      rw [rank, rank, if_neg hp, if_neg hx]
      split
      · omega
      · split <;> omega

/-- The types are made of variables of `V`. -/
def Within (V : List String) (t : Ty) : Prop := ∀ x, occurs x t = true → x ∈ V
/-- No variable of the type is bound. -/
def Norm (s : Sub) (t : Ty) : Prop := ∀ x, occurs x t = true → get x s = none

structure Inv (V : List String) (s : Sub) : Prop where
  tri : Tri s
  plain : PlainS true s
  within : ∀ p ∈ s, Within V p.2

/-- Applying the substitution comes to an end, with a type in which nothing is bound. -/
def Res (V : List String) (s : Sub) (t : Ty) : Prop :=
  ∃ t' N, (∀ n, N ≤ n → applySubst n s t = some t') ∧ Plain true t' ∧ Norm s t' ∧ Within V t'

theorem apply_nil (n : Nat) (t : Ty) : applySubst (n + 1) [] t = some t := by
  cases t <;> simp [applySubst]

def ResL (V : List String) (s : Sub) (ts : List Ty) : Prop :=
  ∃ ts' N, (∀ n, N ≤ n → mapO (applySubst n s) ts = some ts') ∧ PlainL true ts' ∧
    ∀ x, occursL x ts' = true → get x s = none ∧ x ∈ V

mutual
theorem res_of_vars {V : List String} {s : Sub} (h0 : s ≠ []) : ∀ t : Ty, Plain true t →
    (∀ x, occurs x t = true → Res V s (.var x .star)) → Res V s t
  | .var x k, hp, h => by
    rw [Plain] at hp
    subst hp
    exact h x (by simp [occurs])
  | .app f a, hp, h => by
    rw [Plain] at hp
    obtain ⟨f', N1, e1, p1, n1, w1⟩ := res_of_vars h0 f hp.1 fun x hx => h x (by simp [occurs, hx])
    obtain ⟨a', N2, e2, p2, n2, w2⟩ := res_of_vars h0 a hp.2 fun x hx => h x (by simp [occurs, hx])
    refine ⟨.app f' a', N1 + N2 + 1, ?_, ⟨p1, p2⟩, ?_, ?_⟩
    · intro n hn
      obtain ⟨m, rfl⟩ : ∃ m, n = m + 1 := ⟨n - 1, by omega⟩
      simp only [applySubst, if_neg h0, e1 m (by omega), e2 m (by omega)]
      cases f' with
      | lam => exact absurd p1 (by simp [Plain])
      | _ => rfl
    · intro x hx
      simp only [occurs, Bool.or_eq_true] at hx
      exact hx.elim (n1 x) (n2 x)
    · intro x hx
      simp only [occurs, Bool.or_eq_true] at hx
      exact hx.elim (w1 x) (w2 x)
  | .function f a, hp, h => by
    rw [Plain] at hp
    obtain ⟨f', N1, e1, p1, n1, w1⟩ := res_of_vars h0 f hp.1 fun x hx => h x (by simp [occurs, hx])
    obtain ⟨a', N2, e2, p2, n2, w2⟩ := res_of_vars h0 a hp.2 fun x hx => h x (by simp [occurs, hx])
    refine ⟨.function f' a', N1 + N2 + 1, ?_, ⟨p1, p2⟩, ?_, ?_⟩
    · intro n hn
      obtain ⟨m, rfl⟩ : ∃ m, n = m + 1 := ⟨n - 1, by omega⟩
      simp only [applySubst, if_neg h0, e1 m (by omega), e2 m (by omega)]
    · intro x hx
      simp only [occurs, Bool.or_eq_true] at hx
      exact hx.elim (n1 x) (n2 x)
    · intro x hx
      simp only [occurs, Bool.or_eq_true] at hx
      exact hx.elim (w1 x) (w2 x)
  | .tuple es, hp, h => by
    rw [Plain] at hp
    obtain ⟨es', N, e, p, q⟩ := res_of_varsL h0 es hp fun x hx => h x (by simpa [occurs] using hx)
    refine ⟨.tuple es', N + 1, ?_, p, ?_, ?_⟩
    · intro n hn
      obtain ⟨m, rfl⟩ : ∃ m, n = m + 1 := ⟨n - 1, by omega⟩
      simp only [applySubst, if_neg h0, e m (by omega), Option.map_some]
    · intro x hx
      exact (q x (by simpa [occurs] using hx)).1
    · intro x hx
      exact (q x (by simpa [occurs] using hx)).2
  | .prim p, hp, _ => by
    refine ⟨.prim p, 1, ?_, hp, fun x hx => by simp [occurs] at hx, fun x hx => by simp [occurs] at hx⟩
    intro n hn
    obtain ⟨m, rfl⟩ : ∃ m, n = m + 1 := ⟨n - 1, by omega⟩
    simp only [applySubst, if_neg h0]
  | .con p, hp, _ => by
    refine ⟨.con p, 1, ?_, hp, fun x hx => by simp [occurs] at hx, fun x hx => by simp [occurs] at hx⟩
    intro n hn
    obtain ⟨m, rfl⟩ : ∃ m, n = m + 1 := ⟨n - 1, by omega⟩
    simp only [applySubst, if_neg h0]
  | .litSymbol p, hp, _ => by
    refine ⟨.litSymbol p, 1, ?_, hp, fun x hx => by simp [occurs] at hx,
      fun x hx => by simp [occurs] at hx⟩
    intro n hn
    obtain ⟨m, rfl⟩ : ∃ m, n = m + 1 := ⟨n - 1, by omega⟩
    simp only [applySubst, if_neg h0]
  | .litString p, hp, _ => by
    refine ⟨.litString p, 1, ?_, hp, fun x hx => by simp [occurs] at hx,
      fun x hx => by simp [occurs] at hx⟩
    intro n hn
    obtain ⟨m, rfl⟩ : ∃ m, n = m + 1 := ⟨n - 1, by omega⟩
    simp only [applySubst, if_neg h0]
  | .any, hp, _ => by simp [Plain] at hp
  | .record _ _ _, hp, _ => by simp [Plain] at hp
  | .forall_ _ _, hp, _ => by simp [Plain] at hp
  | .lam _ _, hp, _ => by simp [Plain] at hp
theorem res_of_varsL {V : List String} {s : Sub} (h0 : s ≠ []) : ∀ ts : List Ty, PlainL true ts →
    (∀ x, occursL x ts = true → Res V s (.var x .star)) → ResL V s ts
  | [], _, _ => ⟨[], 0, fun _ _ => rfl, trivial, fun x hx => by simp [occursL] at hx⟩
  | t :: ts, hp, h => by
    rw [PlainL] at hp
    obtain ⟨t', N1, e1, p1, n1, w1⟩ := res_of_vars h0 t hp.1 fun x hx => h x (by simp [occursL, hx])
    obtain ⟨ts', N2, e2, p2, q2⟩ := res_of_varsL h0 ts hp.2 fun x hx => h x (by simp [occursL, hx])
    refine ⟨t' :: ts', N1 + N2, ?_, ⟨p1, p2⟩, ?_⟩
    · intro n hn
      simp only [mapO, e1 n (by omega), e2 n (by omega)]
    · intro x hx
      simp only [occursL, Bool.or_eq_true] at hx
      exact hx.elim (fun h => ⟨n1 x h, w1 x h⟩) (q2 x)
end

theorem res_rank {V : List String} {s : Sub} (hi : Inv V s) (h0 : s ≠ []) : ∀ (k : Nat) (t : Ty),
    Plain true t → Within V t → (∀ x, occurs x t = true → rank x s ≤ k) → Res V s t := by
  intro k
  induction k with
  | zero =>
    intro t hp hw hr
    refine res_of_vars h0 t hp fun x hx => ?_
    cases hg : get x s with
    | none =>
      refine ⟨.var x .star, 1, ?_, rfl, ?_, ?_⟩
      · intro n hn
        obtain ⟨m, rfl⟩ : ∃ m, n = m + 1 := ⟨n - 1, by omega⟩
        simp only [applySubst, if_neg h0, hg]
      · intro y hy
        simp only [occurs, decide_eq_true_eq] at hy
        exact hy ▸ hg
      · intro y hy
        simp only [occurs, decide_eq_true_eq] at hy
        exact hy ▸ hw x hx
    | some u =>
      exfalso
      have hr0 := hr x hx
      have : rank x s ≠ 0 := by
        clear hr0 hr hw hi h0
        induction s with
        | nil => simp [get] at hg
        | cons p s ih =>
          rw [rank]
          rw [get] at hg
          split
          · omega
          · rename_i hp
            rw [if_neg hp] at hg
            have := ih hg
            rw [if_neg this]
            omega
      omega
  | succ k ih =>
    intro t hp hw hr
    refine res_of_vars h0 t hp fun x hx => ?_
    cases hg : get x s with
    | none =>
      refine ⟨.var x .star, 1, ?_, rfl, ?_, ?_⟩
      · intro n hn
        obtain ⟨m, rfl⟩ : ∃ m, n = m + 1 := ⟨n - 1, by omega⟩
        simp only [applySubst, if_neg h0, hg]
      · intro y hy
        simp only [occurs, decide_eq_true_eq] at hy
        exact hy ▸ hg
      · intro y hy
        simp only [occurs, decide_eq_true_eq] at hy
        exact hy ▸ hw x hx
    | some u =>
      have hm := get_mem hg
      obtain ⟨t', N, e, p, n', w⟩ := ih u (hi.plain _ hm) (hi.within _ hm) fun y hy => by
        have := rank_lt hi.tri hg hy
        have := hr x hx
        omega
      refine ⟨t', N + 1, ?_, p, n', w⟩
      intro n hn
      obtain ⟨m, rfl⟩ : ∃ m, n = m + 1 := ⟨n - 1, by omega⟩
      simp only [applySubst, if_neg h0, hg]
      exact e m (by omega)

theorem rank_le (x : String) (s : Sub) : rank x s ≤ s.length := by
  induction s with
  | nil => simp [rank]
  | cons p s ih =>
    rw [rank, List.length_cons]
    split
    · omega
    · split <;> omega

theorem res {V : List String} {s : Sub} (hi : Inv V s) {t : Ty} (hp : Plain true t) (hw : Within V t) :
    Res V s t := by
  by_cases h0 : s = []
  · subst h0
    refine ⟨t, 1, ?_, hp, fun _ _ => rfl, hw⟩
    intro n hn
    obtain ⟨m, rfl⟩ : ∃ m, n = m + 1 := ⟨n - 1, by omega⟩
    exact apply_nil m t
  · exact res_rank hi h0 s.length t hp hw fun x _ => rank_le x s

/-! ## A type in which nothing is bound stays as it is -/

mutual
theorem apply_norm {s : Sub} (h0 : s ≠ []) : ∀ (t : Ty) (n : Nat), Plain true t → Norm s t →
    size t < n → applySubst n s t = some t
  | t, 0, _, _, h => by omega
  | .var x k, n + 1, hp, hn, _ => by
    have := hn x (by simp [occurs])
    simp only [applySubst, if_neg h0, this]
  | .app f a, n + 1, hp, hn, h => by
    rw [Plain] at hp
    rw [size] at h
    have e1 := apply_norm h0 f n hp.1 (fun x hx => hn x (by simp [occurs, hx])) (by omega)
    have e2 := apply_norm h0 a n hp.2 (fun x hx => hn x (by simp [occurs, hx])) (by omega)
    simp only [applySubst, if_neg h0, e1, e2]
    cases f with
    | lam => exact absurd hp.1 (by simp [Plain])
    | _ => rfl
  | .function f a, n + 1, hp, hn, h => by
    rw [Plain] at hp
    rw [size] at h
    have e1 := apply_norm h0 f n hp.1 (fun x hx => hn x (by simp [occurs, hx])) (by omega)
    have e2 := apply_norm h0 a n hp.2 (fun x hx => hn x (by simp [occurs, hx])) (by omega)
    simp only [applySubst, if_neg h0, e1, e2]
  | .tuple es, n + 1, hp, hn, h => by
    rw [Plain] at hp
    rw [size] at h
    have e := apply_normL h0 es n hp (fun x hx => hn x (by simpa [occurs] using hx)) (by omega)
    simp only [applySubst, if_neg h0, e, Option.map_some]
  | .prim _, n + 1, _, _, _ => by simp only [applySubst, if_neg h0]
  | .con _, n + 1, _, _, _ => by simp only [applySubst, if_neg h0]
  | .litSymbol _, n + 1, _, _, _ => by simp only [applySubst, if_neg h0]
  | .litString _, n + 1, _, _, _ => by simp only [applySubst, if_neg h0]
  | .any, _ + 1, hp, _, _ => by simp [Plain] at hp
  | .record _ _ _, _ + 1, hp, _, _ => by simp [Plain] at hp
  | .forall_ _ _, _ + 1, hp, _, _ => by simp [Plain] at hp
  | .lam _ _, _ + 1, hp, _, _ => by simp [Plain] at hp
theorem apply_normL {s : Sub} (h0 : s ≠ []) : ∀ (ts : List Ty) (n : Nat), PlainL true ts →
    (∀ x, occursL x ts = true → get x s = none) → sizeL ts < n → mapO (applySubst n s) ts = some ts
  | [], _, _, _, _ => rfl
  | t :: ts, n, hp, hn, h => by
    rw [PlainL] at hp
    rw [sizeL] at h
    have e1 := apply_norm h0 t n hp.1 (fun x hx => hn x (by simp [occursL, hx])) (by omega)
    have e2 := apply_normL h0 ts n hp.2 (fun x hx => hn x (by simp [occursL, hx])) (by omega)
    simp only [mapO, e1, e2]
end

theorem apply_id {s : Sub} {t : Ty} (hp : Plain true t) (hn : Norm s t) :
    ∀ n, size t + 1 ≤ n → applySubst n s t = some t := by
  intro n h
  by_cases h0 : s = []
  · subst h0
    obtain ⟨m, rfl⟩ : ∃ m, n = m + 1 := ⟨n - 1, by omega⟩
    exact apply_nil m t
  · exact apply_norm h0 t n hp hn (by omega)

/-! ## Variables that are not bound -/

def count (V : List String) (s : Sub) : Nat := (V.filter fun x => (get x s).isNone).length

theorem filter_lt {α : Type} {p q : α → Bool} {V : List α} {x : α} (hpq : ∀ y, q y = true → p y = true)
    (hx : x ∈ V) (h1 : p x = true) (h2 : q x = false) : (V.filter q).length < (V.filter p).length := by
  have le : ∀ W : List α, (W.filter q).length ≤ (W.filter p).length := by
    intro W
    induction W with
    | nil => simp
    | cons y W ih =>
      simp only [List.filter_cons]
      cases hq : q y with
      | true =>
        simp only [hpq y hq, if_true, List.length_cons]
        omega
      | false =>
        simp only [Bool.false_eq_true, if_false]
        split
        · rw [List.length_cons]
          omega
        · exact ih
  induction V with
  | nil => cases hx
  | cons y V ih =>
    simp only [List.filter_cons]
    rcases List.mem_cons.1 hx with rfl | hx
    · have := le V
      simp only [h1, h2, if_true, Bool.false_eq_true, if_false, List.length_cons]
      omega
    · have := ih hx
      cases hq : q y with
      | true =>
        simp only [hpq y hq, if_true, List.length_cons]
        omega
      | false =>
        simp only [Bool.false_eq_true, if_false]
        split
        · rw [List.length_cons]
          omega
        · exact this

theorem count_lt {V : List String} {s : Sub} {x : String} {t : Ty} (hx : x ∈ V) (hg : get x s = none) :
    count V ((x, t) :: s) < count V s := by
  refine filter_lt (x := x) ?_ hx (by simp [hg]) (by simp [get])
  intro y hy
  rw [get] at hy
  split at hy
  · simp at hy
  · exact hy

/-! ## Coming to an end -/

def Fine (V : List String) (s : Sub) : Out → Prop
  | .more => False
  | .fail _ => True
  | .ok s' => Inv V s' ∧ (s' = s ∨ count V s' < count V s)

def Ends (V : List String) (s : Sub) (F : Nat → Out) : Prop :=
  ∃ N o, (∀ n, N ≤ n → F n = o) ∧ Fine V s o

theorem ends_const {V : List String} {s : Sub} {o : Out} (h : Fine V s o) : Ends V s fun _ => o :=
  ⟨0, o, fun _ _ => rfl, h⟩

theorem ends_bind {V : List String} {s : Sub} {F : Nat → Out} {G : Nat → Sub → Out} (h : Ends V s F)
    (hG : ∀ s', Inv V s' → (s' = s ∨ count V s' < count V s) → Ends V s' fun n => G n s') :
    Ends V s fun n => (F n).bind (G n) := by
  obtain ⟨N, o, e, f⟩ := h
  cases o with
  | more => exact absurd f (by simp [Fine])
  | fail x => exact ⟨N, .fail x, fun n hn => by simp only [e n hn, Out.bind], trivial⟩
  | ok s' =>
    obtain ⟨N', o', e', f'⟩ := hG s' f.1 f.2
    refine ⟨N + N', o', fun n hn => ?_, ?_⟩
    · simp only [e n (by omega), Out.bind]
      exact e' n (by omega)
    · cases o' with
      | more => exact f'
      | fail x => trivial
      | ok s'' =>
        refine ⟨f'.1, ?_⟩
        rcases f.2 with rfl | h1
        · exact f'.2
        · rcases f'.2 with rfl | h2
          · exact .inr h1
          · exact .inr (by omega)

theorem ends_applied {V : List String} {s : Sub} {t t' : Ty} {N : Nat} {G : Nat → Ty → Out}
    (h : ∀ n, N ≤ n → applySubst n s t = some t') (hG : Ends V s fun n => G n t') :
    Ends V s fun n => withApplied (applySubst n s t) (G n) := by
  obtain ⟨N', o, e, f⟩ := hG
  refine ⟨N + N', o, fun n hn => ?_, f⟩
  simp only [h n (by omega), withApplied]
  exact e n (by omega)

theorem ends_shift {V : List String} {s : Sub} {F : Nat → Out} (h : Ends V s fun n => F (n + 1)) :
    Ends V s F := by
  obtain ⟨N, o, e, f⟩ := h
  refine ⟨N + 1, o, fun n hn => ?_, f⟩
  obtain ⟨m, rfl⟩ : ∃ m, n = m + 1 := ⟨n - 1, by omega⟩
  exact e m (by omega)

theorem ends_congr {V : List String} {s : Sub} {F G : Nat → Out} (h : Ends V s F)
    (e : ∀ n, F n = G n) : Ends V s G := by
  have : F = G := funext e
  exact this ▸ h

theorem occurs_widen {x : String} {t : Ty} (h : occurs x (widen t) = true) : occurs x t = true := by
  cases t <;> first | exact h | simp [widen, occurs] at h

theorem ends_bindVar {V : List String} {s : Sub} {x : String} {t : Ty} (hi : Inv V s) (hx : x ∈ V)
    (hg : get x s = none) (hp : Plain true t) (hn : Norm s t) (hw : Within V t) :
    Fine V s (bindVar x .star t s) := by
  rw [bindVar]
  split
  · trivial
  · rename_i ho
    split
    · refine ⟨⟨⟨hi.tri, hg, ?_, ?_⟩, ?_, ?_⟩, .inr (count_lt hx hg)⟩
      · cases h : occurs x (widen t) with
        | false => rfl
        | true => exact absurd (occurs_widen h) ho
      · exact fun y hy => hn y (occurs_widen hy)
      · exact List.forall_mem_cons.2 ⟨plain_widen hp, hi.plain⟩
      · exact List.forall_mem_cons.2 ⟨fun y hy => hw y (occurs_widen hy), hi.within⟩
    · trivial

/-- What is known of smaller calls. -/
def Below (V : List String) (s : Sub) (m : Nat) : Prop :=
  ∀ s' a c, Inv V s' → Plain true a → Plain true c → Within V a → Within V c →
    (count V s' < count V s ∨ (s' = s ∧ Norm s a ∧ Norm s c ∧ size a < m)) →
    Ends V s' fun n => unify n a c s'

theorem ends_two {V : List String} {s : Sub} {m : Nat} (hi : Inv V s) (hb : Below V s m)
    {a1 a2 c1 c2 : Ty} (p1 : Plain true a1) (p2 : Plain true a2) (p3 : Plain true c1)
    (p4 : Plain true c2) (w1 : Within V a1) (w2 : Within V a2) (w3 : Within V c1) (w4 : Within V c2)
    (n1 : Norm s a1) (n2 : Norm s a2) (n3 : Norm s c1) (n4 : Norm s c2) (l1 : size a1 < m)
    (l3 : size c1 < m) :
    Ends V s fun n => (unify n a1 a2 s).bind fun s =>
      withApplied (applySubst n s c1) fun x => withApplied (applySubst n s c2) fun y =>
        unify n x y s := by
  refine ends_bind (hb s a1 a2 hi p1 p2 w1 w2 (.inr ⟨rfl, n1, n2, l1⟩)) fun s' hi' hs' => ?_
  rcases hs' with rfl | hlt
  · exact ends_applied (G := fun n x => withApplied (applySubst n s' c2) fun y => unify n x y s')
      (apply_id p3 n3) (ends_applied (G := fun n y => unify n c1 y s') (apply_id p4 n4)
        (hb s' c1 c2 hi p3 p4 w3 w4 (.inr ⟨rfl, n3, n4, l3⟩)))
  · obtain ⟨x, N1, e1, q1, _, v1⟩ := res hi' p3 w3
    obtain ⟨y, N2, e2, q2, _, v2⟩ := res hi' p4 w4
    exact ends_applied (G := fun n x => withApplied (applySubst n s' c2) fun y => unify n x y s') e1
      (ends_applied (G := fun n y => unify n x y s') e2 (hb s' x y hi' q1 q2 v1 v2 (.inl hlt)))

theorem ends_pairs {V : List String} {s0 : Sub} {m : Nat} (hb : Below V s0 m) :
    ∀ (as cs : List Ty) (s : Sub), Inv V s → (s = s0 ∨ count V s < count V s0) →
      PlainL true as → PlainL true cs → (∀ x, occursL x as = true → get x s0 = none ∧ x ∈ V) →
      (∀ x, occursL x cs = true → get x s0 = none ∧ x ∈ V) → sizeL as < m →
      Ends V s fun n => unifyPairs (unify n) as cs s
  | [], cs, s, hi, _, _, _, _, _, _ => by
    exact ends_congr (ends_const (o := .ok s) ⟨hi, .inl rfl⟩) fun n => by cases cs <;> rfl
  | _ :: _, [], s, hi, _, _, _, _, _, _ => ends_const (o := .ok s) ⟨hi, .inl rfl⟩
  | a :: as, c :: cs, s, hi, hs, pa, pc, ha, hc, hl => by
    rw [PlainL] at pa pc
    rw [sizeL] at hl
    have na : ∀ x, occurs x a = true → get x s0 = none ∧ x ∈ V := fun x hx => ha x (by simp [occursL, hx])
    have nc : ∀ x, occurs x c = true → get x s0 = none ∧ x ∈ V := fun x hx => hc x (by simp [occursL, hx])
    have h1 : Ends V s fun n => unify n a c s := by
      refine hb s a c hi pa.1 pc.1 (fun x hx => (na x hx).2) (fun x hx => (nc x hx).2) ?_
      rcases hs with rfl | h
      · exact .inr ⟨rfl, fun x hx => (na x hx).1, fun x hx => (nc x hx).1, by omega⟩
      · exact .inl h
    refine ends_bind (G := fun n s => unifyPairs (unify n) as cs s) h1 fun s' hi' hs' => ?_
    refine ends_pairs hb as cs s' hi' ?_ pa.2 pc.2 (fun x hx => ha x (by simp [occursL, hx]))
      (fun x hx => hc x (by simp [occursL, hx])) (by omega)
    rcases hs' with rfl | h
    · exact hs
    · rcases hs with rfl | h2
      · exact .inr h
      · exact .inr (by omega)

theorem ends_rest {V : List String} {s : Sub} {t1 t2 : Ty} (hi : Inv V s) (hb : Below V s (size t1))
    (p1 : Plain true t1) (p2 : Plain true t2) (n1 : Norm s t1) (n2 : Norm s t2) (w1 : Within V t1)
    (w2 : Within V t2) :
    Ends V s fun n => unifyRest (applySubst n) (unify n) (freshenForall n) t1 t2 s := by
  by_cases hv1 : isVar t1 = true
  · cases t1 with
    | var x k =>
      rw [Plain] at p1
      subst p1
      exact ends_congr (ends_const (ends_bindVar hi (w1 x (by simp [occurs])) (n1 x (by simp [occurs]))
        p2 n2 w2)) fun n => by rw [unifyRest]
    | _ => simp [isVar] at hv1
  by_cases hv2 : isVar t2 = true
  · cases t2 with
    | var x k =>
      rw [Plain] at p2
      subst p2
      refine ends_congr (ends_const (ends_bindVar hi (w2 x (by simp [occurs])) (n2 x (by simp [occurs]))
        p1 n1 w1)) fun n => ?_
      cases t1 <;> first | rfl | simp [isVar] at hv1
    | _ => simp [isVar] at hv2
  have ok : Fine V s (.ok s) := ⟨hi, .inl rfl⟩
  cases t1 with
  | var => simp [isVar] at hv1
  | record => exact absurd p1 (by simp [Plain])
  | forall_ => exact absurd p1 (by simp [Plain])
  | lam => exact absurd p1 (by simp [Plain])
  | any => exact absurd p1 (by simp [Plain])
  | app f1 x1 =>
    cases t2 with
    | app f2 x2 =>
      rw [Plain] at p1 p2
      cases hl : listPair (.app f1 x1) (.app f2 x2) with
      | none =>
        refine ends_congr (ends_two hi hb p1.1 p2.1 p1.2 p2.2
          (fun x hx => w1 x (by simp [occurs, hx])) (fun x hx => w2 x (by simp [occurs, hx]))
          (fun x hx => w1 x (by simp [occurs, hx])) (fun x hx => w2 x (by simp [occurs, hx]))
          (fun x hx => n1 x (by simp [occurs, hx])) (fun x hx => n2 x (by simp [occurs, hx]))
          (fun x hx => n1 x (by simp [occurs, hx])) (fun x hx => n2 x (by simp [occurs, hx]))
          (by rw [size]; omega) (by rw [size]; omega)) fun n => ?_
        rw [unifyRest, hl]
      | some q =>
        obtain ⟨a, c⟩ := q
        have hac : a = x1 ∧ c = x2 := by
          unfold listPair at hl
          split at hl
          · rename_i e1 e2
            injection e1 with _ e1
            injection e2 with _ e2
            injection hl with hl
            injection hl with hl hl'
            exact ⟨by rw [← hl, e1], by rw [← hl', e2]⟩
          · rename_i e1 e2
            injection e1 with _ e1
            injection e2 with _ e2
            injection hl with hl
            injection hl with hl hl'
            exact ⟨by rw [← hl, e1], by rw [← hl', e2]⟩
          · simp at hl
        obtain ⟨rfl, rfl⟩ := hac
        refine ends_congr (hb s a c hi p1.2 p2.2 (fun x hx => w1 x (by simp [occurs, hx]))
          (fun x hx => w2 x (by simp [occurs, hx])) (.inr ⟨rfl, fun x hx => n1 x (by simp [occurs, hx]),
            fun x hx => n2 x (by simp [occurs, hx]), by rw [size]; omega⟩)) fun n => ?_
        rw [unifyRest, hl]
    | var => simp [isVar] at hv2
    | record => exact absurd p2 (by simp [Plain])
    | forall_ => exact absurd p2 (by simp [Plain])
    | lam => exact absurd p2 (by simp [Plain])
    | any => exact absurd p2 (by simp [Plain])
    | _ => exact ends_const (o := .fail _) trivial
  | function f1 x1 =>
    cases t2 with
    | function f2 x2 =>
      rw [Plain] at p1 p2
      refine ends_congr (ends_two hi hb p1.1 p2.1 p1.2 p2.2
        (fun x hx => w1 x (by simp [occurs, hx])) (fun x hx => w2 x (by simp [occurs, hx]))
        (fun x hx => w1 x (by simp [occurs, hx])) (fun x hx => w2 x (by simp [occurs, hx]))
        (fun x hx => n1 x (by simp [occurs, hx])) (fun x hx => n2 x (by simp [occurs, hx]))
        (fun x hx => n1 x (by simp [occurs, hx])) (fun x hx => n2 x (by simp [occurs, hx]))
        (by rw [size]; omega) (by rw [size]; omega)) fun n => ?_
      rw [unifyRest]
    | var => simp [isVar] at hv2
    | record => exact absurd p2 (by simp [Plain])
    | forall_ => exact absurd p2 (by simp [Plain])
    | lam => exact absurd p2 (by simp [Plain])
    | any => exact absurd p2 (by simp [Plain])
    | _ => exact ends_const (o := .fail _) trivial
  | tuple es =>
    cases t2 with
    | tuple fs =>
      rw [Plain] at p1 p2
      by_cases hl : es.length = fs.length
      · refine ends_congr (ends_pairs hb es fs s hi (.inl rfl) p1 p2
          (fun x hx => ⟨n1 x (by simpa [occurs] using hx), w1 x (by simpa [occurs] using hx)⟩)
          (fun x hx => ⟨n2 x (by simpa [occurs] using hx), w2 x (by simpa [occurs] using hx)⟩)
          (by rw [size]; omega)) fun n => ?_
        rw [unifyRest, if_pos hl]
      · exact ends_congr (ends_const (o := .fail (.mismatch (.tuple es) (.tuple fs))) trivial) fun n => by
          rw [unifyRest, if_neg hl]
    | var => simp [isVar] at hv2
    | record => exact absurd p2 (by simp [Plain])
    | forall_ => exact absurd p2 (by simp [Plain])
    | lam => exact absurd p2 (by simp [Plain])
    | any => exact absurd p2 (by simp [Plain])
    | _ => exact ends_const (o := .fail _) trivial
  | con m =>
    cases t2 with
    | var => simp [isVar] at hv2
    | record => exact absurd p2 (by simp [Plain])
    | forall_ => exact absurd p2 (by simp [Plain])
    | lam => exact absurd p2 (by simp [Plain])
    | any => exact absurd p2 (by simp [Plain])
    | _ => exact ends_const (o := .fail _) trivial
  | litSymbol m =>
    cases t2 with
    | var => simp [isVar] at hv2
    | record => exact absurd p2 (by simp [Plain])
    | forall_ => exact absurd p2 (by simp [Plain])
    | lam => exact absurd p2 (by simp [Plain])
    | any => exact absurd p2 (by simp [Plain])
    | prim p => cases p <;> first | exact ends_const (o := .ok s) ok | exact ends_const (o := .fail _) trivial
    | _ => exact ends_const (o := .fail _) trivial
  | litString m =>
    cases t2 with
    | var => simp [isVar] at hv2
    | record => exact absurd p2 (by simp [Plain])
    | forall_ => exact absurd p2 (by simp [Plain])
    | lam => exact absurd p2 (by simp [Plain])
    | any => exact absurd p2 (by simp [Plain])
    | prim p => cases p <;> first | exact ends_const (o := .ok s) ok | exact ends_const (o := .fail _) trivial
    | _ => exact ends_const (o := .fail _) trivial
  | prim p =>
    cases t2 with
    | var => simp [isVar] at hv2
    | record => exact absurd p2 (by simp [Plain])
    | forall_ => exact absurd p2 (by simp [Plain])
    | lam => exact absurd p2 (by simp [Plain])
    | any => exact absurd p2 (by simp [Plain])
    | litSymbol m =>
      cases p <;> first | exact ends_const (o := .ok s) ok | exact ends_const (o := .fail _) trivial
    | litString m =>
      cases p <;> first | exact ends_const (o := .ok s) ok | exact ends_const (o := .fail _) trivial
    | prim q => cases p <;> cases q <;> exact ends_const (o := .fail _) trivial
    | _ => cases p <;> exact ends_const (o := .fail _) trivial

theorem ends_step {V : List String} {s : Sub} {t1 t2 u1 u2 : Ty} {N1 N2 : Nat} (hi : Inv V s)
    (e1 : ∀ n, N1 ≤ n → applySubst n s t1 = some u1) (e2 : ∀ n, N2 ≤ n → applySubst n s t2 = some u2)
    (p1 : Plain true u1) (p2 : Plain true u2) (n1 : Norm s u1) (n2 : Norm s u2) (w1 : Within V u1)
    (w2 : Within V u2) (hb : Below V s (size u1)) : Ends V s fun n => unify n t1 t2 s := by
  refine ends_shift ?_
  have main : Ends V s fun n =>
      if u1 = .any ∨ u2 = .any then .ok s
      else if u1 = u2 then .ok s
      else unifyRest (applySubst n) (unify n) (freshenForall n) u1 u2 s := by
    by_cases h1 : u1 = .any ∨ u2 = .any
    · simp only [if_pos h1]
      exact ends_const ⟨hi, .inl rfl⟩
    · simp only [if_neg h1]
      by_cases h2 : u1 = u2
      · simp only [if_pos h2]
        exact ends_const ⟨hi, .inl rfl⟩
      · simp only [if_neg h2]
        exact ends_rest hi hb p1 p2 n1 n2 w1 w2
  obtain ⟨N, o, e, f⟩ := main
  refine ⟨N + N1 + N2, o, fun n hn => ?_, f⟩
  show unify (n + 1) t1 t2 s = o
  rw [unify, e1 n (by omega), e2 n (by omega)]
  simp only [withApplied, pattern_none p1, pattern_none p2]
  exact e n (by omega)

theorem ends_all (V : List String) : ∀ (c m : Nat) (s : Sub) (t1 t2 u1 u2 : Ty) (N1 N2 : Nat), Inv V s →
    count V s = c → (∀ n, N1 ≤ n → applySubst n s t1 = some u1) →
    (∀ n, N2 ≤ n → applySubst n s t2 = some u2) → Plain true u1 → Plain true u2 → Norm s u1 →
    Norm s u2 → Within V u1 → Within V u2 → size u1 = m → Ends V s fun n => unify n t1 t2 s := by
  intro c
  induction c using Nat.strongRecOn with
  | _ c ihc =>
    intro m
    induction m using Nat.strongRecOn with
    | _ m ihm =>
      intro s t1 t2 u1 u2 N1 N2 hi hc e1 e2 p1 p2 n1 n2 w1 w2 hm
      refine ends_step hi e1 e2 p1 p2 n1 n2 w1 w2 ?_
      intro s' a d hi' pa pd wa wd h
      rcases h with h | ⟨rfl, na, nd, hl⟩
      · obtain ⟨a', M1, f1, q1, o1, v1⟩ := res hi' pa wa
        obtain ⟨d', M2, f2, q2, o2, v2⟩ := res hi' pd wd
        exact ihc (count V s') (hc ▸ h) (size a') s' a d a' d' M1 M2 hi' rfl f1 f2 q1 q2 o1 o2 v1 v2 rfl
      · exact ihm (size a) (hm ▸ hl) s' a d a d _ _ hi' hc (apply_id pa na) (apply_id pd nd) pa pd na nd
          wa wd rfl

mutual
theorem within_some : ∀ t : Ty, Plain true t → ∃ V, Within V t
  | .var x k, _ => ⟨[x], fun y hy => by
      simp only [occurs, decide_eq_true_eq] at hy
      simp [hy]⟩
  | .app f a, hp => by
    rw [Plain] at hp
    obtain ⟨V, hV⟩ := within_some f hp.1
    obtain ⟨W, hW⟩ := within_some a hp.2
    refine ⟨V ++ W, fun x hx => ?_⟩
    simp only [occurs, Bool.or_eq_true] at hx
    exact List.mem_append.2 (hx.imp (hV x) (hW x))
  | .function f a, hp => by
    rw [Plain] at hp
    obtain ⟨V, hV⟩ := within_some f hp.1
    obtain ⟨W, hW⟩ := within_some a hp.2
    refine ⟨V ++ W, fun x hx => ?_⟩
    simp only [occurs, Bool.or_eq_true] at hx
    exact List.mem_append.2 (hx.imp (hV x) (hW x))
  | .tuple es, hp => by
    rw [Plain] at hp
    obtain ⟨V, hV⟩ := within_someL es hp
    exact ⟨V, fun x hx => hV x (by simpa [occurs] using hx)⟩
  | .prim _, _ => ⟨[], fun y hy => by simp [occurs] at hy⟩
  | .con _, _ => ⟨[], fun y hy => by simp [occurs] at hy⟩
  | .litSymbol _, _ => ⟨[], fun y hy => by simp [occurs] at hy⟩
  | .litString _, _ => ⟨[], fun y hy => by simp [occurs] at hy⟩
  | .any, hp => by simp [Plain] at hp
  | .record _ _ _, hp => by simp [Plain] at hp
  | .forall_ _ _, hp => by simp [Plain] at hp
  | .lam _ _, hp => by simp [Plain] at hp
theorem within_someL : ∀ ts : List Ty, PlainL true ts → ∃ V : List String, ∀ x, occursL x ts = true → x ∈ V
  | [], _ => ⟨[], fun y hy => by simp [occursL] at hy⟩
  | t :: ts, hp => by
    rw [PlainL] at hp
    obtain ⟨V, hV⟩ := within_some t hp.1
    obtain ⟨W, hW⟩ := within_someL ts hp.2
    refine ⟨V ++ W, fun x hx => ?_⟩
    simp only [occursL, Bool.or_eq_true] at hx
    exact List.mem_append.2 (hx.imp (hV x) (hW x))
end

mutual
theorem plain_up : ∀ t : Ty, Plain false t → Plain true t
  | .app f a, h => by
    rw [Plain] at h ⊢
    exact ⟨plain_up f h.1, plain_up a h.2⟩
  | .function f a, h => by
    rw [Plain] at h ⊢
    exact ⟨plain_up f h.1, plain_up a h.2⟩
  | .tuple es, h => by
    rw [Plain] at h ⊢
    exact plain_upL es h
  | .prim _, _ => by simp [Plain]
  | .con _, _ => by simp [Plain]
  | .litSymbol _, _ => by simp [Plain]
  | .litString _, _ => by simp [Plain]
  | .var _ _, h => by simpa [Plain] using h
  | .any, h => by simp [Plain] at h
  | .record _ _ _, h => by simp [Plain] at h
  | .forall_ _ _, h => by simp [Plain] at h
  | .lam _ _, h => by simp [Plain] at h
theorem plain_upL : ∀ ts : List Ty, PlainL false ts → PlainL true ts
  | [], _ => trivial
  | t :: ts, h => by
    rw [PlainL] at h ⊢
    exact ⟨plain_up t h.1, plain_upL ts h.2⟩
end

end Verif.Unify
