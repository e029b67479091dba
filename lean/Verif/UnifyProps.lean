import Verif.UnifyEnds

/-!
# Unification of types: properties

Calls are made one after the other with one substitution, as the checker makes them for the parameters
and arguments of a call (check.rs:1765-1790).
-/

namespace Verif.Unify

open Spec

/-- Pairs of types one after the other, from the empty substitution, with so many levels. -/
def solve (n : Nat) (eqs : List (Ty × Ty)) : Out :=
  eqs.foldl (fun o p => o.bind (unify n p.1 p.2)) (.ok [])

theorem solve_snoc (n : Nat) (eqs : List (Ty × Ty)) (p : Ty × Ty) :
    solve n (eqs ++ [p]) = (solve n eqs).bind (unify n p.1 p.2) := by
  simp [solve]

/-! ## C125: the result makes the types the same, and no more -/

theorem solve_right {b : Bool} (n : Nat) : ∀ (k : Nat) (eqs : List (Ty × Ty)), eqs.length = k →
    (∀ p ∈ eqs, Plain b p.1 ∧ Plain b p.2) →
    Right b [] (fun σ => ∀ p ∈ eqs, Same σ p.1 p.2) (solve n eqs)
  | 0, eqs, hk, _ => by
    rw [List.eq_nil_of_length_eq_zero hk]
    exact right_ok (fun p hp => by cases hp) (by simp)
  | k + 1, eqs, hk, hp => by
    have hne : eqs ≠ [] := by rintro rfl; simp at hk
    obtain ⟨init, p, rfl⟩ : ∃ i s, eqs = i ++ [s] := ⟨_, _, (List.dropLast_concat_getLast hne).symm⟩
    rw [solve_snoc]
    have h1 := solve_right n k init (by simpa using hk) fun q hq => hp q (by simp [hq])
    have h2 := hp p (by simp)
    refine (h1.bind fun s' hs' _ => unify_right n p.1 p.2 s' h2.1 h2.2 hs').congr fun σ _ => ?_
    constructor
    · rintro ⟨a, c⟩ q hq
      rcases List.mem_append.1 hq with h | h
      · exact a q h
      · simp only [List.mem_singleton] at h
        exact h ▸ c
    · exact fun h => ⟨fun q hq => h q (by simp [hq]), h p (by simp)⟩

/-- The substitution that is found leaves just the choices that make the types of each pair the same:
it is right, and most general. -/
theorem solve_iff_partial {n : Nat} {eqs : List (Ty × Ty)} (h : ∀ p ∈ eqs, Plain true p.1 ∧ Plain true p.2)
    {s : Sub} (hs : solve n eqs = .ok s) (σ : String → Ty) :
    Solves σ s ↔ ∀ p ∈ eqs, Same σ p.1 p.2 := by
  have := solve_right n _ eqs rfl h
  rw [hs] at this
  rw [this.2 σ]
  exact ⟨fun h => h.2, fun h => ⟨fun p hp => (by cases hp), h⟩⟩

/-- If it fails, no choice of types of values makes the types the same. -/
theorem solve_fails_partial {n : Nat} {eqs : List (Ty × Ty)}
    (h : ∀ p ∈ eqs, Plain false p.1 ∧ Plain false p.2) {e : Err} (hs : solve n eqs = .fail e)
    (σ : String → Ty) (hσ : Kinds σ) : ¬ ∀ p ∈ eqs, Same σ p.1 p.2 := by
  have := solve_right n _ eqs rfl h
  rw [hs] at this
  exact this rfl σ hσ fun p hp => by cases hp

/-- The types are the same once the substitution is applied, if it comes to an end. -/
theorem applied_same_partial {n m : Nat} {t1 t2 u1 u2 : Ty} (h1 : Plain true t1) (h2 : Plain true t2)
    {s : Sub} (hs : unify n t1 t2 [] = .ok s) (a1 : applySubst m s t1 = some u1)
    (a2 : applySubst m s t2 = some u2) {σ : String → Ty} (hσ : Solves σ s) : Same σ u1 u2 := by
  have hr := unify_right (b := true) n t1 t2 [] h1 h2 (fun p hp => by cases hp)
  rw [hs] at hr
  have e := ((hr.2 σ).1 hσ).2
  have e1 := (apply_plain hr.1 m t1 u1 h1 a1).2 σ hσ
  have e2 := (apply_plain hr.1 m t2 u2 h2 a2).2 σ hσ
  unfold Same at *
  rw [e1, e, e2]

/-! ## C126: it comes to an end -/

theorem solve_ends {V : List String} : ∀ (k : Nat) (eqs : List (Ty × Ty)), eqs.length = k →
    (∀ p ∈ eqs, (Plain true p.1 ∧ Plain true p.2) ∧ Within V p.1 ∧ Within V p.2) →
    Ends V [] fun n => solve n eqs
  | 0, eqs, hk, _ => by
    rw [List.eq_nil_of_length_eq_zero hk]
    exact ends_const (o := .ok []) ⟨⟨trivial, fun p hp => (by cases hp), fun p hp => (by cases hp)⟩, .inl rfl⟩
  | k + 1, eqs, hk, hp => by
    have hne : eqs ≠ [] := by rintro rfl; simp at hk
    obtain ⟨init, p, rfl⟩ : ∃ i s, eqs = i ++ [s] := ⟨_, _, (List.dropLast_concat_getLast hne).symm⟩
    have h1 := solve_ends k init (by simpa using hk) fun q hq => hp q (by simp [hq])
    obtain ⟨⟨p1, p2⟩, w1, w2⟩ := hp p (by simp)
    refine ends_congr (ends_bind (G := fun n s => unify n p.1 p.2 s) h1 fun s' hi _ => ?_)
      fun n => (solve_snoc n init p).symm
    obtain ⟨u1, N1, e1, q1, n1, v1⟩ := res hi p1 w1
    obtain ⟨u2, N2, e2, q2, n2, v2⟩ := res hi p2 w2
    exact ends_all V _ _ s' p.1 p.2 u1 u2 N1 N2 hi rfl e1 e2 q1 q2 n1 n2 v1 v2 rfl

theorem within_eqs : ∀ eqs : List (Ty × Ty), (∀ p ∈ eqs, Plain true p.1 ∧ Plain true p.2) →
    ∃ V, ∀ p ∈ eqs, Within V p.1 ∧ Within V p.2
  | [], _ => ⟨[], by simp⟩
  | p :: eqs, h => by
    obtain ⟨A, hA⟩ := within_some p.1 (h p (by simp)).1
    obtain ⟨B, hB⟩ := within_some p.2 (h p (by simp)).2
    obtain ⟨C, hC⟩ := within_eqs eqs fun q hq => h q (by simp [hq])
    refine ⟨A ++ (B ++ C), List.forall_mem_cons.2 ⟨⟨fun x hx => ?_, fun x hx => ?_⟩,
      fun q hq => ⟨fun x hx => ?_, fun x hx => ?_⟩⟩⟩
    · exact List.mem_append.2 (.inl (hA x hx))
    · exact List.mem_append.2 (.inr (List.mem_append.2 (.inl (hB x hx))))
    · exact List.mem_append.2 (.inr (List.mem_append.2 (.inr ((hC q hq).1 x hx))))
    · exact List.mem_append.2 (.inr (List.mem_append.2 (.inr ((hC q hq).2 x hx))))

/-- Unification of plain types comes to an end, with a substitution or an error, and more levels change
nothing; and the substitution can be applied to any plain type. -/
theorem ends_partial (eqs : List (Ty × Ty)) (h : ∀ p ∈ eqs, Plain true p.1 ∧ Plain true p.2) :
    ∃ N o, o ≠ .more ∧ (∀ n, N ≤ n → solve n eqs = o) ∧
      ∀ s, o = .ok s → ∀ t, Plain true t → ∃ t' M, ∀ m, M ≤ m → applySubst m s t = some t' := by
  obtain ⟨V, hV⟩ := within_eqs eqs h
  obtain ⟨N, o, e, f⟩ := solve_ends (V := V) _ eqs rfl fun p hp => ⟨h p hp, hV p hp⟩
  refine ⟨N, o, ?_, e, ?_⟩
  · rintro rfl
    exact f
  · rintro s rfl t ht
    obtain ⟨W, hW⟩ := within_some t ht
    have hi : Inv (V ++ W) s := ⟨f.1.tri, f.1.plain, fun p hp x hx =>
      List.mem_append.2 (.inl (f.1.within p hp x hx))⟩
    obtain ⟨t', M, e', _⟩ := res hi ht fun x hx => List.mem_append.2 (.inr (hW x hx))
    exact ⟨t', M, e'⟩

/-- `{x: number, ..a}`. -/
def recX : Ty := .record [("x", false, .prim .number)] false ["a"]
/-- `{y: number, ..b}`. -/
def recY : Ty := .record [("y", false, .prim .number)] false ["b"]

def loopSub : Sub :=
  [("b", .record [("x", false, .prim .number)] true ["a"]),
   ("a", .record [("y", false, .prim .number)] true ["b"])]

theorem loop_made : ∀ n, unify (n + 4) recX recY [] = .ok loopSub := by
  intro n
  rfl

theorem loop_never (n : Nat) : applySubst n loopSub (.var "a" .star) = none ∧
    applySubst n loopSub (.var "b" .star) = none ∧
    applySubst n loopSub (.record [("x", false, .prim .number)] true ["a"]) = none ∧
    applySubst n loopSub (.record [("y", false, .prim .number)] true ["b"]) = none := by
  have ga : get "a" loopSub = some (.record [("y", false, .prim .number)] true ["b"]) := rfl
  have gb : get "b" loopSub = some (.record [("x", false, .prim .number)] true ["a"]) := rfl
  have h0 : loopSub ≠ [] := by simp [loopSub]
  induction n with
  | zero => exact ⟨rfl, rfl, rfl, rfl⟩
  | succ n ih =>
    obtain ⟨i1, i2, i3, i4⟩ := ih
    refine ⟨?_, ?_, ?_, ?_⟩
    · simp only [applySubst, if_neg h0, ga, i4]
    · simp only [applySubst, if_neg h0, gb, i3]
    · simp only [applySubst, if_neg h0]
      cases mapO (fun f => (applySubst n loopSub f.2.2).map fun t => (f.1, f.2.1, t))
        [("x", false, Ty.prim .number)] with
      | none => rfl
      | some fs =>
        simp only [applyRows, applyRow, ga, i4, Option.map_none]
    · simp only [applySubst, if_neg h0]
      cases mapO (fun f => (applySubst n loopSub f.2.2).map fun t => (f.1, f.2.1, t))
        [("y", false, Ty.prim .number)] with
      | none => rfl
      | some fs =>
        simp only [applyRows, applyRow, gb, i3, Option.map_none]

theorem loop_rec (n : Nat) (o : Bool) :
    applySubst (n + 1) loopSub (.record [("x", false, .prim .number)] o ["a"]) = none := by
  have h0 : loopSub ≠ [] := by simp [loopSub]
  have ga : get "a" loopSub = some (.record [("y", false, .prim .number)] true ["b"]) := rfl
  have i := (loop_never n).2.2.2
  simp only [applySubst, if_neg h0]
  cases mapO (fun f => (applySubst n loopSub f.2.2).map fun t => (f.1, f.2.1, t))
    [("x", false, Ty.prim .number)] with
  | none => rfl
  | some fs => simp only [applyRows, applyRow, ga, i, Option.map_none]

/-- Unification comes to an end, and what it gives can be applied: false. Two records with different
fields and row variables give a substitution that leads round in a circle, and the next use of it, here
unifying the same two types again, never comes back. -/
theorem ends_false :
    ¬ ∀ (eqs : List (Ty × Ty)), ∃ N o, o ≠ Out.more ∧ ∀ n, N ≤ n → solve n eqs = o := by
  intro h
  obtain ⟨N, o, ho, e⟩ := h [(recX, recY), (recX, recY)]
  refine ho ?_
  rw [← e (N + 4) (by omega)]
  have h1 : solve (N + 4) [(recX, recY), (recX, recY)] =
      (unify (N + 4) recX recY []).bind (unify (N + 4) recX recY) := rfl
  rw [h1, loop_made]
  show unify (N + 4) recX recY loopSub = .more
  have h2 : applySubst (N + 3) loopSub recX = none := loop_rec (N + 2) false
  rw [unify, h2]
  rfl

/-! ## C127: the order does not matter -/

/-- Whether it succeeds. -/
def Out.isOk : Out → Bool
  | .ok _ => true
  | _ => false

/-- If types unify, so they do the other way round: false of open records. -/
theorem symm_false :
    ¬ ∀ (n : Nat) (a c : Ty) (s : Sub), unify n a c [] = .ok s → ∃ m s', unify m c a [] = .ok s' := by
  intro h
  obtain ⟨m, s', h'⟩ := h 3 (.record [] true []) (.record [("x", false, .prim .number)] false []) [] rfl
  have : ∀ m, unify m (.record [("x", false, .prim .number)] false []) (.record [] true []) [] ≠ .ok s' := by
    intro m
    match m with
    | 0 => simp [unify]
    | 1 => simp [unify, applySubst, withApplied]
    | m + 2 =>
      have : unify (m + 2) (.record [("x", false, .prim .number)] false []) (.record [] true []) [] =
          .fail (.mismatch (.record [("x", false, .prim .number)] false []) (.record [] true [])) := rfl
      rw [this]
      simp
  exact this m h'

theorem Same.symm {σ : String → Ty} {a c : Ty} (h : Same σ a c) : Same σ c a := Eq.symm h

/-- Of plain types: if they unify by a choice of types of values, so they do the other way round, and the
choices left are the same. -/
theorem symm_partial {n : Nat} {a c : Ty} (ha : Plain false a) (hc : Plain false c) {s : Sub}
    (h : unify n a c [] = .ok s) {σ : String → Ty} (hσ : Solves σ s) (hk : Kinds σ) :
    ∃ m s', unify m c a [] = .ok s' ∧ ∀ τ, Solves τ s ↔ Solves τ s' := by
  have up : ∀ t, Plain false t → Plain true t := plain_up
  have hs : solve n [(a, c)] = .ok s := h
  obtain ⟨N, o, ho, e, _⟩ := ends_partial [(c, a)] (by simp [up a ha, up c hc])
  have i1 := solve_iff_partial (n := n) (eqs := [(a, c)]) (by simp [up a ha, up c hc]) hs
  have e' := e N (Nat.le_refl _)
  cases o with
  | more => exact absurd rfl ho
  | ok s' =>
    refine ⟨N, s', e', fun τ => ?_⟩
    have i2 := solve_iff_partial (n := N) (eqs := [(c, a)]) (by simp [up a ha, up c hc]) e' τ
    rw [i1 τ, i2]
    simp only [List.mem_singleton, forall_eq]
    exact ⟨Same.symm, Same.symm⟩
  | fail x =>
    exfalso
    refine solve_fails_partial (n := N) (eqs := [(c, a)]) (by simp [ha, hc]) e' σ hk ?_
    have := (i1 σ).1 hσ
    simp only [List.mem_singleton, forall_eq] at this ⊢
    exact this.symm

/-! ## Quantifiers -/

/-- A quantified type unifies with what one of its instances unifies with: false. New variables are
numbered from 0 each time, and are taken for those of the other type. -/
theorem forall_false :
    ¬ ∀ (n : Nat) (x : String) (b i c : Ty) (s : Sub), structSubst n x i b = some c →
      ∀ t, unify n c t [] = .ok s → ∃ m s', unify m (.forall_ [(x, .star)] b) t [] = .ok s' := by
  intro h
  obtain ⟨m, s', h'⟩ := h 5 "a" (.function (.var "a" .star) (.prim .number)) (.prim .string)
    (.function (.prim .string) (.prim .number)) [("_t0", .prim .number)] rfl
    (.function (.prim .string) (.var "_t0" .star)) rfl
  match m with
  | 0 => simp [unify] at h'
  | 1 => simp [unify, applySubst, withApplied] at h'
  | 2 =>
    have : (unify 2 (.forall_ [("a", .star)] (.function (.var "a" .star) (.prim .number)))
      (.function (.prim .string) (.var "_t0" .star)) []).isOk = false := by decide +kernel
    rw [h'] at this
    cases this
  | 3 =>
    have : (unify 3 (.forall_ [("a", .star)] (.function (.var "a" .star) (.prim .number)))
      (.function (.prim .string) (.var "_t0" .star)) []).isOk = false := by decide +kernel
    rw [h'] at this
    cases this
  | 4 =>
    have : (unify 4 (.forall_ [("a", .star)] (.function (.var "a" .star) (.prim .number)))
      (.function (.prim .string) (.var "_t0" .star)) []).isOk = false := by decide +kernel
    rw [h'] at this
    cases this
  | m + 5 =>
    have : unify (m + 5) (.forall_ [("a", .star)] (.function (.var "a" .star) (.prim .number)))
      (.function (.prim .string) (.var "_t0" .star)) [] =
        .fail (.mismatch (.prim .number) (.prim .string)) := rfl
    rw [this] at h'
    cases h'

/-! ## Cases -/

/-- `map`: `(a → b) → [a] → [b]` against `(number → string)` and `[number]`. -/
def mapEqs : List (Ty × Ty) :=
  [(.function (.var "a" .star) (.var "b" .star), .function (.prim .number) (.litString "x")),
   (.app (.con "List") (.var "a" .star), .app (.con "NonEmpty") (.prim .number))]

example : solve 5 mapEqs = .ok [("b", .prim .string), ("a", .prim .number)] := rfl

example : ∀ p ∈ mapEqs, Plain true p.1 ∧ Plain true p.2 := by
  simp [mapEqs, Plain]

example (σ : String → Ty) : (∀ p ∈ mapEqs, Same σ p.1 p.2) ↔
    Solves σ [("b", .prim .string), ("a", .prim .number)] :=
  (solve_iff_partial (n := 5) (by simp [mapEqs, Plain]) rfl σ).symm

/-- A failure, by the occurs check, of types that are plain. -/
example : solve 5 [(.var "a" .star, .function (.var "a" .star) (.prim .number))] =
    .fail (.occursCheck "a" (.function (.var "a" .star) (.prim .number))) := rfl

/-! ## Kinds and names -/

/-- A constructor applied to a type has the kind that it leads to. -/
theorem kind_app {f : Ty} {a r : Kind} (h : kindOf f = .arrow a r) (x : Ty) : kindOf (.app f x) = r := by
  simp [kindOf, h]

/-- The variables of a quantified type are numbered from 0 on, each with its kind. -/
theorem fresh_numbered (i : Nat) (bs : List (String × Kind)) (s : Sub) : freshNames i bs s =
    ((bs.zipIdx i).map fun q => (q.1.1, Ty.var ("_t" ++ toString q.2) q.1.2)).reverse ++ s := by
  induction bs generalizing i s with
  | nil => rfl
  | cons p bs ih => simp [freshNames, ih, List.zipIdx_cons]

example : kindOf (.var "f" (.arrow (.arrow .star .star) .star)) = .arrow (.arrow .star .star) .star := rfl

end Verif.Unify
