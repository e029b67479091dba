import Verif.AnaLemmas

/-!
# Anaphora become parameters in the expected order (C37)

`m` is the collection of anaphora of an expression, each with the name of the
parameter it stands for, in the arbitrary order a hash map yields them.
-/

namespace Verif.Ana

variable {N : Type}

/-! ## The parameter list -/

theorem sort_isEmpty (as : List Anaphor) : (sort as).isEmpty = as.isEmpty := by
  have h := (sort_perm as).length_eq
  cases as with
  | nil => rfl
  | cons a as =>
    cases hs : sort (a :: as) with
    | nil => rw [hs] at h; simp at h
    | cons b bs => rfl

theorem filter_isEmpty {p : Anaphor → Bool} {as : List Anaphor} :
    (as.filter p).isEmpty = true ↔ ∀ a ∈ as, p a = false := by
  simp [List.filter_eq_nil_iff]

theorem kinds (a : Anaphor) :
    (a.isAnon = true ∧ a.isNum = false ∧ a.isImplicit = false) ∨
    (a.isAnon = false ∧ a.isNum = true ∧ a.isImplicit = false) ∨
    (a.isAnon = false ∧ a.isNum = false ∧ a.isImplicit = true) := by
  cases a <;> simp [Anaphor.isAnon, Anaphor.isNum, Anaphor.isImplicit]

theorem filter_all {p : Anaphor → Bool} {as : List Anaphor} (h : ∀ a ∈ as, p a = true) :
    as.filter p = as := List.filter_eq_self.2 h

theorem filter_none {p : Anaphor → Bool} {as : List Anaphor} (h : ∀ a ∈ as, p a = false) :
    as.filter p = [] := List.filter_eq_nil_iff.2 fun a ha => by simp [h a ha]

/-- Anonymous anaphora become parameters in the order of their occurrence
tokens, each exactly once. -/
theorem anonymous_pattern (dummy : Nat → N) (m : List (Anaphor × N))
    (hd : (m.map Prod.fst).Nodup) (hne : m ≠ []) (ha : ∀ p ∈ m, ∃ t, p.1 = .anon t) :
    ∃ ps : List (Nat × N), toBindingPattern dummy m = .ok (ps.map Prod.snd) ∧
      ps.Pairwise (fun p q => p.1 < q.1) ∧
      ∀ t x, (t, x) ∈ ps ↔ (Anaphor.anon t, x) ∈ m := by
  have hk : ∀ a ∈ m.map Prod.fst, a.isAnon = true ∧ a.isNum = false ∧ a.isImplicit = false := by
    intro a h
    obtain ⟨p, hp, rfl⟩ := List.mem_map.1 h
    obtain ⟨t, ht⟩ := ha p hp
    rw [ht]; exact ⟨rfl, rfl, rfl⟩
  have e1 : (m.map Prod.fst).filter Anaphor.isAnon = m.map Prod.fst := filter_all fun a h => (hk a h).1
  have e2 : (m.map Prod.fst).filter Anaphor.isNum = [] := filter_none fun a h => (hk a h).2.1
  have e3 : (m.map Prod.fst).filter Anaphor.isImplicit = [] := filter_none fun a h => (hk a h).2.2
  have hmem : ∀ a, a ∈ sort (m.map Prod.fst) ↔ a ∈ m.map Prod.fst := fun a => (sort_perm _).mem_iff
  obtain ⟨xs, hxs⟩ := names_exists (m := m) (as := sort (m.map Prod.fst)) fun a h => (hmem a).1 h
  have hmap := names_eq.1 hxs
  have hlen : (sort (m.map Prod.fst)).length = xs.length := by
    have := congrArg List.length hmap; simpa using this
  have hkind : ∀ a ∈ sort (m.map Prod.fst), Anaphor.anon a.smid = a := by
    intro a h
    obtain ⟨p, hp, rfl⟩ := List.mem_map.1 ((hmem a).1 h)
    obtain ⟨t, ht⟩ := ha p hp
    rw [ht]; rfl
  refine ⟨((sort (m.map Prod.fst)).map Anaphor.smid).zip xs, ?_, ?_, ?_⟩
  · rw [List.map_snd_zip (by simp [hlen])]
    unfold toBindingPattern sortAnaphora
    rw [e1, e2, e3]
    have hs : (sort (m.map Prod.fst)).isEmpty = false := by
      rw [sort_isEmpty]; cases m <;> simp_all
    dsimp only
    rw [hs]
    simp [sort, hxs, Pattern.ofOption]
  · have hinc := sort_inc hd
    generalize sort (m.map Prod.fst) = l at *
    clear hxs hmap hmem
    induction l generalizing xs with
    | nil => simp
    | cons a l ih =>
      cases xs with
      | nil => simp
      | cons x xs =>
        simp only [List.map_cons, List.zip_cons_cons, List.pairwise_cons]
        have hc := List.pairwise_cons.1 hinc
        refine ⟨?_, ih xs (by simpa using hlen) (fun b hb => hkind b (by simp [hb])) hc.2⟩
        rintro ⟨t, y⟩ hty
        have := (List.of_mem_zip hty).1
        obtain ⟨b, hb, rfl⟩ := List.mem_map.1 this
        have h1 := hc.1 b hb
        rw [← hkind a (by simp), ← hkind b (by simp [hb]), lt_anon] at h1
        exact h1
  · intro t x
    rw [← getName_mem hd]
    generalize sort (m.map Prod.fst) = l at *
    constructor
    · intro h
      clear hxs hmem
      induction l generalizing xs with
      | nil => simp at h
      | cons a l ih =>
        cases xs with
        | nil => simp at h
        | cons y ys =>
          simp only [List.map_cons, List.cons.injEq] at hmap
          simp only [List.map_cons, List.zip_cons_cons, List.mem_cons, Prod.mk.injEq] at h
          rcases h with ⟨rfl, rfl⟩ | h
          · rw [hkind a (by simp)]; exact hmap.1
          · exact ih ys hmap.2 (by simpa using hlen) (fun b hb => hkind b (by simp [hb])) h
    · intro h
      have hin : Anaphor.anon t ∈ l := by
        rw [hmem]
        exact List.mem_map.2 ⟨_, (getName_mem hd).1 h, rfl⟩
      clear hxs hmem
      induction l generalizing xs with
      | nil => simp at hin
      | cons a l ih =>
        cases xs with
        | nil => simp at hlen
        | cons y ys =>
          simp only [List.map_cons, List.cons.injEq] at hmap
          simp only [List.map_cons, List.zip_cons_cons, List.mem_cons, Prod.mk.injEq]
          rcases List.mem_cons.1 hin with rfl | hin
          · left
            rw [hmap.1] at h
            exact ⟨rfl, (Option.some.inj h).symm⟩
          · right
            exact ih ys hmap.2 (by simpa using hlen) (fun b hb => hkind b (by simp [hb])) hin

/-- Numbered anaphora: parameter `i` is the one for `_i`; positions below the
highest that are not used are filled with dummies; there are no further
parameters. -/
theorem numbered_pattern (dummy : Nat → N) (m : List (Anaphor × N))
    (hd : (m.map Prod.fst).Nodup) (hne : m ≠ [])
    (ha : ∀ p ∈ m, ∃ n : Nat, p.1 = .num n) :
    ∃ ns, toBindingPattern dummy m = .ok ns ∧
      (∀ (i : Nat) x, (Anaphor.num i, x) ∈ m → ns[i]? = some x) ∧
      (∀ (i k : Nat), i < k → (∀ x, (Anaphor.num i, x) ∉ m) → (∃ x, (Anaphor.num k, x) ∈ m) →
        ns[i]? = some (dummy i)) ∧
      (∀ i : Nat, (∀ (k : Nat) x, (Anaphor.num k, x) ∈ m → k < i) → ns[i]? = none) := by
  have hk : ∀ a ∈ m.map Prod.fst, a.isAnon = false ∧ a.isNum = true ∧ a.isImplicit = false := by
    intro a h
    obtain ⟨p, hp, rfl⟩ := List.mem_map.1 h
    obtain ⟨t, ht⟩ := ha p hp
    rw [ht]; exact ⟨rfl, rfl, rfl⟩
  have e1 : (m.map Prod.fst).filter Anaphor.isAnon = [] := filter_none fun a h => (hk a h).1
  have e2 : (m.map Prod.fst).filter Anaphor.isNum = m.map Prod.fst :=
    filter_all fun a h => (hk a h).2.1
  have e3 : (m.map Prod.fst).filter Anaphor.isImplicit = [] := filter_none fun a h => (hk a h).2.2
  have hmem : ∀ a, a ∈ sort (m.map Prod.fst) ↔ a ∈ m.map Prod.fst := fun a => (sort_perm _).mem_iff
  have hnum : ∀ n : Int, n ∈ (sort (m.map Prod.fst)).filterMap Anaphor.number ↔
      Anaphor.num n ∈ m.map Prod.fst := by
    intro n
    rw [List.mem_filterMap]
    constructor
    · rintro ⟨a, h1, h2⟩
      cases a <;> simp [Anaphor.number] at h2
      subst h2; exact (hmem _).1 h1
    · intro h; exact ⟨_, (hmem _).2 h, rfl⟩
  have hs : (sort (m.map Prod.fst)).isEmpty = false := by
    rw [sort_isEmpty]; cases m <;> simp_all
  unfold toBindingPattern sortAnaphora
  rw [e1, e2, e3]
  dsimp only
  rw [hs]
  simp only [sort, List.isEmpty_nil, if_true, Bool.false_eq_true, if_false, Nat.zero_add,
    Nat.add_zero, gt_iff_lt, Nat.lt_irrefl, Bool.not_true, Bool.not_false]
  cases hf : (sort (m.map Prod.fst)).filterMap Anaphor.number with
  | nil =>
    exfalso
    cases m with
    | nil => exact hne rfl
    | cons p m =>
      obtain ⟨n, hn⟩ := ha p (by simp)
      have := (hnum n).2 (by simp [hn])
      rw [hf] at this; simp at this
  | cons n ns =>
    rw [hf] at hnum
    obtain ⟨hmx1, hmx2⟩ := maxOf_spec ns n
    have hnn : ∀ k ∈ n :: ns, 0 ≤ k := by
      intro k hk'
      obtain ⟨p, hp, he⟩ := List.mem_map.1 ((hnum k).1 hk')
      obtain ⟨j, hj⟩ := ha p hp
      rw [hj] at he; cases he; omega
    have hmx : 0 ≤ maxOf n ns := hnn _ hmx1
    have hpre : ∀ k ∈ n :: ns, 0 ≤ k ∧
        k.toNat < (List.replicate ((maxOf n ns).toNat + 1) (none : Option N)).length ∧
        (getName m (.num k)).isSome := by
      intro k hk'
      have h1 := hnn k hk'
      have h2 := hmx2 k hk'
      refine ⟨h1, by simp; omega, ?_⟩
      obtain ⟨x, hx⟩ := getName_isSome ((hnum k).1 hk')
      rw [hx]; rfl
    obtain ⟨w, hw, hl, hspec⟩ := place_spec (getName m) (n :: ns) _ hpre
    obtain ⟨hp1, hp2⟩ := padFrom_spec dummy w 0
    dsimp only
    rw [if_neg (by omega), hw]
    refine ⟨_, rfl, ?_, ?_, ?_⟩
    · intro i x hx
      have hin : (i : Int) ∈ n :: ns := (hnum i).2 (List.mem_map.2 ⟨_, hx, rfl⟩)
      have hle := (hpre i hin).2.1
      rw [hp2, hspec i (by simpa using hle), if_pos hin, (getName_mem hd).2 hx]
      rfl
    · rintro i k hik hno ⟨x, hx⟩
      have hin : (k : Int) ∈ n :: ns := (hnum k).2 (List.mem_map.2 ⟨_, hx, rfl⟩)
      have hle := (hpre k hin).2.1
      have hle' : i < (List.replicate ((maxOf n ns).toNat + 1) (none : Option N)).length := by
        simp only [List.length_replicate, Int.toNat_natCast] at *; omega
      have hni : (i : Int) ∉ n :: ns := by
        intro h
        obtain ⟨p, hp, he⟩ := List.mem_map.1 ((hnum i).1 h)
        exact hno p.2 (by rw [← he]; exact hp)
      rw [hp2, hspec i hle', if_neg hni]
      rw [List.getElem?_eq_getElem hle']
      simp
    · intro i hi
      have h1 : ((maxOf n ns).toNat) < i := by
        obtain ⟨p, hp, he⟩ := List.mem_map.1 ((hnum _).1 hmx1)
        refine hi (maxOf n ns).toNat p.2 ?_
        have : ((maxOf n ns).toNat : Int) = maxOf n ns := Int.toNat_of_nonneg hmx
        rw [this, ← he]; exact hp
      rw [hp2, List.getElem?_eq_none (by rw [hl]; simp; omega)]
      rfl

/-- Sections: the implied operands become parameters in the order of their
operators, the left operand of an operator before its right operand. -/
theorem section_pattern (dummy : Nat → N) (m : List (Anaphor × N))
    (hd : (m.map Prod.fst).Nodup) (hne : m ≠ []) (ha : ∀ p ∈ m, ∃ t s, p.1 = .implicit t s) :
    ∃ ks : List Anaphor, ∃ xs, toBindingPattern dummy m = .ok xs ∧
      ks.map (getName m) = xs.map some ∧ (∀ a, a ∈ ks ↔ ∃ x, (a, x) ∈ m) ∧
      ks.Pairwise fun a b => ∃ t s t' s', a = .implicit t s ∧ b = .implicit t' s' ∧
        (t < t' ∨ (t = t' ∧ s = .left ∧ s' = .right)) := by
  have hk : ∀ a ∈ m.map Prod.fst, a.isAnon = false ∧ a.isNum = false ∧ a.isImplicit = true := by
    intro a h
    obtain ⟨p, hp, rfl⟩ := List.mem_map.1 h
    obtain ⟨t, s, ht⟩ := ha p hp
    rw [ht]; exact ⟨rfl, rfl, rfl⟩
  have e1 : (m.map Prod.fst).filter Anaphor.isAnon = [] := filter_none fun a h => (hk a h).1
  have e2 : (m.map Prod.fst).filter Anaphor.isNum = [] := filter_none fun a h => (hk a h).2.1
  have e3 : (m.map Prod.fst).filter Anaphor.isImplicit = m.map Prod.fst :=
    filter_all fun a h => (hk a h).2.2
  have hmem : ∀ a, a ∈ sort (m.map Prod.fst) ↔ a ∈ m.map Prod.fst := fun a => (sort_perm _).mem_iff
  obtain ⟨xs, hxs⟩ := names_exists (m := m) (as := sort (m.map Prod.fst)) fun a h => (hmem a).1 h
  refine ⟨sort (m.map Prod.fst), xs, ?_, names_eq.1 hxs, ?_, ?_⟩
  · unfold toBindingPattern sortAnaphora
    rw [e1, e2, e3]
    have hs : (sort (m.map Prod.fst)).isEmpty = false := by
      rw [sort_isEmpty]; cases m <;> simp_all
    dsimp only
    rw [hs]
    simp [sort, hxs, Pattern.ofOption]
  · intro a
    rw [hmem]
    simp
  · refine (sort_inc hd).imp_of_mem ?_
    intro a b hma hmb hlt
    obtain ⟨p, hp, rfl⟩ := List.mem_map.1 ((hmem a).1 hma)
    obtain ⟨q, hq, rfl⟩ := List.mem_map.1 ((hmem b).1 hmb)
    obtain ⟨t, s, h1⟩ := ha p hp
    obtain ⟨t', s', h2⟩ := ha q hq
    rw [h1, h2, lt_implicit] at hlt
    exact ⟨t, s, t', s', h1, h2, hlt⟩

/-- The three kinds. -/
inductive Kind
  | anonymous | numbered | section
  deriving DecidableEq

def Anaphor.kind : Anaphor → Kind
  | .anon _ => .anonymous
  | .num _ => .numbered
  | .implicit _ _ => .section

theorem types_count (m : List (Anaphor × N)) :
    (if (sort ((m.map Prod.fst).filter Anaphor.isAnon)).isEmpty then 0 else 1)
      + (if (sort ((m.map Prod.fst).filter Anaphor.isNum)).isEmpty then 0 else 1)
      + (if (sort ((m.map Prod.fst).filter Anaphor.isImplicit)).isEmpty then 0 else 1) > 1 ↔
    ∃ p ∈ m, ∃ q ∈ m, p.1.kind ≠ q.1.kind := by
  have key : ∀ (f : Anaphor → Bool) (k : Kind), (∀ a, f a = true ↔ a.kind = k) →
      ((sort ((m.map Prod.fst).filter f)).isEmpty = true ↔ ∀ p ∈ m, p.1.kind ≠ k) := by
    intro f k hf
    rw [sort_isEmpty, filter_isEmpty]
    constructor
    · intro h p hp he
      have := h p.1 (List.mem_map.2 ⟨p, hp, rfl⟩)
      rw [(hf _).2 he] at this; cases this
    · intro h a ha
      obtain ⟨p, hp, rfl⟩ := List.mem_map.1 ha
      cases hfa : f p.1 with
      | false => rfl
      | true => exact absurd ((hf _).1 hfa) (h p hp)
  have k1 := key Anaphor.isAnon .anonymous (by intro a; cases a <;> simp [Anaphor.isAnon, Anaphor.kind])
  have k2 := key Anaphor.isNum .numbered (by intro a; cases a <;> simp [Anaphor.isNum, Anaphor.kind])
  have k3 := key Anaphor.isImplicit .section
    (by intro a; cases a <;> simp [Anaphor.isImplicit, Anaphor.kind])
  have ex : ∀ (k : Kind) (b : Bool), (b = true ↔ ∀ p ∈ m, p.1.kind ≠ k) → b = false →
      ∃ p ∈ m, p.1.kind = k := by
    intro k b hb hf
    apply Classical.byContradiction
    intro hn
    have : b = true := hb.2 fun p hp he => hn ⟨p, hp, he⟩
    rw [hf] at this; cases this
  generalize (sort ((m.map Prod.fst).filter Anaphor.isAnon)).isEmpty = b1 at *
  generalize (sort ((m.map Prod.fst).filter Anaphor.isNum)).isEmpty = b2 at *
  generalize (sort ((m.map Prod.fst).filter Anaphor.isImplicit)).isEmpty = b3 at *
  constructor
  · intro h
    have hcase : (b1 = false ∧ b2 = false) ∨ (b1 = false ∧ b3 = false) ∨ (b2 = false ∧ b3 = false) := by
      cases b1 <;> cases b2 <;> cases b3 <;> simp_all
    rcases hcase with ⟨h1, h2⟩ | ⟨h1, h2⟩ | ⟨h1, h2⟩
    · obtain ⟨p, hp, hpk⟩ := ex _ _ k1 h1
      obtain ⟨q, hq, hqk⟩ := ex _ _ k2 h2
      exact ⟨p, hp, q, hq, by rw [hpk, hqk]; decide⟩
    · obtain ⟨p, hp, hpk⟩ := ex _ _ k1 h1
      obtain ⟨q, hq, hqk⟩ := ex _ _ k3 h2
      exact ⟨p, hp, q, hq, by rw [hpk, hqk]; decide⟩
    · obtain ⟨p, hp, hpk⟩ := ex _ _ k2 h1
      obtain ⟨q, hq, hqk⟩ := ex _ _ k3 h2
      exact ⟨p, hp, q, hq, by rw [hpk, hqk]; decide⟩
  · rintro ⟨p, hp, q, hq, hne⟩
    cases hpk : p.1.kind <;> cases hqk : q.1.kind <;> rw [hpk, hqk] at hne <;>
      first
        | exact absurd rfl hne
        | (have h1 := fun h => k1.1 h p hp hpk
           have h2 := fun h => k2.1 h q hq hqk
           cases b1 <;> cases b2 <;> cases b3 <;> simp_all; done)
        | (have h1 := fun h => k1.1 h p hp hpk
           have h2 := fun h => k3.1 h q hq hqk
           cases b1 <;> cases b2 <;> cases b3 <;> simp_all; done)
        | (have h1 := fun h => k2.1 h p hp hpk
           have h2 := fun h => k1.1 h q hq hqk
           cases b1 <;> cases b2 <;> cases b3 <;> simp_all; done)
        | (have h1 := fun h => k2.1 h p hp hpk
           have h2 := fun h => k3.1 h q hq hqk
           cases b1 <;> cases b2 <;> cases b3 <;> simp_all; done)
        | (have h1 := fun h => k3.1 h p hp hpk
           have h2 := fun h => k1.1 h q hq hqk
           cases b1 <;> cases b2 <;> cases b3 <;> simp_all; done)
        | (have h1 := fun h => k3.1 h p hp hpk
           have h2 := fun h => k2.1 h q hq hqk
           cases b1 <;> cases b2 <;> cases b3 <;> simp_all; done)

/-- Mixing two kinds of anaphora in one expression is rejected, and nothing
else is. -/
theorem mixed_rejected (dummy : Nat → N) (m : List (Anaphor × N)) :
    (∃ s, toBindingPattern dummy m = .mixed s) ↔ ∃ p ∈ m, ∃ q ∈ m, p.1.kind ≠ q.1.kind := by
  rw [← types_count]
  unfold toBindingPattern sortAnaphora
  dsimp only
  generalize hA : sort ((m.map Prod.fst).filter Anaphor.isAnon) = A
  generalize hB : sort ((m.map Prod.fst).filter Anaphor.isNum) = B
  generalize hC : sort ((m.map Prod.fst).filter Anaphor.isImplicit) = C
  by_cases h : (if A.isEmpty then 0 else 1) + (if B.isEmpty then 0 else 1)
      + (if C.isEmpty then 0 else 1) > 1
  · rw [if_pos h]
    simp only [h, iff_true]
    cases A with
    | cons a as => exact ⟨a.smid, rfl⟩
    | nil =>
      cases C with
      | cons c cs => exact ⟨c.smid, rfl⟩
      | nil => cases B <;> simp at h
  · rw [if_neg h]
    simp only [h, iff_false]
    rintro ⟨s, hs⟩
    revert hs
    have ho : ∀ o : Option (List N), Pattern.ofOption o ≠ .mixed s := by
      intro o; cases o <;> simp [Pattern.ofOption]
    split
    · exact ho _
    · split
      · exact ho _
      · split
        · split
          · simp
          · split
            · simp
            · split <;> simp
        · simp

/-- A negative number crashes the compiler.  Such a number cannot be written as
`_-1`, but the string template `"{-1}"` makes one
(`target_text.parse::<i32>()`, rowan_ast.rs:2051). -/
theorem negative_number_panics (dummy : Nat → N) (m : List (Anaphor × N))
    (ha : ∀ p ∈ m, ∃ n : Int, p.1 = .num n) (hneg : ∃ p ∈ m, ∃ n : Int, p.1 = .num n ∧ n < 0) :
    toBindingPattern dummy m = .panic := by
  obtain ⟨p0, hp0, n0, hn0, hlt⟩ := hneg
  have hk : ∀ a ∈ m.map Prod.fst, a.isAnon = false ∧ a.isNum = true ∧ a.isImplicit = false := by
    intro a h
    obtain ⟨p, hp, rfl⟩ := List.mem_map.1 h
    obtain ⟨t, ht⟩ := ha p hp
    rw [ht]; exact ⟨rfl, rfl, rfl⟩
  have e1 : (m.map Prod.fst).filter Anaphor.isAnon = [] := filter_none fun a h => (hk a h).1
  have e2 : (m.map Prod.fst).filter Anaphor.isNum = m.map Prod.fst :=
    filter_all fun a h => (hk a h).2.1
  have e3 : (m.map Prod.fst).filter Anaphor.isImplicit = [] := filter_none fun a h => (hk a h).2.2
  have hmem : ∀ a, a ∈ sort (m.map Prod.fst) ↔ a ∈ m.map Prod.fst := fun a => (sort_perm _).mem_iff
  have hin : n0 ∈ (sort (m.map Prod.fst)).filterMap Anaphor.number := by
    rw [List.mem_filterMap]
    exact ⟨.num n0, (hmem _).2 (List.mem_map.2 ⟨p0, hp0, hn0⟩), rfl⟩
  have hs : (sort (m.map Prod.fst)).isEmpty = false := by
    rw [sort_isEmpty]; cases m <;> simp_all
  unfold toBindingPattern sortAnaphora
  rw [e1, e2, e3]
  dsimp only
  rw [hs]
  simp only [sort, List.isEmpty_nil, if_true, Bool.false_eq_true, if_false, Nat.zero_add,
    Nat.add_zero, gt_iff_lt, Nat.lt_irrefl, Bool.not_true, Bool.not_false]
  cases hf : (sort (m.map Prod.fst)).filterMap Anaphor.number with
  | nil => rfl
  | cons n ns =>
    rw [hf] at hin
    dsimp only
    split
    · rfl
    · rw [place_neg _ _ _ ⟨n0, hin, hlt⟩]

/-- The parameter list does not depend on the order in which the hash map is
iterated. -/
theorem pattern_order_free (dummy : Nat → N) (m m' : List (Anaphor × N))
    (hd : (m.map Prod.fst).Nodup) (hp : m.Perm m') :
    toBindingPattern dummy m = toBindingPattern dummy m' := by
  have hd' : (m'.map Prod.fst).Nodup := ((hp.map Prod.fst).nodup_iff).1 hd
  have hget : getName m = getName m' := by
    funext a
    cases h : getName m a with
    | some x => exact ((getName_mem hd').2 (hp.mem_iff.1 ((getName_mem hd).1 h))).symm
    | none =>
      cases h' : getName m' a with
      | none => rfl
      | some x =>
        rw [(getName_mem hd).2 (hp.mem_iff.2 ((getName_mem hd').1 h'))] at h; cases h
  have hnames : ∀ as, names m as = names m' as := by
    intro as
    induction as with
    | nil => rfl
    | cons a as ih => unfold names; rw [hget, ih]
  have hsort : ∀ f : Anaphor → Bool,
      sort ((m.map Prod.fst).filter f) = sort ((m'.map Prod.fst).filter f) := by
    intro f
    refine inc_unique (sort_inc (hd.filter f)) (sort_inc (hd'.filter f)) fun x => ?_
    rw [(sort_perm _).mem_iff, (sort_perm _).mem_iff]
    exact ((hp.map Prod.fst).filter f).mem_iff
  unfold toBindingPattern sortAnaphora
  rw [hsort, hsort, hsort, hget]
  dsimp only
  rw [hnames, hnames]

/-- Every anaphor of an accepted expression has its parameter. -/
theorem pattern_covers (dummy : Nat → N) (m : List (Anaphor × N)) (hd : (m.map Prod.fst).Nodup)
    (ns : List N) (h : toBindingPattern dummy m = .ok ns) : ∀ a x, (a, x) ∈ m → x ∈ ns := by
  intro a x hx
  have hne : m ≠ [] := by rintro rfl; simp at hx
  have hsame : ∀ p ∈ m, p.1.kind = a.kind := by
    intro p hp
    apply Classical.byContradiction
    intro hk
    obtain ⟨s, hs⟩ := (mixed_rejected dummy m).2 ⟨p, hp, (a, x), hx, hk⟩
    rw [h] at hs; cases hs
  cases a with
  | anon t =>
    obtain ⟨ps, hps, _, hm⟩ := anonymous_pattern dummy m hd hne (by
      intro p hp
      have := hsame p hp
      cases hq : p.1 <;> rw [hq] at this <;> first | exact ⟨_, rfl⟩ | cases this)
    rw [h] at hps
    cases hps
    exact List.mem_map.2 ⟨_, (hm t x).2 hx, rfl⟩
  | implicit t s =>
    obtain ⟨ks, xs, hps, hmap, hm, _⟩ := section_pattern dummy m hd hne (by
      intro p hp
      have := hsame p hp
      cases hq : p.1 <;> rw [hq] at this <;> first | exact ⟨_, _, rfl⟩ | cases this)
    rw [h] at hps
    cases hps
    have h1 : getName m (.implicit t s) ∈ ks.map (getName m) :=
      List.mem_map.2 ⟨_, (hm _).2 ⟨x, hx⟩, rfl⟩
    rw [hmap, (getName_mem hd).2 hx] at h1
    simpa using h1
  | num n =>
    have hall : ∀ p ∈ m, ∃ n : Int, p.1 = .num n := by
      intro p hp
      have := hsame p hp
      cases hq : p.1 <;> rw [hq] at this <;> first | exact ⟨_, rfl⟩ | cases this
    have hnn : ∀ p ∈ m, ∃ n : Nat, p.1 = .num n := by
      intro p hp
      obtain ⟨k, hk⟩ := hall p hp
      by_cases hlt : k < 0
      · have := negative_number_panics dummy m hall ⟨p, hp, k, hk, hlt⟩
        rw [h] at this; cases this
      · exact ⟨k.toNat, by rw [hk, Int.toNat_of_nonneg (by omega)]⟩
    obtain ⟨ns', h1, h2, _⟩ := numbered_pattern dummy m hd hne hnn
    rw [h] at h1
    cases h1
    obtain ⟨k, hk⟩ := hnn _ hx
    dsimp only at hk
    rw [hk] at hx
    exact List.mem_of_getElem? (h2 k x hx)

example : toBindingPattern (fun i => 100 + i)
    [(.anon 30, 3), (.anon 7, 1), (.anon 12, 2)] = .ok [1, 2, 3] := by decide
example : toBindingPattern (fun i => 100 + i)
    [(.num 12, 3), (.num 2, 1), (.num 0, 0)]
      = .ok [0, 101, 1, 103, 104, 105, 106, 107, 108, 109, 110, 111, 3] := by decide
example : toBindingPattern (fun i => 100 + i)
    [(.implicit 5 .right, 3), (.implicit 9 .left, 4), (.implicit 5 .left, 2)] = .ok [2, 3, 4] := by
  decide
example : toBindingPattern (fun i => 100 + i) [(.num 0, 3), (.anon 7, 1)] = .mixed 7 := by decide
example : toBindingPattern (fun i => 100 + i) [(.num (-1), 3)] = .panic := by decide
example : toBindingPattern (fun i => 100 + i) [(.num (-1), 3), (.num 2, 1)] = .panic := by decide

end Verif.Ana
