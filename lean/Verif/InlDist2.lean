import Verif.InlDist

/-!
# `distribute` does what it should without names

Proofs only.
-/

namespace Verif.Inl
variable {K : Type}

/-! ## Variables of the result -/

mutual
theorem occ_shift {P Q : Nat → Var → Prop} (H : ∀ d v, P d v → Q (d + 1) v) (x : Exp K) (d : Nat) (hx : Occ P d x) :
    Occ Q (d + 1) x := by
  match x with
  | .var v => exact H d v hx
  | .let_ t bs b => exact ⟨occB_shift H bs _ hx.1, occ_shift H b _ hx.2⟩
  | .lam i ps b => exact occ_shift H b (d + 1) hx
  | .app g xs => exact ⟨occ_shift H g d hx.1, occL_shift H xs d hx.2⟩
  | .lit p => trivial
  | .intrinsic n => trivial
  | .metaOf x m => exact ⟨occ_shift H x d hx.1, occ_shift H m d hx.2⟩
  | .node k xs => exact occL_shift H xs d hx
theorem occL_shift {P Q : Nat → Var → Prop} (H : ∀ d v, P d v → Q (d + 1) v) (xs : Exps K) (d : Nat) (hx : OccL P d xs) :
    OccL Q (d + 1) xs := by
  match xs with
  | .nil => trivial
  | .cons x xs => exact ⟨occ_shift H x d hx.1, occL_shift H xs d hx.2⟩
theorem occB_shift {P Q : Nat → Var → Prop} (H : ∀ d v, P d v → Q (d + 1) v) (xs : Binds K) (d : Nat) (hx : OccB P d xs) :
    OccB Q (d + 1) xs := by
  match xs with
  | .nil => trivial
  | .cons _ x xs => exact ⟨occ_shift H x d hx.1, occB_shift H xs d hx.2⟩
end

mutual
theorem occ_trav {P : Nat → Var → Prop} {f : Nat → Var → Exp K} (H : ∀ d v, P d v → Occ P d (f d v)) (x : Exp K) (d : Nat)
    (hx : Occ P d x) : Occ P d (x.trav f d) := by
  match x with
  | .var v => exact H d v hx
  | .let_ t bs b => exact ⟨occB_trav H bs _ hx.1, occ_trav H b _ hx.2⟩
  | .lam i ps b => exact occ_trav H b (d + 1) hx
  | .app g xs => exact ⟨occ_trav H g d hx.1, occL_trav H xs d hx.2⟩
  | .lit p => trivial
  | .intrinsic n => trivial
  | .metaOf x m => exact ⟨occ_trav H x d hx.1, occ_trav H m d hx.2⟩
  | .node k xs => exact occL_trav H xs d hx
theorem occL_trav {P : Nat → Var → Prop} {f : Nat → Var → Exp K} (H : ∀ d v, P d v → Occ P d (f d v)) (xs : Exps K) (d : Nat)
    (hx : OccL P d xs) : OccL P d (xs.trav f d) := by
  match xs with
  | .nil => trivial
  | .cons x xs => exact ⟨occ_trav H x d hx.1, occL_trav H xs d hx.2⟩
theorem occB_trav {P : Nat → Var → Prop} {f : Nat → Var → Exp K} (H : ∀ d v, P d v → Occ P d (f d v)) (xs : Binds K) (d : Nat)
    (hx : OccB P d xs) : OccB P d (xs.trav f d) := by
  match xs with
  | .nil => trivial
  | .cons _ x xs => exact ⟨occ_trav H x d hx.1, occB_trav H xs d hx.2⟩
end

theorem Closed.occ {e : Exp K} (h : Closed e) (G : Names) (d : Nat) : Occ (Good G) d e := by
  cases h with
  | lam hb _ _ => exact flat_occ _ d hb
  | intrinsic => trivial

theorem sVar_occ {Γ : List (Fr K)} (hc : Cl Γ) {G : Names} (d : Nat) (v : Var) (hv : Good G d v) : Occ (Good G) d (sVar Γ d v) := by
  cases v with
  | free n => exact hv
  | bound s i h =>
    simp only [sVar]
    split
    · exact hv
    · cases ha : inlAt Γ (s - d) i with
      | none => exact hv
      | some e => exact (hc _ _ _ ha).occ G d

theorem good_under {o : Option (List String)} {G : Names} (d : Nat) (v : Var) (h : Good (o :: G) d v) : Good G (d + 1) v := by
  cases v with
  | free n =>
    simp only [Good, unbound, List.all_cons, Bool.and_eq_true] at h
    exact h.2
  | bound s i h' =>
    rcases h with h | h
    · exact .inl (by omega)
    · by_cases h1 : s < d + 1
      · exact .inl h1
      · obtain ⟨j, hj⟩ : ∃ j, s = d + (j + 1) := ⟨s - d - 1, by omega⟩
        subst hj
        rw [show d + (j + 1) - d = j + 1 by omega] at h
        refine .inr ?_
        rw [show d + (j + 1) - (d + 1) = j by omega]
        cases o with
        | none => simpa [goodVar] using h
        | some ns =>
          simp only [goodVar, Bool.and_eq_true] at h
          exact h.1

theorem tameB_get {G : Names} (bs : Binds K) (hb : tameB G bs = true) (p : String × Exp K) (hp : p ∈ bs.list) :
    tame G p.2 = true := by
  match bs with
  | .nil => simp [Binds.list] at hp
  | .cons n x rest =>
    simp only [tameB, Bool.and_eq_true] at hb
    simp only [Binds.list, List.mem_cons] at hp
    rcases hp with rfl | hp
    · exact hb.1.2
    · exact tameB_get rest hb.2 p hp

theorem inls_closed {Γ : List (Fr K)} (hc : Cl Γ) {G : Names} {bs : Binds K} (hb : tameB G bs = true) (i : Nat) (e : Exp K)
    (h : inlsOf Γ bs i = some e) : Closed e := by
  unfold inlsOf at h
  cases hi : bs.list[i]? with
  | none => simp [hi] at h
  | some p =>
    simp only [hi, Option.bind_some] at h
    exact inlOf_closed hc (tameB_get bs hb p (List.mem_of_getElem? hi)) h

mutual
theorem D_occ {Γ : List (Fr K)} (hc : Cl Γ) (x : Exp K) (hx : tame (namesOf Γ) x = true) : Occ (Good (namesOf Γ)) 0 (D Γ x) := by
  match x with
  | .var v => exact sVar_occ hc 0 v (tame_occ (.var v) [] 0 rfl hx)
  | .let_ t bs b =>
    have hx' := hx
    simp only [tame, Bool.and_eq_true] at hx
    unfold D
    split
    · have := tame_occ _ [] 0 rfl hx'
      exact ⟨occB_trav (sVar_occ hc) bs 1 this.1, occ_trav (sVar_occ hc) b 1 this.2⟩
    · have hc' : Cl (.opened bs.names (inlsOf Γ bs) :: Γ) := hc.opened (inls_closed hc hx.1.2)
      exact ⟨occB_shift good_under _ 0 (DB_occ hc' bs hx.1.2), occ_shift good_under _ 0 (D_occ hc' b hx.2)⟩
  | .lam true ps b =>
    unfold D
    exact tame_occ (.lam true ps b) [] 0 rfl hx
  | .lam false ps b =>
    unfold D
    exact occ_shift good_under _ 0 (D_occ hc.lam b (by simpa [tame, namesOf] using hx))
  | .app g xs =>
    simp only [tame, Bool.and_eq_true] at hx
    unfold D
    exact ⟨D_occ hc g hx.1, DL_occ hc xs hx.2⟩
  | .lit p => unfold D; trivial
  | .intrinsic n => unfold D; trivial
  | .metaOf x m =>
    simp only [tame, Bool.and_eq_true] at hx
    unfold D
    exact ⟨D_occ hc x hx.1, D_occ hc m hx.2⟩
  | .node k xs =>
    unfold D
    exact DL_occ hc xs (by simpa [tame] using hx)
theorem DL_occ {Γ : List (Fr K)} (hc : Cl Γ) (xs : Exps K) (hx : tameL (namesOf Γ) xs = true) :
    OccL (Good (namesOf Γ)) 0 (DL Γ xs) := by
  match xs with
  | .nil => unfold DL; trivial
  | .cons x xs =>
    simp only [tameL, Bool.and_eq_true] at hx
    unfold DL
    exact ⟨D_occ hc x hx.1, DL_occ hc xs hx.2⟩
theorem DB_occ {Γ : List (Fr K)} (hc : Cl Γ) (xs : Binds K) (hx : tameB (namesOf Γ) xs = true) :
    OccB (Good (namesOf Γ)) 0 (DB Γ xs) := by
  match xs with
  | .nil => unfold DB; trivial
  | .cons n x xs =>
    simp only [tameB, Bool.and_eq_true] at hx
    unfold DB
    exact ⟨D_occ hc x hx.1.2, DB_occ hc xs hx.2⟩
end

/-! ## What is put in -/

theorem opB_clear_var (Γ : List (Fr K)) (d s i : Nat) (h : Option String) : ∃ v, opB (clear Γ) d s i h = .var v := by
  induction Γ generalizing s d with
  | nil => exact ⟨_, rfl⟩
  | cons fr Γ ih =>
    cases fr with
    | lam =>
      cases s with
      | zero => exact ⟨_, rfl⟩
      | succ s => exact ih _ _
    | opened ns f =>
      cases s with
      | zero => exact ⟨_, rfl⟩
      | succ s => exact ih _ _

theorem peel_op (Γ : List (Fr K)) (d : Nat) (z : Exp K) :
    inlinable (peelMeta (z.trav (opVar (clear Γ)) d)) = inlinable (peelMeta z) ∧
      (inlinable (peelMeta z) = true → peelMeta (z.trav (opVar (clear Γ)) d) = (peelMeta z).trav (opVar (clear Γ)) d) := by
  induction z using Exp.rec (motive_2 := fun _ => True) (motive_3 := fun _ => True) with
  | var v =>
    have : ∃ w, opVar (clear Γ) d v = .var w := by
      cases v with
      | free n => exact ⟨_, rfl⟩
      | bound s i h =>
        simp only [opVar]
        split
        · exact ⟨_, rfl⟩
        · exact opB_clear_var Γ _ _ _ _
    obtain ⟨w, hw⟩ := this
    simp only [Exp.trav, hw]
    exact ⟨rfl, fun h => by simp [peelMeta, inlinable] at h⟩
  | lam i ps b _ => cases i <;> exact ⟨rfl, fun _ => rfl⟩
  | intrinsic n => exact ⟨rfl, fun _ => rfl⟩
  | metaOf x m ih _ => exact ih
  | let_ | app | lit | node => exact ⟨rfl, fun _ => rfl⟩
  | _ => trivial

theorem inl_op {Γ : List (Fr K)} (hc : Cl Γ) {ns : List String} {G : Names} {x : Exp K} (hx : tame G x = true) :
    (if inlinable (peelMeta (x.trav (opVar (.opened ns (fun _ => none) :: Γ)) 0)) then
      some (peelMeta (x.trav (opVar (.opened ns (fun _ => none) :: Γ)) 0)) else none) = inlOf Γ ns x := by
  have hc' : Cl (.opened ns (fun _ => none) :: Γ) := hc.opened (by simp)
  have hcl : ∀ e, inlOf Γ ns x = some e → Closed e := fun e h => inlOf_closed hc hx h
  rw [← clear_op hc']
  unfold inlOf at hcl ⊢
  obtain ⟨h1, h2⟩ := peel_op (.opened ns (fun _ => none) :: Γ) 0 (x.trav (sVar (.opened ns (fun _ => none) :: Γ)) 0)
  rw [h1]
  split
  case isTrue hi =>
    rw [h2 hi]
    rw [if_pos hi] at hcl
    rw [(hcl _ rfl).trav (fixes_opVar _)]
  case isFalse => rfl

theorem find_filterMap {α : Type} {g : α → Option (Exp K)} {l : List (String × α)} (hn : (l.map (·.1)).Nodup) {i : Nat} {p : String × α}
    (hi : l[i]? = some p) : findName (l.filterMap fun p => (g p.2).map (p.1, ·)) p.1 = g p.2 := by
  induction l generalizing i with
  | nil => simp at hi
  | cons q l ih =>
    simp only [List.map_cons, List.nodup_cons] at hn
    cases i with
    | zero =>
      simp only [List.getElem?_cons_zero, Option.some.injEq] at hi
      subst hi
      cases hg : g q.2 with
      | some e => simp [findName, hg]
      | none =>
        simp only [List.filterMap_cons, hg, Option.map_none]
        simp only [findName, Option.map_eq_none_iff, List.find?_eq_none, List.mem_filterMap]
        rintro r ⟨s, hs, hr⟩ he
        cases hgs : g s.2 with
        | none => simp [hgs] at hr
        | some e =>
          simp only [hgs, Option.map_some, Option.some.injEq] at hr
          subst hr
          simp only [beq_iff_eq] at he
          exact hn.1 (he ▸ List.mem_map_of_mem hs)
    | succ i =>
      simp only [List.getElem?_cons_succ] at hi
      have hne : ¬ q.1 = p.1 := fun e => hn.1 (e ▸ List.mem_map_of_mem (List.mem_of_getElem? hi))
      have := ih hn.2 hi
      cases hg : g q.2 with
      | none => simpa [List.filterMap_cons, hg] using this
      | some e => simpa [List.filterMap_cons, hg, findName, hne] using this

theorem filterMap_same {α β : Type} {f g : α → Option β} {l : List α} (h : ∀ a ∈ l, f a = g a) : l.filterMap f = l.filterMap g := by
  induction l with
  | nil => rfl
  | cons a l ih => simp only [List.filterMap_cons, h a (by simp), ih fun b hb => h b (by simp [hb])]

theorem find_mem {m : List (String × Exp K)} {n : String} {e : Exp K} (h : findName m n = some e) : (n, e) ∈ m := by
  unfold findName at h
  cases hf : m.find? (·.1 == n) with
  | none => simp [hf] at h
  | some p =>
    have h1 := List.find?_some hf
    have h2 := List.mem_of_find?_eq_some hf
    simp only [hf, Option.map_some, Option.some.injEq] at h
    simp only [beq_iff_eq] at h1
    subst h1 h
    exact h2

theorem rounds_id {m : List (String × Exp K)} (h : ∀ p ∈ m, Closed p.2) (n : Nat) : rounds n m = m := by
  have h1 : expandRound m = m := by
    unfold expandRound
    conv => rhs; rw [← List.map_id m]
    apply List.map_congr_left
    intro p hp
    simp only [id]
    rw [substs_eq, (h p hp).trav (fun _ _ _ => rfl)]
  induction n with
  | zero => rfl
  | succ n ih => rw [rounds, h1, ih]

mutual
theorem distribute_flat {n : Nat} (x : Exp K) (hx : flat n x = true) : ∃ N, ∀ k, N ≤ k → distribute k x = some x := by
  match x with
  | .var v => exact ⟨1, fun k hk => by obtain ⟨k, rfl⟩ : ∃ j, k = j + 1 := ⟨k - 1, by omega⟩; rfl⟩
  | .lit p => exact ⟨1, fun k hk => by obtain ⟨k, rfl⟩ : ∃ j, k = j + 1 := ⟨k - 1, by omega⟩; rfl⟩
  | .intrinsic _ => exact ⟨1, fun k hk => by obtain ⟨k, rfl⟩ : ∃ j, k = j + 1 := ⟨k - 1, by omega⟩; rfl⟩
  | .app e xs =>
    simp only [flat, Bool.and_eq_true] at hx
    obtain ⟨N, hN⟩ := distribute_flat e hx.1
    obtain ⟨M, hM⟩ := distribute_flatL xs hx.2
    refine ⟨max N M + 1, fun k hk => ?_⟩
    obtain ⟨k, rfl⟩ : ∃ j, k = j + 1 := ⟨k - 1, by omega⟩
    simp only [distribute, hN k (by omega), hM k (by omega)]
theorem distribute_flatL {n : Nat} (xs : Exps K) (hx : flatL n xs = true) : ∃ N, ∀ k, N ≤ k → xs.mapM (distribute k) = some xs := by
  match xs with
  | .nil => exact ⟨0, fun _ _ => rfl⟩
  | .cons x xs =>
    simp only [flatL, Bool.and_eq_true] at hx
    obtain ⟨N, hN⟩ := distribute_flat x hx.1
    obtain ⟨M, hM⟩ := distribute_flatL xs hx.2
    refine ⟨max N M, fun k hk => ?_⟩
    simp only [Exps.mapM, hN k (by omega), hM k (by omega)]
end

theorem Closed.distribute {e : Exp K} (h : Closed e) : ∃ N, ∀ k, N ≤ k → distribute k e = some e := by
  cases h with
  | intrinsic => exact ⟨1, fun k hk => by obtain ⟨k, rfl⟩ : ∃ j, k = j + 1 := ⟨k - 1, by omega⟩; rfl⟩
  | lam hb _ _ =>
    obtain ⟨N, hN⟩ := distribute_flat _ hb
    refine ⟨N + 1, fun k hk => ?_⟩
    obtain ⟨k, rfl⟩ : ∃ j, k = j + 1 := ⟨k - 1, by omega⟩
    simp only [Inl.distribute, hN k (by omega)]

/-- The mappings made at a let. -/
theorem mappings {Γ : List (Fr K)} (hc : Cl Γ) {bs : Binds K} (hb : tameB (some bs.names :: namesOf Γ) bs = true) (b : Exp K) :
    preExpand (inlines (openLet (bs.trav (opVar Γ) 1) b).1) =
      bs.list.filterMap fun p => (inlOf Γ bs.names p.2).map (p.1, ·) := by
  have h1 : inlines (openLet (bs.trav (opVar Γ) 1) b).1 = bs.list.filterMap fun p => (inlOf Γ bs.names p.2).map (p.1, ·) := by
    simp only [openLet, Binds.names_trav, Binds.list_trav, List.map_map, inlines, List.filterMap_map]
    apply filterMap_same
    intro p hp
    have ht := tameB_get bs hb p hp
    simp only [Function.comp_apply]
    rw [open_op hc p.2 (tame_occ p.2 [] 0 rfl ht), ← inl_op hc ht]
    split <;> rfl
  rw [h1, preExpand, rounds_id]
  intro p hp
  simp only [List.mem_filterMap] at hp
  obtain ⟨q, hq, hp⟩ := hp
  cases hi : inlOf Γ bs.names q.2 with
  | none => simp [hi] at hp
  | some e =>
    simp only [hi, Option.map_some, Option.some.injEq] at hp
    subst hp
    exact inlOf_closed hc (tameB_get bs hb q hq) hi

theorem Binds.of_map (bs : Binds K) (f : Nat → Var → Exp K) (d : Nat) :
    Binds.of (bs.list.map fun p => (p.1, p.2.trav f d)) = bs.trav f d := by
  rw [← Binds.list_trav, Binds.of_list]

theorem all_none_iff {Γ : List (Fr K)} {bs : Binds K} :
    (bs.list.filterMap fun p => (inlOf Γ bs.names p.2).map (p.1, ·)).isEmpty =
      bs.list.all fun p => (inlOf Γ bs.names p.2).isNone := by
  generalize bs.names = ns
  induction bs.list with
  | nil => rfl
  | cons p l ih =>
    cases hi : inlOf Γ ns p.2 with
    | none => simp [hi, ← ih]
    | some e => simp [hi]

mutual
/-- **`distribute` on what has been opened is distribution without names.** -/
theorem distribute_op {Γ : List (Fr K)} (hc : Cl Γ) (x : Exp K) (hx : tame (namesOf Γ) x = true) :
    ∃ N, ∀ k, N ≤ k → distribute k (x.trav (opVar Γ) 0) = some ((D Γ x).trav (opVar (clear Γ)) 0) := by
  match x with
  | .var v =>
    have h1 : (D Γ (.var v)).trav (opVar (clear Γ)) 0 = (Exp.var v).trav (opVar Γ) 0 := clear_op hc (.var v) 0
    rw [h1]
    have hvar : ∀ w : Var, ∃ N, ∀ k, N ≤ k → distribute (K := K) k (.var w) = some (.var w) := fun w =>
      ⟨1, fun k hk => by obtain ⟨k, rfl⟩ : ∃ j, k = j + 1 := ⟨k - 1, by omega⟩; rfl⟩
    cases v with
    | free n => exact hvar _
    | bound s i h =>
      simp only [Exp.trav, opVar, Nat.not_lt_zero, if_false, Nat.sub_zero]
      rcases opB_cases hc (by simpa [tame] using hx) with ⟨e, h1, _, h3⟩ | ⟨_, k, h3⟩ | ⟨_, h4, n, h5, h3⟩
      · rw [h3]; exact h1.distribute
      · rw [h3]; exact hvar _
      · rw [h3]; exact hvar _
  | .let_ t bs b =>
    have hx' := hx
    simp only [tame, Bool.and_eq_true, decide_eq_true_eq] at hx
    have hm := mappings hc hx.1.2 (b.trav (opVar Γ) 1)
    by_cases hall : (bs.list.all fun p => (inlOf Γ bs.names p.2).isNone) = true
    · refine ⟨1, fun k hk => ?_⟩
      obtain ⟨k, rfl⟩ : ∃ j, k = j + 1 := ⟨k - 1, by omega⟩
      have h1 : D Γ (.let_ t bs b) = (Exp.let_ t bs b).trav (sVar Γ) 0 := by
        rw [D, if_pos hall]; rfl
      rw [h1, clear_op hc]
      simp only [Exp.trav, distribute, hm, all_none_iff, hall, if_true]
    · have hc' : Cl (.opened bs.names (inlsOf Γ bs) :: Γ) := hc.opened (inls_closed hc hx.1.2)
      obtain ⟨N, hN⟩ := distribute_op hc' b hx.2
      obtain ⟨M, hM⟩ := distribute_opB hc' bs hx.1.2
      refine ⟨max N M + 1, fun k hk => ?_⟩
      obtain ⟨k, rfl⟩ : ∃ j, k = j + 1 := ⟨k - 1, by omega⟩
      have hfind1 : ∀ n e, findName (bs.list.filterMap fun p => (inlOf Γ bs.names p.2).map (p.1, ·)) n = some e → n ∈ bs.names := by
        intro n e h
        have := find_mem h
        simp only [List.mem_filterMap] at this
        obtain ⟨q, hq, hp⟩ := this
        cases hi : inlOf Γ bs.names q.2 with
        | none => simp [hi] at hp
        | some e =>
          simp only [hi, Option.map_some, Option.some.injEq, Prod.mk.injEq] at hp
          exact hp.1 ▸ List.mem_map_of_mem hq
      have hfind2 : ∀ i n, bs.names[i]? = some n →
          findName (bs.list.filterMap fun p => (inlOf Γ bs.names p.2).map (p.1, ·)) n = inlsOf Γ bs i := by
        intro i n h
        simp only [Binds.names, List.getElem?_map, Option.map_eq_some_iff] at h
        obtain ⟨p, hp, rfl⟩ := h
        rw [find_filterMap (g := inlOf Γ bs.names) hx.1.1 hp, inlsOf, hp]
        rfl
      have hsub : ∀ x : Exp K, tame (some bs.names :: namesOf Γ) x = true →
          substs (bs.list.filterMap fun p => (inlOf Γ bs.names p.2).map (p.1, ·)) ((x.trav (opVar Γ) 1).trav (openVar bs.names) 0) =
            x.trav (opVar (.opened bs.names (inlsOf Γ bs) :: Γ)) 0 := by
        intro x hx
        rw [open_op hc x (tame_occ x [] 0 rfl hx), subst_op hc hfind1 hfind2 x (tame_occ x [] 0 rfl hx)]
      have hbody : (openLet (bs.trav (opVar Γ) 1) (b.trav (opVar Γ) 1)).2 = (b.trav (opVar Γ) 1).trav (openVar bs.names) 0 := by
        simp only [openLet, Binds.names_trav]
      have hos : (openLet (bs.trav (opVar Γ) 1) (b.trav (opVar Γ) 1)).1 =
          bs.list.map fun p => (p.1, (p.2.trav (opVar Γ) 1).trav (openVar bs.names) 0) := by
        simp only [openLet, Binds.names_trav, Binds.list_trav, List.map_map]; rfl
      rw [hos] at hm
      have hmap : ∀ l : List (String × Exp K), (∀ p ∈ l, tame (some bs.names :: namesOf Γ) p.2 = true) →
          mapBindings (fun x => distribute k (substs (bs.list.filterMap fun p => (inlOf Γ bs.names p.2).map (p.1, ·)) x))
            (l.map fun p => (p.1, (p.2.trav (opVar Γ) 1).trav (openVar bs.names) 0)) =
          mapBindings (distribute k) (l.map fun p => (p.1, p.2.trav (opVar (.opened bs.names (inlsOf Γ bs) :: Γ)) 0)) := by
        intro l
        induction l with
        | nil => intro _; rfl
        | cons p l ih =>
          intro hl
          simp only [List.map_cons, mapBindings, hsub p.2 (hl p (by simp)), ih (fun q hq => hl q (by simp [hq]))]
      have hocc := D_occ hc' b hx.2
      have hoccB := DB_occ hc' bs hx.1.2
      have hcl : Cl (clear Γ) := Cl.clear Γ
      simp only [Exp.trav, distribute, hm, all_none_iff, hall, if_false, hos, hbody, hsub b hx.2, hN k (by omega),
        hmap bs.list (tameB_get bs hx.1.2), hM k (by omega), Bool.false_eq_true]
      rw [D, if_neg hall]
      simp only [Exp.trav, closeLet, List.map_map, DB_list]
      have hnames : List.map ((fun x => x.fst) ∘ ((fun p => (p.1, p.2.trav (opVar (clear (Fr.opened bs.names (inlsOf Γ bs) :: Γ))) 0)) ∘
          fun p => (p.1, D (Fr.opened bs.names (inlsOf Γ bs) :: Γ) p.2))) bs.list = bs.names := by
        simp [Binds.names, Function.comp_def]
      rw [hnames]
      have hcl2 : ∀ z : Exp K, Occ (Good (some bs.names :: namesOf Γ)) 0 z →
          (z.trav (opVar (clear (Fr.opened bs.names (inlsOf Γ bs) :: Γ))) 0).trav (closeVar bs.names) 0 = z.trav (opVar (clear Γ)) 1 :=
        fun z hz => close_op hcl hx.1.1 z (by rw [namesOf_clear]; exact hz)
      rw [hcl2 _ hocc]
      congr 2
      rw [← Binds.of_map, DB_list, List.map_map]
      congr 1
      apply List.map_congr_left
      intro p hp
      simp only [Function.comp_apply]
      rw [hcl2 _ (D_occ hc' p.2 (tameB_get bs hx.1.2 p hp))]
  | .lam true ps b =>
    have hcl : Closed (.lam true ps b) := tame_closed hx rfl
    rw [D, hcl.trav (fixes_opVar _), hcl.trav (fixes_opVar _)]
    exact hcl.distribute
  | .lam false ps b =>
    obtain ⟨N, hN⟩ := distribute_op hc.lam b (by simpa [tame, namesOf] using hx)
    refine ⟨N + 1, fun k hk => ?_⟩
    obtain ⟨k, rfl⟩ : ∃ j, k = j + 1 := ⟨k - 1, by omega⟩
    simp only [D, Exp.trav, Nat.zero_add, op_lam, distribute, hN k (by omega)]
    rfl
  | .app e xs =>
    simp only [tame, Bool.and_eq_true] at hx
    obtain ⟨N, hN⟩ := distribute_op hc e hx.1
    obtain ⟨M, hM⟩ := distribute_opL hc xs hx.2
    refine ⟨max N M + 1, fun k hk => ?_⟩
    obtain ⟨k, rfl⟩ : ∃ j, k = j + 1 := ⟨k - 1, by omega⟩
    simp only [D, Exp.trav, distribute, hN k (by omega), hM k (by omega)]
  | .lit p => exact ⟨1, fun k hk => by obtain ⟨k, rfl⟩ : ∃ j, k = j + 1 := ⟨k - 1, by omega⟩; simp only [D]; rfl⟩
  | .intrinsic n => exact ⟨1, fun k hk => by obtain ⟨k, rfl⟩ : ∃ j, k = j + 1 := ⟨k - 1, by omega⟩; simp only [D]; rfl⟩
  | .metaOf x m =>
    simp only [tame, Bool.and_eq_true] at hx
    obtain ⟨N, hN⟩ := distribute_op hc x hx.1
    obtain ⟨M, hM⟩ := distribute_op hc m hx.2
    refine ⟨max N M + 1, fun k hk => ?_⟩
    obtain ⟨k, rfl⟩ : ∃ j, k = j + 1 := ⟨k - 1, by omega⟩
    simp only [D, Exp.trav, distribute, hN k (by omega), hM k (by omega)]
  | .node kd xs =>
    obtain ⟨N, hN⟩ := distribute_opL hc xs (by simpa [tame] using hx)
    refine ⟨N + 1, fun k hk => ?_⟩
    obtain ⟨k, rfl⟩ : ∃ j, k = j + 1 := ⟨k - 1, by omega⟩
    simp only [D, Exp.trav, distribute, hN k (by omega)]
theorem distribute_opL {Γ : List (Fr K)} (hc : Cl Γ) (xs : Exps K) (hx : tameL (namesOf Γ) xs = true) :
    ∃ N, ∀ k, N ≤ k → (xs.trav (opVar Γ) 0).mapM (distribute k) = some ((DL Γ xs).trav (opVar (clear Γ)) 0) := by
  match xs with
  | .nil => exact ⟨0, fun _ _ => by simp only [DL]; rfl⟩
  | .cons x xs =>
    simp only [tameL, Bool.and_eq_true] at hx
    obtain ⟨N, hN⟩ := distribute_op hc x hx.1
    obtain ⟨M, hM⟩ := distribute_opL hc xs hx.2
    refine ⟨max N M, fun k hk => ?_⟩
    simp only [DL, Exps.trav, Exps.mapM, hN k (by omega), hM k (by omega)]
theorem distribute_opB {Γ : List (Fr K)} (hc : Cl Γ) (bs : Binds K) (hx : tameB (namesOf Γ) bs = true) :
    ∃ N, ∀ k, N ≤ k → mapBindings (distribute k) (bs.list.map fun p => (p.1, p.2.trav (opVar Γ) 0)) =
      some ((DB Γ bs).list.map fun p => (p.1, p.2.trav (opVar (clear Γ)) 0)) := by
  match bs with
  | .nil => exact ⟨0, fun _ _ => by simp only [DB]; rfl⟩
  | .cons n x rest =>
    simp only [tameB, Bool.and_eq_true] at hx
    obtain ⟨N, hN⟩ := distribute_op hc x hx.1.2
    obtain ⟨M, hM⟩ := distribute_opB hc rest hx.2
    refine ⟨max N M, fun k hk => ?_⟩
    simp only [DB, Binds.list, List.map_cons, mapBindings, hN k (by omega), hM k (by omega)]
end

theorem op_nil (x : Exp K) : x.trav (opVar []) 0 = x := by
  refine trav_id ?_ x 0
  intro d v
  cases v with
  | free n => rfl
  | bound s i h =>
    simp only [opVar, opB]
    split
    · rfl
    · congr 2; omega

/-- `distribute` on a tame program. -/
theorem distribute_eq (x : Exp K) (hx : tame [] x = true) : ∃ N, ∀ k, N ≤ k → distribute k x = some (D [] x) := by
  have := distribute_op (Γ := []) Cl.nil x hx
  simpa only [op_nil, clear] using this

end Verif.Inl
