import Verif.InlTrav

/-!
# Distribution, without names

`distribute` opens every let it goes into, so that what it works on has free names where the program has variables.  Here it is
told what it does to the program itself.

Proofs only.
-/

namespace Verif.Inl
variable {K : Type}

/-- The scopes `distribute` is in: functions, and lets that have been opened, with what is put in for their names. -/
inductive Fr (K : Type) where
  | lam
  | opened (names : List String) (inl : Nat → Option (Exp K))

def namesOf : List (Fr K) → Names
  | [] => []
  | .lam :: Γ => none :: namesOf Γ
  | .opened ns _ :: Γ => some ns :: namesOf Γ

def clear : List (Fr K) → List (Fr K)
  | [] => []
  | .lam :: Γ => .lam :: clear Γ
  | .opened ns _ :: Γ => .opened ns (fun _ => none) :: clear Γ

/-- What a variable has become. -/
def opB : List (Fr K) → Nat → Nat → Nat → Option String → Exp K
  | [], d, s, i, h => .var (.bound (d + s) i h)
  | .lam :: _, d, 0, i, h => .var (.bound d i h)
  | .opened ns f :: _, _, 0, i, h => (f i).getD (.var (.free ((ns[i]?.or h).getD "_")))
  | .lam :: Γ, d, s + 1, i, h => opB Γ (d + 1) s i h
  | .opened _ _ :: Γ, d, s + 1, i, h => opB Γ d s i h

def opVar (Γ : List (Fr K)) (d : Nat) : Var → Exp K
  | .free n => .var (.free n)
  | .bound s i h => if s < d then .var (.bound s i h) else opB Γ d (s - d) i h

/-- What is put in for a variable. -/
def inlAt : List (Fr K) → Nat → Nat → Option (Exp K)
  | [], _, _ => none
  | .lam :: _, 0, _ => none
  | .opened _ f :: _, 0, i => f i
  | _ :: Γ, s + 1, i => inlAt Γ s i

def sVar (Γ : List (Fr K)) (d : Nat) : Var → Exp K
  | .free n => .var (.free n)
  | .bound s i h => if s < d then .var (.bound s i h) else (inlAt Γ (s - d) i).getD (.var (.bound s i h))

def Cl (Γ : List (Fr K)) : Prop := ∀ s i e, inlAt Γ s i = some e → Closed e

theorem Cl.nil : Cl ([] : List (Fr K)) := fun _ _ _ h => by simp [inlAt] at h

theorem Cl.lam {Γ : List (Fr K)} (h : Cl Γ) : Cl (.lam :: Γ) := fun s i e he => by
  cases s with
  | zero => simp [inlAt] at he
  | succ s => exact h s i e (by simpa [inlAt] using he)

theorem Cl.opened {Γ : List (Fr K)} (h : Cl Γ) {ns f} (hf : ∀ i e, f i = some e → Closed e) : Cl (.opened ns f :: Γ) :=
  fun s i e he => by
    cases s with
    | zero => exact hf i e (by simpa [inlAt] using he)
    | succ s => exact h s i e (by simpa [inlAt] using he)

theorem Cl.tail {fr : Fr K} {Γ : List (Fr K)} (h : Cl (fr :: Γ)) : Cl Γ := fun s i e he =>
  h (s + 1) i e (by cases fr <;> simpa [inlAt] using he)

theorem inlAt_clear (Γ : List (Fr K)) (s i : Nat) : inlAt (clear Γ) s i = none := by
  induction Γ generalizing s with
  | nil => rfl
  | cons fr Γ ih =>
    cases fr <;> cases s <;> simp [clear, inlAt, ih]

theorem Cl.clear (Γ : List (Fr K)) : Cl (clear Γ) := fun s i e he => by rw [inlAt_clear] at he; cases he

theorem namesOf_clear (Γ : List (Fr K)) : namesOf (clear Γ) = namesOf Γ := by
  induction Γ with
  | nil => rfl
  | cons fr Γ ih => cases fr <;> simp [Inl.clear, namesOf, ih]

theorem opB_cases {Γ : List (Fr K)} (hc : Cl Γ) {s i : Nat} {h : Option String} (hg : goodVar (namesOf Γ) s i h = true) :
    (∃ e, Closed e ∧ inlAt Γ s i = some e ∧ ∀ d, opB Γ d s i h = e) ∨
    (inlAt Γ s i = none ∧ ∃ k, ∀ d, opB Γ d s i h = .var (.bound (d + k) i h)) ∨
    (inlAt Γ s i = none ∧ isLam (namesOf Γ) s = false ∧ ∃ n, h = some n ∧ ∀ d, opB Γ d s i h = .var (.free n)) := by
  induction Γ generalizing s with
  | nil => simp [namesOf, goodVar] at hg
  | cons fr Γ ih =>
    cases fr with
    | lam =>
      cases s with
      | zero => exact .inr (.inl ⟨rfl, 0, fun d => rfl⟩)
      | succ s =>
        rcases ih hc.tail (by simpa [namesOf, goodVar] using hg) with ⟨e, h1, h2, h3⟩ | ⟨h2, k, h3⟩ | ⟨h2, h4, n, h5, h3⟩
        · exact .inl ⟨e, h1, h2, fun d => h3 (d + 1)⟩
        · exact .inr (.inl ⟨h2, k + 1, fun d => by simp only [opB, h3]; congr 2; omega⟩)
        · exact .inr (.inr ⟨h2, h4, n, h5, fun d => h3 (d + 1)⟩)
    | opened ns f =>
      cases s with
      | zero =>
        cases hf : f i with
        | some e => exact .inl ⟨e, hc 0 i e (by simp [inlAt, hf]), by simp [inlAt, hf], fun d => by simp [opB, hf]⟩
        | none =>
          simp only [namesOf, goodVar, Bool.and_eq_true, beq_iff_eq] at hg
          obtain ⟨hs, hn⟩ := hg
          cases h with
          | none => simp at hs
          | some n => exact .inr (.inr ⟨by simp [inlAt, hf], rfl, n, rfl, fun d => by simp [opB, hf, hn]⟩)
      | succ s =>
        simp only [namesOf, goodVar, Bool.and_eq_true] at hg
        rcases ih hc.tail hg.1 with ⟨e, h1, h2, h3⟩ | ⟨h2, k, h3⟩ | ⟨h2, h4, n, h5, h3⟩
        · exact .inl ⟨e, h1, h2, fun d => h3 d⟩
        · exact .inr (.inl ⟨h2, k, fun d => h3 d⟩)
        · exact .inr (.inr ⟨h2, h4, n, h5, fun d => h3 d⟩)

/-- A variable, with the scopes entered, is as `tame` wants it. -/
def Good (G : Names) (d : Nat) : Var → Prop
  | .free n => unbound G n = true
  | .bound s i h => s < d ∨ goodVar G (s - d) i h = true

theorem goodVar_append {Δ G : Names} {s i : Nat} {h : Option String} (hg : goodVar (Δ ++ G) s i h = true) :
    s < Δ.length ∨ goodVar G (s - Δ.length) i h = true := by
  induction Δ generalizing s with
  | nil => exact .inr hg
  | cons o Δ ih =>
    cases s with
    | zero => exact .inl (by simp)
    | succ s =>
      have : goodVar (Δ ++ G) s i h = true := by
        cases o with
        | none => simpa [goodVar] using hg
        | some ns =>
          simp only [List.cons_append, goodVar, Bool.and_eq_true] at hg
          exact hg.1
      rcases ih this with h | h
      · exact .inl (by simp; omega)
      · exact .inr (by simpa using h)

theorem good_append {Δ G : Names} {v : Var} {d : Nat} (hd : Δ.length = d)
    (hv : match v with | .free n => unbound (Δ ++ G) n = true | .bound s i h => goodVar (Δ ++ G) s i h = true) :
    Good G d v := by
  cases v with
  | free n =>
    simp only [unbound, List.all_append, Bool.and_eq_true] at hv
    exact hv.2
  | bound s i h =>
    subst hd
    exact goodVar_append hv

mutual
theorem flat_occ {n : Nat} {G : Names} (x : Exp K) (d : Nat) (hx : flat n x = true) : Occ (Good G) (d + 1) x := by
  match x with
  | .var (.bound s i h) =>
    simp only [flat, Bool.and_eq_true, beq_iff_eq, decide_eq_true_eq] at hx
    exact .inl (by omega)
  | .app e xs =>
    simp only [flat, Bool.and_eq_true] at hx
    exact ⟨flat_occ e d hx.1, flatL_occ xs d hx.2⟩
  | .lit p => trivial
  | .intrinsic _ => trivial
theorem flatL_occ {n : Nat} {G : Names} (xs : Exps K) (d : Nat) (hx : flatL n xs = true) : OccL (Good G) (d + 1) xs := by
  match xs with
  | .nil => trivial
  | .cons x xs =>
    simp only [flatL, Bool.and_eq_true] at hx
    exact ⟨flat_occ x d hx.1, flatL_occ xs d hx.2⟩
end

mutual
theorem tame_occ {G : Names} (x : Exp K) (Δ : Names) (d : Nat) (hd : Δ.length = d) (hx : tame (Δ ++ G) x = true) :
    Occ (Good G) d x := by
  match x with
  | .var (.free n) => exact good_append hd hx
  | .var (.bound s i h) => exact good_append hd hx
  | .let_ t bs b =>
    simp only [tame, Bool.and_eq_true] at hx
    exact ⟨tameB_occ bs (_ :: Δ) (d + 1) (by simp [hd]) hx.1.2, tame_occ b (_ :: Δ) (d + 1) (by simp [hd]) hx.2⟩
  | .lam true ps b =>
    simp only [tame, Bool.and_eq_true] at hx
    exact flat_occ b d hx.1.1
  | .lam false ps b => exact tame_occ b (_ :: Δ) (d + 1) (by simp [hd]) (by simpa [tame] using hx)
  | .app g xs =>
    simp only [tame, Bool.and_eq_true] at hx
    exact ⟨tame_occ g Δ d hd hx.1, tameL_occ xs Δ d hd hx.2⟩
  | .lit p => trivial
  | .intrinsic n => trivial
  | .metaOf x m =>
    simp only [tame, Bool.and_eq_true] at hx
    exact ⟨tame_occ x Δ d hd hx.1, tame_occ m Δ d hd hx.2⟩
  | .node k xs => exact tameL_occ xs Δ d hd (by simpa [tame] using hx)
theorem tameL_occ {G : Names} (xs : Exps K) (Δ : Names) (d : Nat) (hd : Δ.length = d) (hx : tameL (Δ ++ G) xs = true) :
    OccL (Good G) d xs := by
  match xs with
  | .nil => trivial
  | .cons x xs =>
    simp only [tameL, Bool.and_eq_true] at hx
    exact ⟨tame_occ x Δ d hd hx.1, tameL_occ xs Δ d hd hx.2⟩
theorem tameB_occ {G : Names} (xs : Binds K) (Δ : Names) (d : Nat) (hd : Δ.length = d) (hx : tameB (Δ ++ G) xs = true) :
    OccB (Good G) d xs := by
  match xs with
  | .nil => trivial
  | .cons n x xs =>
    simp only [tameB, Bool.and_eq_true] at hx
    exact ⟨tame_occ x Δ d hd hx.1.2, tameB_occ xs Δ d hd hx.2⟩
end

/-! ## Opening, putting in, closing -/

theorem fixes_openVar (ns : List String) (d i : Nat) (h : Option String) :
    openVar (K := K) ns (d + 1) (.bound 0 i h) = .var (.bound 0 i h) := by
  simp [openVar]

theorem fixes_closeVar (ns : List String) (d i : Nat) (h : Option String) :
    closeVar (K := K) ns (d + 1) (.bound 0 i h) = .var (.bound 0 i h) := by
  simp [closeVar]

theorem fixes_opVar (Γ : List (Fr K)) (d i : Nat) (h : Option String) :
    opVar Γ (d + 1) (.bound 0 i h) = .var (.bound 0 i h) := by
  simp [opVar]

/-- `substs` at a variable. -/
def substVar (m : List (String × Exp K)) (v : Var) : Exp K := match v with
  | .free n => (findName m n).getD (.var (.free n))
  | v => .var v

theorem substs_eq (m : List (String × Exp K)) (x : Exp K) : substs m x = x.trav (fun _ => substVar m) 0 := rfl

/-- Opening one let more. -/
theorem open_op {Γ : List (Fr K)} (hc : Cl Γ) {ns : List String} (x : Exp K)
    (hx : Occ (Good (some ns :: namesOf Γ)) 0 x) :
    (x.trav (opVar Γ) 1).trav (openVar ns) 0 = x.trav (opVar (.opened ns (fun _ => none) :: Γ)) 0 := by
  rw [trav_shift (g := fun d => opVar Γ (d + 1)) (fun _ _ => rfl)]
  refine trav_trav (P := Good (some ns :: namesOf Γ)) (k := 0) ?_ x 0 hx
  intro d v hv
  simp only [Nat.add_zero]
  cases v with
  | free n => simp [opVar, Exp.trav, openVar]
  | bound s i h =>
    by_cases h1 : s < d
    · have h2 : s < d + 1 := by omega
      have h3 : ¬ s = d := by omega
      have h4 : ¬ d < s := by omega
      simp [opVar, h1, h2, Exp.trav, openVar, h3, h4]
    · by_cases h2 : s = d
      · subst h2
        simp [opVar, Exp.trav, openVar, opB]
      · have h3 : ¬ s < d + 1 := by omega
        obtain ⟨j, hj⟩ : ∃ j, s = d + (j + 1) := ⟨s - d - 1, by omega⟩
        subst hj
        simp only [opVar, if_neg h1, if_neg h3, show d + (j + 1) - (d + 1) = j by omega, show d + (j + 1) - d = j + 1 by omega, opB]
        simp only [Good, show d + (j + 1) - d = j + 1 by omega, goodVar, Bool.and_eq_true] at hv
        rcases hv with hv | ⟨hv, hv'⟩
        · omega
        rcases opB_cases hc hv with ⟨e, h1, _, h3⟩ | ⟨_, k, h3⟩ | ⟨_, h4, n, h5, h3⟩
        · rw [h3, h3, h1.trav (fixes_openVar ns)]
        · rw [h3, h3]
          have h6 : ¬ d + 1 + k = d := by omega
          have h7 : d < d + 1 + k := by omega
          simp only [Exp.trav, openVar, if_neg h6, if_pos h7]
          congr 2; omega
        · rw [h3, h3]; simp [Exp.trav, openVar]

theorem unbound_cons {ns : List String} {G : Names} {n : String} (h : unbound (some ns :: G) n = true) :
    ns.contains n = false ∧ unbound G n = true := by
  simpa [unbound, Bool.and_eq_true] using h

/-- Putting in what the names stand for. -/
theorem subst_op {Γ : List (Fr K)} (hc : Cl Γ) {ns : List String} {m : List (String × Exp K)} {f : Nat → Option (Exp K)}
    (hm : ∀ n e, findName m n = some e → n ∈ ns) (hf : ∀ i n, ns[i]? = some n → findName m n = f i) (x : Exp K)
    (hx : Occ (Good (some ns :: namesOf Γ)) 0 x) :
    substs m (x.trav (opVar (.opened ns (fun _ => none) :: Γ)) 0) = x.trav (opVar (.opened ns f :: Γ)) 0 := by
  rw [substs_eq]
  have hnot : ∀ n, ns.contains n = false → findName m n = none := by
    intro n hn
    cases h : findName m n with
    | none => rfl
    | some e => simp [hm n e h] at hn
  refine trav_trav (P := Good (some ns :: namesOf Γ)) (k := 0) ?_ x 0 hx
  intro d v hv
  simp only [Nat.add_zero]
  cases v with
  | free n => simp [opVar, Exp.trav, substVar, hnot n (unbound_cons hv).1]
  | bound s i h =>
    by_cases h1 : s < d
    · simp [opVar, h1, Exp.trav, substVar]
    · by_cases h2 : s = d
      · subst h2
        simp only [Good, Nat.lt_irrefl, Nat.sub_self, goodVar, false_or, Bool.and_eq_true, beq_iff_eq] at hv
        obtain ⟨h3, h4⟩ := hv
        cases h with
        | none => simp at h3
        | some n => simp [opVar, opB, Exp.trav, substVar, h4, hf i n h4]
      · obtain ⟨j, hj⟩ : ∃ j, s = d + (j + 1) := ⟨s - d - 1, by omega⟩
        subst hj
        simp only [opVar, if_neg h1, show d + (j + 1) - d = j + 1 by omega, opB]
        simp only [Good, show d + (j + 1) - d = j + 1 by omega, goodVar, Bool.and_eq_true] at hv
        rcases hv with hv | ⟨hv, hv'⟩
        · omega
        rcases opB_cases hc hv with ⟨e, h1, _, h3⟩ | ⟨_, k, h3⟩ | ⟨_, h4, n, h5, h3⟩
        · rw [h3, h1.trav (fun _ _ _ => rfl)]
        · rw [h3]; simp [Exp.trav, substVar]
        · rw [h3]
          subst h5
          simp only [h4, Bool.false_or, Option.any_some, Bool.not_eq_true'] at hv'
          simp [Exp.trav, substVar, hnot n hv']

theorem findIdx_nodup {ns : List String} (hn : ns.Nodup) {i : Nat} {n : String} (h : ns[i]? = some n) :
    ns.findIdx? (· == n) = some i := by
  induction ns generalizing i with
  | nil => simp at h
  | cons m ns ih =>
    cases i with
    | zero => simp at h; simp [List.findIdx?_cons, h]
    | succ i =>
      simp only [List.getElem?_cons_succ] at h
      have hne : ¬ m = n := fun e => (List.nodup_cons.1 hn).1 (e ▸ List.mem_of_getElem? h)
      simp [List.findIdx?_cons, hne, ih (List.nodup_cons.1 hn).2 h]

theorem findIdx_not {ns : List String} {n : String} (h : ns.contains n = false) : ns.findIdx? (· == n) = none := by
  rw [List.findIdx?_eq_none_iff]
  intro m hm
  have : n ∉ ns := by simpa using h
  simp only [beq_eq_false_iff_ne]
  exact fun e => this (e ▸ hm)

/-- Closing again. -/
theorem close_op {Γ : List (Fr K)} (hc : Cl Γ) {ns : List String} (hn : ns.Nodup) (x : Exp K)
    (hx : Occ (Good (some ns :: namesOf Γ)) 0 x) :
    (x.trav (opVar (.opened ns (fun _ => none) :: Γ)) 0).trav (closeVar ns) 0 = x.trav (opVar Γ) 1 := by
  rw [trav_shift (f := opVar Γ) (g := fun d => opVar Γ (d + 1)) (fun _ _ => rfl)]
  refine trav_trav (P := Good (some ns :: namesOf Γ)) (k := 0) ?_ x 0 hx
  intro d v hv
  simp only [Nat.add_zero]
  cases v with
  | free n => simp [opVar, Exp.trav, closeVar, findIdx_not (unbound_cons hv).1]
  | bound s i h =>
    by_cases h1 : s < d
    · have h2 : s < d + 1 := by omega
      have h3 : ¬ d ≤ s := by omega
      simp [opVar, h1, h2, Exp.trav, closeVar, h3]
    · by_cases h2 : s = d
      · subst h2
        simp only [Good, Nat.lt_irrefl, Nat.sub_self, goodVar, false_or, Bool.and_eq_true, beq_iff_eq] at hv
        obtain ⟨h3, h4⟩ := hv
        cases h with
        | none => simp at h3
        | some n => simp [opVar, opB, Exp.trav, closeVar, h4, findIdx_nodup hn h4]
      · have h3 : ¬ s < d + 1 := by omega
        obtain ⟨j, hj⟩ : ∃ j, s = d + (j + 1) := ⟨s - d - 1, by omega⟩
        subst hj
        simp only [opVar, if_neg h1, if_neg h3, show d + (j + 1) - (d + 1) = j by omega, show d + (j + 1) - d = j + 1 by omega, opB]
        simp only [Good, show d + (j + 1) - d = j + 1 by omega, goodVar, Bool.and_eq_true] at hv
        rcases hv with hv | ⟨hv, hv'⟩
        · omega
        rcases opB_cases hc hv with ⟨e, h1, _, h3⟩ | ⟨_, k, h3⟩ | ⟨_, h4, n, h5, h3⟩
        · rw [h3, h3, h1.trav (fixes_closeVar ns)]
        · rw [h3, h3]
          have h6 : d ≤ d + k := by omega
          simp only [Exp.trav, closeVar, if_pos h6]
          congr 2; omega
        · rw [h3, h3]
          subst h5
          simp only [h4, Bool.false_or, Option.any_some, Bool.not_eq_true'] at hv'
          simp [Exp.trav, closeVar, findIdx_not hv']

theorem opB_clear {Γ : List (Fr K)} {s i : Nat} (hi : inlAt Γ s i = none) (h : Option String) (d : Nat) :
    opB (clear Γ) d s i h = opB Γ d s i h := by
  induction Γ generalizing s d with
  | nil => rfl
  | cons fr Γ ih =>
    cases fr with
    | lam =>
      cases s with
      | zero => rfl
      | succ s => exact ih (by simpa [inlAt] using hi) _
    | opened ns f =>
      cases s with
      | zero => simp [inlAt] at hi; simp [clear, opB, hi]
      | succ s => exact ih (by simpa [inlAt] using hi) _

theorem opB_inl {Γ : List (Fr K)} {s i : Nat} {e : Exp K} (hi : inlAt Γ s i = some e) (h : Option String) (d : Nat) :
    opB Γ d s i h = e := by
  induction Γ generalizing s d with
  | nil => simp [inlAt] at hi
  | cons fr Γ ih =>
    cases fr with
    | lam =>
      cases s with
      | zero => simp [inlAt] at hi
      | succ s => exact ih (by simpa [inlAt] using hi) _
    | opened ns f =>
      cases s with
      | zero => simp [inlAt] at hi; simp [opB, hi]
      | succ s => exact ih (by simpa [inlAt] using hi) _

/-- Putting in and opening are independent. -/
theorem clear_op {Γ : List (Fr K)} (hc : Cl Γ) (x : Exp K) (d : Nat) :
    (x.trav (sVar Γ) d).trav (opVar (clear Γ)) d = x.trav (opVar Γ) d := by
  refine trav_trav (P := fun _ _ => True) (k := 0) ?_ x d (occ_all (fun _ _ => trivial) x d)
  intro d v _
  simp only [Nat.add_zero]
  cases v with
  | free n => simp [sVar, opVar, Exp.trav]
  | bound s i h =>
    by_cases h1 : s < d
    · simp [sVar, opVar, h1, Exp.trav]
    · simp only [sVar, if_neg h1]
      have hop : opVar Γ d (.bound s i h) = opB Γ d (s - d) i h := by simp [opVar, h1]
      rw [hop]
      cases hi : inlAt Γ (s - d) i with
      | none =>
        simp only [Option.getD_none, Exp.trav, opVar, if_neg h1]
        exact opB_clear hi h d
      | some e =>
        simp only [Option.getD_some]
        rw [(hc _ _ _ hi).trav (fixes_opVar _), opB_inl hi]

theorem op_lam (Γ : List (Fr K)) (x : Exp K) : x.trav (opVar Γ) 1 = x.trav (opVar (.lam :: Γ)) 0 := by
  refine trav_shift ?_ x 0
  intro d v
  cases v with
  | free n => rfl
  | bound s i h =>
    by_cases h1 : s < d
    · have h2 : s < d + 1 := by omega
      simp [opVar, h1, h2]
    · by_cases h2 : s = d
      · subst h2; simp [opVar, opB]
      · have h3 : ¬ s < d + 1 := by omega
        obtain ⟨j, hj⟩ : ∃ j, s = d + (j + 1) := ⟨s - d - 1, by omega⟩
        subst hj
        simp only [opVar, if_neg h1, if_neg h3, show d + (j + 1) - (d + 1) = j by omega, show d + (j + 1) - d = j + 1 by omega, opB]

/-- Putting in under a scope. -/
theorem s_under {Γ : List (Fr K)} {fr : Fr K} (hf : ∀ i, inlAt (fr :: Γ) 0 i = none) (d : Nat) (v : Var) :
    sVar Γ (d + 1) v = sVar (fr :: Γ) d v := by
  have htail : ∀ s i, inlAt (fr :: Γ) (s + 1) i = inlAt Γ s i := fun s i => by cases fr <;> rfl
  cases v with
  | free n => rfl
  | bound s i h =>
    by_cases h1 : s < d
    · have h2 : s < d + 1 := by omega
      simp [sVar, h1, h2]
    · by_cases h2 : s = d
      · subst h2; simp [sVar, hf]
      · have h3 : ¬ s < d + 1 := by omega
        obtain ⟨j, hj⟩ : ∃ j, s = d + (j + 1) := ⟨s - d - 1, by omega⟩
        subst hj
        simp only [sVar, if_neg h1, if_neg h3, show d + (j + 1) - (d + 1) = j by omega, show d + (j + 1) - d = j + 1 by omega, htail]

/-! ## What is distributed -/

/-- What a binding of a let puts in, if anything. -/
def inlOf (Γ : List (Fr K)) (ns : List String) (x : Exp K) : Option (Exp K) :=
  if inlinable (peelMeta (x.trav (sVar (.opened ns (fun _ => none) :: Γ)) 0)) then
    some (peelMeta (x.trav (sVar (.opened ns (fun _ => none) :: Γ)) 0))
  else none

def inlsOf (Γ : List (Fr K)) (bs : Binds K) (i : Nat) : Option (Exp K) := bs.list[i]?.bind fun p => inlOf Γ bs.names p.2

mutual
/-- Distribution, without names. -/
def D (Γ : List (Fr K)) : Exp K → Exp K
  | .var v => sVar Γ 0 v
  | .let_ t bs b =>
    if bs.list.all fun p => (inlOf Γ bs.names p.2).isNone then .let_ t (bs.trav (sVar Γ) 1) (b.trav (sVar Γ) 1)
    else .let_ .other (DB (.opened bs.names (inlsOf Γ bs) :: Γ) bs) (D (.opened bs.names (inlsOf Γ bs) :: Γ) b)
  | .lam true ps b => .lam true ps b
  | .lam false ps b => .lam false ps (D (.lam :: Γ) b)
  | .app f xs => .app (D Γ f) (DL Γ xs)
  | .lit p => .lit p
  | .intrinsic n => .intrinsic n
  | .metaOf x m => .metaOf (D Γ x) (D Γ m)
  | .node k xs => .node k (DL Γ xs)
def DL (Γ : List (Fr K)) : Exps K → Exps K
  | .nil => .nil
  | .cons x xs => .cons (D Γ x) (DL Γ xs)
def DB (Γ : List (Fr K)) : Binds K → Binds K
  | .nil => .nil
  | .cons n x rest => .cons n (D Γ x) (DB Γ rest)
end

theorem DB_list (Γ : List (Fr K)) (bs : Binds K) : (DB Γ bs).list = bs.list.map fun p => (p.1, D Γ p.2) := by
  match bs with
  | .nil => simp [DB, Binds.list]
  | .cons n x rest => simp [DB, Binds.list, DB_list Γ rest]

theorem DB_names (Γ : List (Fr K)) (bs : Binds K) : (DB Γ bs).names = bs.names := by
  simp [Binds.names, DB_list]

/-- A tame expression that can be inlined once names are put in is closed. -/
theorem tame_closed {G : Names} {x : Exp K} (hx : tame G x = true) (h : inlinable x = true) : Closed x := by
  cases x with
  | lam i ps b =>
    cases i with
    | false => simp [inlinable] at h
    | true =>
      simp only [tame, Bool.and_eq_true, decide_eq_true_eq, Bool.not_eq_true', List.isEmpty_eq_false_iff] at hx
      exact .lam hx.1.1 hx.1.2 hx.2
  | intrinsic n => exact .intrinsic
  | _ => simp [inlinable] at h

theorem inlOf_closed {Γ : List (Fr K)} (hc : Cl Γ) {ns : List String} {G : Names} {x e : Exp K} (hx : tame G x = true)
    (h : inlOf Γ ns x = some e) : Closed e := by
  unfold inlOf at h
  generalize hΓ : (Fr.opened ns (fun _ => none) :: Γ : List (Fr K)) = Γ' at h
  have hc' : Cl Γ' := hΓ ▸ hc.opened (by simp)
  clear hΓ
  split at h
  case isFalse => cases h
  case isTrue hi =>
    cases h
    have key : ∀ x : Exp K, tame G x = true → inlinable (peelMeta (x.trav (sVar Γ') 0)) = true →
        Closed (peelMeta (x.trav (sVar Γ') 0)) := by
      intro x
      induction x using Exp.rec (motive_2 := fun _ => True) (motive_3 := fun _ => True) with
      | var v =>
        intro _ hi
        cases v with
        | free n => simp [Exp.trav, sVar, peelMeta, inlinable] at hi
        | bound s i h =>
          cases ha : inlAt Γ' s i with
          | none => simp [Exp.trav, sVar, ha, peelMeta, inlinable] at hi
          | some e =>
            have := hc' _ _ _ ha
            simpa [Exp.trav, sVar, ha, this.peel] using this
      | lam i ps b _ =>
        intro hx hi
        cases i with
        | false => simp [Exp.trav, peelMeta, inlinable] at hi
        | true =>
          have := tame_closed hx rfl
          have h2 : (Exp.lam true ps b).trav (sVar Γ') 0 = .lam true ps b := this.trav (fun d i h => by simp [sVar]) 0
          rw [h2]
          exact this
      | intrinsic n => intro _ _; exact .intrinsic
      | metaOf x m ih _ =>
        intro hx hi
        simp only [tame, Bool.and_eq_true] at hx
        exact ih hx.1 hi
      | let_ | app | lit | node => intro _ hi; simp [Exp.trav, peelMeta, inlinable] at hi
      | _ => trivial
    exact key x hx hi

end Verif.Inl
