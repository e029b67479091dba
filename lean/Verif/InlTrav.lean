import Verif.InlSpec

/-!
# Lemmas about traversals

Proofs only.
-/

namespace Verif.Inl
variable {K : Type}

mutual
/-- Every variable, with the scopes entered, is as said. -/
def Occ (P : Nat → Var → Prop) (d : Nat) : Exp K → Prop
  | .var v => P d v
  | .let_ _ bs b => OccB P (d + 1) bs ∧ Occ P (d + 1) b
  | .lam _ _ b => Occ P (d + 1) b
  | .app f xs => Occ P d f ∧ OccL P d xs
  | .lit _ => True
  | .intrinsic _ => True
  | .metaOf x m => Occ P d x ∧ Occ P d m
  | .node _ xs => OccL P d xs
def OccL (P : Nat → Var → Prop) (d : Nat) : Exps K → Prop
  | .nil => True
  | .cons x xs => Occ P d x ∧ OccL P d xs
def OccB (P : Nat → Var → Prop) (d : Nat) : Binds K → Prop
  | .nil => True
  | .cons _ x rest => Occ P d x ∧ OccB P d rest
end

mutual
theorem trav_trav {P : Nat → Var → Prop} {f g h : Nat → Var → Exp K} {k : Nat}
    (H : ∀ d v, P d v → (f d v).trav g (d + k) = h d v) (x : Exp K) (d : Nat) (hx : Occ P d x) :
    (x.trav f d).trav g (d + k) = x.trav h d := by
  match x with
  | .var v => exact H d v hx
  | .let_ t bs b =>
    simp only [Exp.trav]
    rw [Nat.add_right_comm, trav_trav H b (d + 1) hx.2, travB_trav H bs (d + 1) hx.1]
  | .lam i ps b =>
    simp only [Exp.trav]
    rw [Nat.add_right_comm, trav_trav H b (d + 1) hx]
  | .app g xs => simp only [Exp.trav, trav_trav H g d hx.1, travL_trav H xs d hx.2]
  | .lit p => rfl
  | .intrinsic n => rfl
  | .metaOf x m => simp only [Exp.trav, trav_trav H x d hx.1, trav_trav H m d hx.2]
  | .node k xs => simp only [Exp.trav, travL_trav H xs d hx]
theorem travL_trav {P : Nat → Var → Prop} {f g h : Nat → Var → Exp K} {k : Nat}
    (H : ∀ d v, P d v → (f d v).trav g (d + k) = h d v) (xs : Exps K) (d : Nat) (hx : OccL P d xs) :
    (xs.trav f d).trav g (d + k) = xs.trav h d := by
  match xs with
  | .nil => rfl
  | .cons x xs => simp only [Exps.trav, trav_trav H x d hx.1, travL_trav H xs d hx.2]
theorem travB_trav {P : Nat → Var → Prop} {f g h : Nat → Var → Exp K} {k : Nat}
    (H : ∀ d v, P d v → (f d v).trav g (d + k) = h d v) (xs : Binds K) (d : Nat) (hx : OccB P d xs) :
    (xs.trav f d).trav g (d + k) = xs.trav h d := by
  match xs with
  | .nil => rfl
  | .cons n x rest => simp only [Binds.trav, trav_trav H x d hx.1, travB_trav H rest d hx.2]
end

mutual
theorem occ_mono {P Q : Nat → Var → Prop} (H : ∀ d v, P d v → Q d v) (x : Exp K) (d : Nat) (hx : Occ P d x) : Occ Q d x := by
  match x with
  | .var v => exact H d v hx
  | .let_ t bs b => exact ⟨occB_mono H bs _ hx.1, occ_mono H b _ hx.2⟩
  | .lam i ps b => exact occ_mono H b (d + 1) hx
  | .app g xs => exact ⟨occ_mono H g d hx.1, occL_mono H xs d hx.2⟩
  | .lit p => trivial
  | .intrinsic n => trivial
  | .metaOf x m => exact ⟨occ_mono H x d hx.1, occ_mono H m d hx.2⟩
  | .node k xs => exact occL_mono H xs d hx
theorem occL_mono {P Q : Nat → Var → Prop} (H : ∀ d v, P d v → Q d v) (xs : Exps K) (d : Nat) (hx : OccL P d xs) : OccL Q d xs := by
  match xs with
  | .nil => trivial
  | .cons x xs => exact ⟨occ_mono H x d hx.1, occL_mono H xs d hx.2⟩
theorem occB_mono {P Q : Nat → Var → Prop} (H : ∀ d v, P d v → Q d v) (xs : Binds K) (d : Nat) (hx : OccB P d xs) : OccB Q d xs := by
  match xs with
  | .nil => trivial
  | .cons _ x xs => exact ⟨occ_mono H x d hx.1, occB_mono H xs d hx.2⟩
end

mutual
theorem occ_all {P : Nat → Var → Prop} (H : ∀ d v, P d v) (x : Exp K) (d : Nat) : Occ P d x := by
  match x with
  | .var v => exact H d v
  | .let_ t bs b => exact ⟨occB_all H bs _, occ_all H b _⟩
  | .lam i ps b => exact occ_all H b (d + 1)
  | .app g xs => exact ⟨occ_all H g d, occL_all H xs d⟩
  | .lit p => trivial
  | .intrinsic n => trivial
  | .metaOf x m => exact ⟨occ_all H x d, occ_all H m d⟩
  | .node k xs => exact occL_all H xs d
theorem occL_all {P : Nat → Var → Prop} (H : ∀ d v, P d v) (xs : Exps K) (d : Nat) : OccL P d xs := by
  match xs with
  | .nil => trivial
  | .cons x xs => exact ⟨occ_all H x d, occL_all H xs d⟩
theorem occB_all {P : Nat → Var → Prop} (H : ∀ d v, P d v) (xs : Binds K) (d : Nat) : OccB P d xs := by
  match xs with
  | .nil => trivial
  | .cons _ x xs => exact ⟨occ_all H x d, occB_all H xs d⟩
end

mutual
theorem trav_shift {f g : Nat → Var → Exp K} (H : ∀ d v, f (d + 1) v = g d v) (x : Exp K) (d : Nat) :
    x.trav f (d + 1) = x.trav g d := by
  match x with
  | .var v => exact H d v
  | .let_ t bs b => simp only [Exp.trav, trav_shift H b (d + 1), travB_shift H bs (d + 1)]
  | .lam i ps b => simp only [Exp.trav, trav_shift H b (d + 1)]
  | .app g xs => simp only [Exp.trav, trav_shift H g d, travL_shift H xs d]
  | .lit p => rfl
  | .intrinsic n => rfl
  | .metaOf x m => simp only [Exp.trav, trav_shift H x d, trav_shift H m d]
  | .node k xs => simp only [Exp.trav, travL_shift H xs d]
theorem travL_shift {f g : Nat → Var → Exp K} (H : ∀ d v, f (d + 1) v = g d v) (xs : Exps K) (d : Nat) :
    xs.trav f (d + 1) = xs.trav g d := by
  match xs with
  | .nil => rfl
  | .cons x xs => simp only [Exps.trav, trav_shift H x d, travL_shift H xs d]
theorem travB_shift {f g : Nat → Var → Exp K} (H : ∀ d v, f (d + 1) v = g d v) (xs : Binds K) (d : Nat) :
    xs.trav f (d + 1) = xs.trav g d := by
  match xs with
  | .nil => rfl
  | .cons n x rest => simp only [Binds.trav, trav_shift H x d, travB_shift H rest d]
end

mutual
/-- The identity. -/
theorem trav_id {f : Nat → Var → Exp K} (H : ∀ d v, f d v = .var v) (x : Exp K) (d : Nat) : x.trav f d = x := by
  match x with
  | .var v => exact H d v
  | .let_ t bs b => simp only [Exp.trav, trav_id H b (d + 1), travB_id H bs (d + 1)]
  | .lam i ps b => simp only [Exp.trav, trav_id H b (d + 1)]
  | .app g xs => simp only [Exp.trav, trav_id H g d, travL_id H xs d]
  | .lit p => rfl
  | .intrinsic n => rfl
  | .metaOf x m => simp only [Exp.trav, trav_id H x d, trav_id H m d]
  | .node k xs => simp only [Exp.trav, travL_id H xs d]
theorem travL_id {f : Nat → Var → Exp K} (H : ∀ d v, f d v = .var v) (xs : Exps K) (d : Nat) : xs.trav f d = xs := by
  match xs with
  | .nil => rfl
  | .cons x xs => simp only [Exps.trav, trav_id H x d, travL_id H xs d]
theorem travB_id {f : Nat → Var → Exp K} (H : ∀ d v, f d v = .var v) (xs : Binds K) (d : Nat) : xs.trav f d = xs := by
  match xs with
  | .nil => rfl
  | .cons n x rest => simp only [Binds.trav, trav_id H x d, travB_id H rest d]
end

/-! ## Flat expressions -/

mutual
/-- A flat expression with its parameters replaced. -/
def inst (g : Nat → Exp K) : Exp K → Exp K
  | .var (.bound _ i _) => g i
  | .app f xs => .app (inst g f) (instL g xs)
  | x => x
def instL (g : Nat → Exp K) : Exps K → Exps K
  | .nil => .nil
  | .cons x xs => .cons (inst g x) (instL g xs)
end

mutual
theorem trav_flat {n : Nat} {f : Nat → Var → Exp K} {g : Nat → Exp K} (d : Nat) (H : ∀ i h, i < n → f d (.bound 0 i h) = g i)
    (x : Exp K) (hx : flat n x = true) : x.trav f d = inst g x := by
  match x with
  | .var (.bound s i h) =>
    simp only [flat, Bool.and_eq_true, beq_iff_eq, decide_eq_true_eq] at hx
    rw [hx.1]
    exact H i h hx.2
  | .app e xs =>
    simp only [flat, Bool.and_eq_true] at hx
    simp only [Exp.trav, inst, trav_flat d H e hx.1, travL_flat d H xs hx.2]
  | .lit p => rfl
  | .intrinsic _ => rfl
theorem travL_flat {n : Nat} {f : Nat → Var → Exp K} {g : Nat → Exp K} (d : Nat) (H : ∀ i h, i < n → f d (.bound 0 i h) = g i)
    (xs : Exps K) (hx : flatL n xs = true) : xs.trav f d = instL g xs := by
  match xs with
  | .nil => rfl
  | .cons x xs =>
    simp only [flatL, Bool.and_eq_true] at hx
    simp only [Exps.trav, instL, trav_flat d H x hx.1, travL_flat d H xs hx.2]
end

mutual
theorem trav_inst {n : Nat} {f : Nat → Var → Exp K} {g g' : Nat → Exp K} (d : Nat) (H : ∀ i, i < n → (g i).trav f d = g' i)
    (x : Exp K) (hx : flat n x = true) : (inst g x).trav f d = inst g' x := by
  match x with
  | .var (.bound s i h) =>
    simp only [flat, Bool.and_eq_true, beq_iff_eq, decide_eq_true_eq] at hx
    exact H i hx.2
  | .app e xs =>
    simp only [flat, Bool.and_eq_true] at hx
    simp only [Exp.trav, inst, trav_inst d H e hx.1, travL_inst d H xs hx.2]
  | .lit p => rfl
  | .intrinsic _ => rfl
theorem travL_inst {n : Nat} {f : Nat → Var → Exp K} {g g' : Nat → Exp K} (d : Nat) (H : ∀ i, i < n → (g i).trav f d = g' i)
    (xs : Exps K) (hx : flatL n xs = true) : (instL g xs).trav f d = instL g' xs := by
  match xs with
  | .nil => rfl
  | .cons x xs =>
    simp only [flatL, Bool.and_eq_true] at hx
    simp only [Exps.trav, instL, trav_inst d H x hx.1, travL_inst d H xs hx.2]
end

mutual
/-- What leaves parameters alone leaves a flat expression alone. -/
theorem trav_fix {n : Nat} {f : Nat → Var → Exp K} (d : Nat) (H : ∀ i h, f d (.bound 0 i h) = .var (.bound 0 i h))
    (x : Exp K) (hx : flat n x = true) : x.trav f d = x := by
  match x with
  | .var (.bound s i h) =>
    simp only [flat, Bool.and_eq_true, beq_iff_eq, decide_eq_true_eq] at hx
    rw [hx.1]
    exact H i h
  | .app e xs =>
    simp only [flat, Bool.and_eq_true] at hx
    simp only [Exp.trav, trav_fix d H e hx.1, travL_fix d H xs hx.2]
  | .lit p => rfl
  | .intrinsic _ => rfl
theorem travL_fix {n : Nat} {f : Nat → Var → Exp K} (d : Nat) (H : ∀ i h, f d (.bound 0 i h) = .var (.bound 0 i h))
    (xs : Exps K) (hx : flatL n xs = true) : xs.trav f d = xs := by
  match xs with
  | .nil => rfl
  | .cons x xs =>
    simp only [flatL, Bool.and_eq_true] at hx
    simp only [Exps.trav, trav_fix d H x hx.1, travL_fix d H xs hx.2]
end

/-- Inlinable functions with flat bodies, and intrinsics. -/
inductive Closed : Exp K → Prop where
  | lam {ps b} : flat ps.length b = true → ps.Nodup → ps ≠ [] → Closed (.lam true ps b)
  | intrinsic {n} : Closed (.intrinsic n)

theorem Closed.trav {e : Exp K} (h : Closed e) {f : Nat → Var → Exp K}
    (H : ∀ d i h, f (d + 1) (.bound 0 i h) = .var (.bound 0 i h)) (d : Nat) : e.trav f d = e := by
  cases h with
  | lam hb _ _ => simp only [Exp.trav, trav_fix (d + 1) (H d) _ hb]
  | intrinsic => rfl

theorem Closed.inlinable {e : Exp K} (h : Closed e) : inlinable e = true := by
  cases h <;> rfl

theorem Closed.peel {e : Exp K} (h : Closed e) : peelMeta e = e := by
  cases h <;> rfl

/-! ## Lists -/

theorem Binds.list_trav (f : Nat → Var → Exp K) (d : Nat) (bs : Binds K) :
    (bs.trav f d).list = bs.list.map fun p => (p.1, p.2.trav f d) := by
  match bs with
  | .nil => rfl
  | .cons n x rest => simp only [Binds.trav, Binds.list, List.map_cons, Binds.list_trav f d rest]

theorem Binds.names_trav (f : Nat → Var → Exp K) (d : Nat) (bs : Binds K) : (bs.trav f d).names = bs.names := by
  simp [Binds.names, Binds.list_trav]

theorem Binds.of_list (bs : Binds K) : Binds.of bs.list = bs := by
  match bs with
  | .nil => rfl
  | .cons n x rest => simp only [Binds.list, Binds.of, Binds.of_list rest]

end Verif.Inl
