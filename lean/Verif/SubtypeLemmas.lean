import Verif.SubtypeModel

/-!
# Subtyping: rules
-/

namespace Verif.Subtype

mutual
/-- Types without `any`, variables, quantifiers, recursion and type-level
functions, without optional fields and row variables, and without `Dict`. -/
def plain : Ty → Bool
  | .app f x => decide (f ≠ .con "Dict") && plain f && plain x
  | .tuple es => plains es
  | .prefixList p t => !p.isEmpty && plains p && plain t
  | .record fs _ rows => rows.isEmpty && plainFields fs
  | .function a b => plain a && plain b
  | .union vs => plains vs
  | .any | .var _ | .mu _ _ | .forall_ _ _ | .lam _ _ => false
  | .prim _ | .top | .never | .con _ | .litSymbol _ | .litString _ => true
/-- On lists. -/
def plains : List Ty → Bool
  | [] => true
  | t :: ts => plain t && plains ts
/-- On fields: none is optional. -/
def plainFields : List (String × Bool × Ty) → Bool
  | [] => true
  | (_, o, t) :: ts => !o && plain t && plainFields ts
end

theorem plains_iff : ∀ {ts : List Ty}, plains ts = true ↔ ∀ t ∈ ts, plain t = true
  | [] => by simp [plains]
  | t :: ts => by simp [plains, plains_iff (ts := ts)]

theorem plainFields_iff : ∀ {fs : List (String × Bool × Ty)},
    plainFields fs = true ↔ ∀ n o t, (n, o, t) ∈ fs → o = false ∧ plain t = true
  | [] => by simp [plainFields]
  | (n, o, t) :: fs => by
    simp only [plainFields, Bool.and_eq_true, Bool.not_eq_true', plainFields_iff (fs := fs), List.mem_cons]
    constructor
    · rintro ⟨⟨h1, h2⟩, h3⟩ n' o' t' (h | h)
      · cases h; exact ⟨h1, h2⟩
      · exact h3 _ _ _ h
    · intro h
      exact ⟨h n o t (.inl rfl), fun n' o' t' h' => h n' o' t' (.inr h')⟩

/-- The constructors whose argument may be weakened. -/
def covariant : List String := ["List", "IO", "NonEmpty"]
/-- Pairs of two-argument constructors, the first of which may be weakened to the second. -/
def optics : List (String × String) :=
  [("Lens", "Lens"), ("Traversal", "Traversal"), ("Lens", "Traversal")]

/-- The rules, for plain types. -/
inductive Sub : Ty → Ty → Prop
  | refl (s : Ty) : Sub s s
  | never (t : Ty) : Sub .never t
  | top (s : Ty) : Sub s .top
  | litSymbol (a : String) : Sub (.litSymbol a) (.prim .symbol)
  | litString (a : String) : Sub (.litString a) (.prim .string)
  | cov (n : String) (a b : Ty) : n ∈ covariant → Sub a b → Sub (.app (.con n) a) (.app (.con n) b)
  | neList (a b : Ty) : Sub a b → Sub (.app (.con "NonEmpty") a) (.app (.con "List") b)
  | optic (n m : String) (a b c d : Ty) : (n, m) ∈ optics → Sub a c → Sub b d →
      Sub (.app (.app (.con n) a) b) (.app (.app (.con m) c) d)
  | tupList (es : List Ty) (u : Ty) : (∀ e ∈ es, Sub e u) → Sub (.tuple es) (.app (.con "List") u)
  | tupNE (es : List Ty) (u : Ty) : es ≠ [] → (∀ e ∈ es, Sub e u) →
      Sub (.tuple es) (.app (.con "NonEmpty") u)
  | tupTup (as bs : List Ty) : as.length = bs.length → (∀ p ∈ as.zip bs, Sub p.1 p.2) →
      Sub (.tuple as) (.tuple bs)
  | tupPre (es pre : List Ty) (tail : Ty) : pre ≠ [] → pre.length ≤ es.length →
      (∀ p ∈ es.zip pre, Sub p.1 p.2) → (∀ e ∈ es.drop pre.length, Sub e tail) →
      Sub (.tuple es) (.prefixList pre tail)
  | prePre (p p2 : List Ty) (s2 t2 : Ty) : p2 ≠ [] → p2.length ≤ p.length →
      (∀ q ∈ p.zip p2, Sub q.1 q.2) → (∀ e ∈ p.drop p2.length, Sub e t2) → Sub s2 t2 →
      Sub (.prefixList p s2) (.prefixList p2 t2)
  | preList (pre : List Ty) (tail u : Ty) : (∀ e ∈ pre, Sub e u) → Sub tail u →
      Sub (.prefixList pre tail) (.app (.con "List") u)
  | nePre (u p tail : Ty) : Sub u p → Sub u tail →
      Sub (.app (.con "NonEmpty") u) (.prefixList [p] tail)
  | record (sf tf : List (String × Bool × Ty)) (so to : Bool) :
      (∀ n tt, (n, false, tt) ∈ tf → ∃ st, getField sf n = some (false, st)) →
      (∀ n tt st, (n, false, tt) ∈ tf → getField sf n = some (false, st) → Sub st tt) →
      (to = false → so = false) → (∀ n tt, (n, true, tt) ∉ tf) →
      Sub (.record sf so []) (.record tf to [])
  | function (a b c d : Ty) : Sub c a → Sub b d → Sub (.function a b) (.function c d)
  | unionL (vs : List Ty) (t : Ty) : t ≠ .never → (∀ v ∈ vs, Sub v t) → Sub (.union vs) t
  | unionR (s v : Ty) (vs : List Ty) : s ≠ .top → (∀ ws, s ≠ .union ws) → v ∈ vs → Sub s v →
      Sub s (.union vs)

/-! ## The rules are what is computed -/

theorem getField_mem {fs : List (String × Bool × Ty)} {n : String} {o : Bool} {t : Ty}
    (h : getField fs n = some (o, t)) : (n, o, t) ∈ fs := by
  simp only [getField, Option.map_eq_some_iff] at h
  obtain ⟨⟨m, o', t'⟩, h1, h2⟩ := h
  have h3 := List.find?_some h1
  have h4 := List.mem_of_find?_eq_some h1
  simp only [decide_eq_true_eq] at h3
  cases h2
  rw [← h3]
  exact h4

theorem zipAll_iff {sub : Ty → Ty → Bool} : ∀ {as bs : List Ty},
    zipAll sub as bs = true ↔ ∀ p ∈ as.zip bs, sub p.1 p.2 = true
  | [], bs => by simp [zipAll]
  | a :: as, [] => by simp [zipAll]
  | a :: as, b :: bs => by simp [zipAll, zipAll_iff (as := as)]

theorem mem_zip {as bs : List Ty} {p : Ty × Ty} (h : p ∈ as.zip bs) : p.1 ∈ as ∧ p.2 ∈ bs :=
  List.of_mem_zip h

theorem size_mem {es : List Ty} {e : Ty} (h : e ∈ es) : sizeOf e < sizeOf es := List.sizeOf_lt_of_mem h

theorem size_tuple (es : List Ty) : sizeOf (Ty.tuple es) = 1 + sizeOf es := by simp
theorem size_union (es : List Ty) : sizeOf (Ty.union es) = 1 + sizeOf es := by simp
theorem size_pre (es : List Ty) (t : Ty) : sizeOf (Ty.prefixList es t) = 1 + sizeOf es + sizeOf t := by simp
theorem size_app (f x : Ty) : sizeOf (Ty.app f x) = 1 + sizeOf f + sizeOf x := by simp
theorem size_fn (f x : Ty) : sizeOf (Ty.function f x) = 1 + sizeOf f + sizeOf x := by simp

theorem size_field {fs : List (String × Bool × Ty)} {o : Bool} {r : List String} {n : String} {b : Bool}
    {t : Ty} (h : (n, b, t) ∈ fs) : sizeOf t < sizeOf (Ty.record fs o r) := by
  have h1 := List.sizeOf_lt_of_mem h
  have h2 : sizeOf (n, b, t) = 1 + sizeOf n + (1 + sizeOf b + sizeOf t) := by simp
  have h3 : sizeOf (Ty.record fs o r) = 1 + sizeOf fs + sizeOf o + sizeOf r := by simp
  omega

theorem betaReduce_plain (k : Nat) {s : Ty} (h : plain s = true) : betaReduce k s = s := by
  cases s with
  | app f x =>
    cases f with
    | lam y b => simp [plain] at h
    | _ => rfl
  | _ => rfl

/-- One unfolding, on plain types. -/
theorem subCo_plain {k : Nat} {s t : Ty} (hs : plain s = true) (ht : plain t = true) :
    subCo (k + 1) [] s t =
      if s = t then true
      else
        match specialSub s t with
        | some r => r
        | none =>
          match listSub (subCo k []) s t with
          | some r => r
          | none =>
            match blockSub (subCo k []) s t with
            | some r => r
            | none => restSub (subCo k []) s t := by
  rw [subCo, betaReduce_plain k hs, betaReduce_plain k ht]
  by_cases h : s = t
  · simp [h]
  · simp only [h, if_false, List.not_mem_nil]
    cases s with
    | mu x b => simp [plain] at hs
    | _ =>
      cases t with
      | mu x b => simp [plain] at ht
      | _ => rfl

/-- What is computed after the test for equality. -/
def step (f : Ty → Ty → Bool) (s t : Ty) : Bool :=
  match specialSub s t with
  | some r => r
  | none =>
    match listSub f s t with
    | some r => r
    | none =>
      match blockSub f s t with
      | some r => r
      | none => restSub f s t

theorem step_union_left {f : Ty → Ty → Bool} {vs : List Ty} {t : Ty} (ht : plain t = true)
    (h1 : t ≠ .never) (h2 : t ≠ .top) : step f (.union vs) t = vs.all fun v => f v t := by
  cases t with
  | prefixList p tail =>
    cases p with
    | nil => simp [plain] at ht
    | cons => rfl
  | never => exact absurd rfl h1
  | top => exact absurd rfl h2
  | any => simp [plain] at ht
  | var => simp [plain] at ht
  | _ => rfl

theorem step_union_right {f : Ty → Ty → Bool} {vs : List Ty} {s : Ty} (hs : plain s = true)
    (h1 : s ≠ .never) (h2 : s ≠ .top) (h3 : ∀ ws, s ≠ .union ws) :
    step f s (.union vs) = vs.any fun v => f s v := by
  cases s with
  | prefixList p tail =>
    cases p with
    | nil => simp [plain] at hs
    | cons => rfl
  | never => exact absurd rfl h1
  | top => exact absurd rfl h2
  | any => simp [plain] at hs
  | var => simp [plain] at hs
  | union ws => exact absurd rfl (h3 ws)
  | _ => rfl

/-- The rules are met by what is computed. -/
theorem step_of_sub {f : Ty → Ty → Bool} {s t : Ty} (hs : plain s = true) (ht : plain t = true)
    (hne : s ≠ t)
    (ih : ∀ a b, plain a = true → plain b = true → sizeOf a + sizeOf b < sizeOf s + sizeOf t →
      Sub a b → f a b = true) (h : Sub s t) : step f s t = true := by
  cases h with
  | refl => exact absurd rfl hne
  | never => rfl
  | top => cases s <;> rfl
  | litSymbol => rfl
  | litString => rfl
  | cov n a b hn hab =>
    simp only [plain, Bool.and_eq_true] at hs ht
    have := ih a b hs.2 ht.2 (by simp only [size_app]; omega) hab
    simp only [covariant, List.mem_cons, List.not_mem_nil, or_false] at hn
    rcases hn with rfl | rfl | rfl <;>
      simp [step, specialSub, listSub, appSub, Ty.two, Ty.single, this]
  | neList a b hab =>
    simp only [plain, Bool.and_eq_true] at hs ht
    have := ih a b hs.2 ht.2 (by simp only [size_app, Ty.con.sizeOf_spec]; omega) hab
    simp [step, specialSub, listSub, appSub, Ty.two, Ty.single, this]
  | optic n m a b c d hn hac hbd =>
    simp only [plain, Bool.and_eq_true] at hs ht
    have h1 := ih a c hs.1.2.2 ht.1.2.2 (by simp only [size_app]; omega) hac
    have h2 := ih b d hs.2 ht.2 (by simp only [size_app]; omega) hbd
    simp only [optics, List.mem_cons, List.not_mem_nil, or_false, Prod.mk.injEq] at hn
    rcases hn with ⟨rfl, rfl⟩ | ⟨rfl, rfl⟩ | ⟨rfl, rfl⟩ <;>
      simp [step, specialSub, listSub, appSub, Ty.two, h1, h2]
  | tupList es u h =>
    simp only [plain, Bool.and_eq_true, plains_iff] at hs ht
    have : ∀ e ∈ es, f e u = true := fun e he =>
      ih e u (hs e he) ht.2 (by have := size_mem he; simp only [size_app, size_tuple]; omega) (h e he)
    simpa [step, specialSub, listSub, Ty.argOf, Ty.single] using this
  | tupNE es u hn h =>
    simp only [plain, Bool.and_eq_true, plains_iff] at hs ht
    have : ∀ e ∈ es, f e u = true := fun e he =>
      ih e u (hs e he) ht.2 (by have := size_mem he; simp only [size_app, size_tuple]; omega) (h e he)
    simp [step, specialSub, listSub, Ty.argOf, Ty.single, hn]
    exact this
  | tupTup as bs hl h =>
    simp only [plain, plains_iff] at hs ht
    have : zipAll f as bs = true := zipAll_iff.2 fun p hp => by
      obtain ⟨h1, h2⟩ := mem_zip hp
      exact ih _ _ (hs _ h1) (ht _ h2)
        (by have := size_mem h1; have := size_mem h2; simp only [size_tuple]; omega) (h p hp)
    simp [step, specialSub, listSub, hl, this]
  | tupPre es pre tail hn hl h1 h2 =>
    simp only [plain, Bool.and_eq_true, plains_iff] at hs ht
    have k1 : zipAll f es pre = true := zipAll_iff.2 fun p hp => by
      obtain ⟨m1, m2⟩ := mem_zip hp
      exact ih _ _ (hs _ m1) (ht.1.2 _ m2)
        (by have := size_mem m1; have := size_mem m2; simp only [size_tuple, size_pre]; omega) (h1 p hp)
    have k2 : ∀ e ∈ es.drop pre.length, f e tail = true := fun e he => by
      have m1 := List.mem_of_mem_drop he
      exact ih _ _ (hs _ m1) ht.2
        (by have := size_mem m1; simp only [size_tuple, size_pre]; omega) (h2 e he)
    cases pre with
    | nil => exact absurd rfl hn
    | cons p pre =>
      simp only [step, specialSub, listSub, tuplePrefix, Bool.and_eq_true, decide_eq_true_eq]
      exact ⟨⟨hl, k1⟩, List.all_eq_true.2 k2⟩
  | prePre p p2 s2 t2 hn hl h1 h2 h3 =>
    simp only [plain, Bool.and_eq_true, plains_iff] at hs ht
    have k1 : zipAll f p p2 = true := zipAll_iff.2 fun q hq => by
      obtain ⟨m1, m2⟩ := mem_zip hq
      exact ih _ _ (hs.1.2 _ m1) (ht.1.2 _ m2)
        (by have := size_mem m1; have := size_mem m2; simp only [size_pre]; omega) (h1 q hq)
    have k2 : ∀ e ∈ p.drop p2.length, f e t2 = true := fun e he => by
      have m1 := List.mem_of_mem_drop he
      exact ih _ _ (hs.1.2 _ m1) ht.2
        (by have := size_mem m1; simp only [size_pre]; omega) (h2 e he)
    have k3 := ih s2 t2 hs.2 ht.2 (by simp only [size_pre]; omega) h3
    cases p2 with
    | nil => exact absurd rfl hn
    | cons x p2 =>
      cases p with
      | nil => simp at hl
      | cons y p =>
        simp only [step, specialSub, listSub, Bool.and_eq_true, decide_eq_true_eq]
        exact ⟨⟨⟨hl, k1⟩, List.all_eq_true.2 k2⟩, k3⟩
  | preList pre tail u h1 h2 =>
    simp only [plain, Bool.and_eq_true, plains_iff] at hs ht
    have k1 : ∀ e ∈ pre, f e u = true := fun e he =>
      ih e u (hs.1.2 e he) ht.2 (by have := size_mem he; simp only [size_app, size_pre]; omega) (h1 e he)
    have k2 := ih tail u hs.2 ht.2 (by simp only [size_app, size_pre]; omega) h2
    cases pre with
    | nil => simp at hs
    | cons p pre =>
      simp only [step, specialSub, listSub, Ty.argOf, Ty.single, if_pos, Bool.and_eq_true]
      exact ⟨List.all_eq_true.2 k1, k2⟩
  | nePre u p tail h1 h2 =>
    simp only [plain, Bool.and_eq_true, plains_iff] at hs ht
    have k1 := ih u p hs.2 (ht.1.2 p (by simp)) (by simp only [size_app, size_pre, List.cons.sizeOf_spec]; omega) h1
    have k2 := ih u tail hs.2 ht.2 (by simp only [size_app, size_pre]; omega) h2
    simp [step, specialSub, listSub, Ty.argOf, Ty.single, k1, k2]
  | record sf tf so to h1 h2 h3 h4 =>
    simp only [plain, Bool.and_eq_true, plainFields_iff] at hs ht
    simp only [step, specialSub, listSub, blockSub, recordSub, Bool.and_eq_true]
    refine ⟨List.all_eq_true.2 ?_, ?_⟩
    · rintro ⟨n, o, tt⟩ hm
      cases o with
      | true => exact absurd hm (h4 n tt)
      | false =>
        obtain ⟨st, hst⟩ := h1 n tt hm
        have hsm := getField_mem hst
        have := ih st tt (hs.2 _ _ _ hsm).2 (ht.2 _ _ _ hm).2
          (by have := size_field (o := so) (r := []) hsm; have := size_field (o := to) (r := []) hm; omega)
          (h2 n tt st hm hst)
        simp [hst, this]
    · cases to
      · simp [h3 rfl]
      · simp
  | function a b c d h1 h2 =>
    simp only [plain, Bool.and_eq_true] at hs ht
    have k1 := ih c a ht.1 hs.1 (by simp only [size_fn]; omega) h1
    have k2 := ih b d hs.2 ht.2 (by simp only [size_fn]; omega) h2
    simp [step, specialSub, listSub, blockSub, restSub, k1, k2]
  | unionL vs t hn h =>
    by_cases htop : t = .top
    · subst htop; rfl
    · rw [step_union_left ht hn htop]
      simp only [plain, plains_iff] at hs
      refine List.all_eq_true.2 fun v hv => ih v t (hs v hv) ht ?_ (h v hv)
      have := size_mem hv
      simp only [size_union]; omega
  | unionR s v vs hn hu hv h =>
    by_cases hnev : s = .never
    · subst hnev; rfl
    · rw [step_union_right hs hnev hn hu]
      simp only [plain, plains_iff] at ht
      refine List.any_eq_true.2 ⟨v, hv, ih s v hs (ht v hv) ?_ h⟩
      have := size_mem hv
      simp only [size_union]; omega

theorem argOf_some {n : String} {t u : Ty} (h : t.argOf n = some u) : t = .app (.con n) u := by
  unfold Ty.argOf at h
  split at h
  · rename_i m a hs
    split at h
    · rename_i hm
      cases h
      subst hm
      unfold Ty.single at hs
      split at hs
      · cases hs; rfl
      · cases hs
    · cases h
  · cases h

theorem single_some {n : String} {t u : Ty} (h : t.single = some (n, u)) : t = .app (.con n) u := by
  unfold Ty.single at h
  split at h
  · cases h; rfl
  · cases h

theorem two_some {n : String} {t u v : Ty} (h : t.two = some (n, u, v)) :
    t = .app (.app (.con n) u) v := by
  unfold Ty.two at h
  split at h
  · cases h; rfl
  · cases h

theorem sub_of_single {f : Ty → Ty → Bool} {s t : Ty} (hs : plain s = true) (ht : plain t = true)
    (hne : s ≠ t)
    (ih : ∀ a b, plain a = true → plain b = true → sizeOf a + sizeOf b < sizeOf s + sizeOf t →
      f a b = true → Sub a b) (h : (match s.single, t.single with
    | some (sn, si), some (tn, ti) =>
      if sn = tn then
        if sn = "List" ∨ sn = "IO" ∨ sn = "Dict" ∨ sn = "NonEmpty" then f si ti else decide (si = ti)
      else if sn = "NonEmpty" ∧ tn = "List" then f si ti
      else decide (s = t)
    | _, _ => decide (s = t)) = true) : Sub s t := by
  split at h
  · rename_i sn si tn ti e1 e2
    have e1 := single_some e1
    have e2 := single_some e2
    subst e1 e2
    simp only [plain, Bool.and_eq_true, decide_eq_true_eq] at hs ht
    have hlt : sizeOf si + sizeOf ti <
        sizeOf (Ty.app (.con sn) si) + sizeOf (Ty.app (.con tn) ti) := by
      simp only [size_app]; omega
    split at h
    · rename_i he
      subst he
      split at h
      · rename_i hc
        refine .cov _ _ _ ?_ (ih _ _ hs.2 ht.2 hlt h)
        rcases hc with rfl | rfl | rfl | rfl
        · simp [covariant]
        · simp [covariant]
        · exact absurd rfl hs.1.1
        · simp [covariant]
      · simp only [decide_eq_true_eq] at h
        subst h
        exact absurd rfl hne
    · split at h
      · rename_i hc
        obtain ⟨rfl, rfl⟩ := hc
        exact .neList _ _ (ih _ _ hs.2 ht.2 hlt h)
      · exact absurd (of_decide_eq_true h) hne
  · exact absurd (of_decide_eq_true h) hne

theorem sub_of_app {f : Ty → Ty → Bool} {s t : Ty} (hs : plain s = true) (ht : plain t = true)
    (hne : s ≠ t)
    (ih : ∀ a b, plain a = true → plain b = true → sizeOf a + sizeOf b < sizeOf s + sizeOf t →
      f a b = true → Sub a b) (h : appSub f s t = true) : Sub s t := by
  unfold appSub at h
  dsimp only at h
  split at h
  · rename_i b hb
    split at hb
    · rename_i sn sa sb tn ta tb e1 e2
      have e1 := two_some e1
      have e2 := two_some e2
      subst e1 e2
      split at hb
      · rename_i hc
        cases hb
        simp only [plain, Bool.and_eq_true] at hs ht h
        refine .optic _ _ _ _ _ _ ?_
          (ih _ _ hs.1.2.2 ht.1.2.2 (by simp only [size_app]; omega) h.1)
          (ih _ _ hs.2 ht.2 (by simp only [size_app]; omega) h.2)
        simpa [optics] using hc
      · cases hb
    · cases hb
  · exact sub_of_single hs ht hne ih h

/-- What is computed follows the rules. -/
theorem sub_of_step {f : Ty → Ty → Bool} {s t : Ty} (hs : plain s = true) (ht : plain t = true)
    (hne : s ≠ t)
    (ih : ∀ a b, plain a = true → plain b = true → sizeOf a + sizeOf b < sizeOf s + sizeOf t →
      f a b = true → Sub a b) (h : step f s t = true) : Sub s t := by
  by_cases h1 : s = .never
  · subst h1; exact .never _
  by_cases h2 : t = .top
  · subst h2; exact .top _
  by_cases h3 : s = .top
  · subst h3
    exfalso
    cases t <;> simp [step, specialSub] at h h2
  by_cases h4 : t = .never
  · subst h4
    exfalso
    cases s <;> simp [step, specialSub] at h h1 h3
  by_cases h5 : ∃ vs, s = .union vs
  · obtain ⟨vs, rfl⟩ := h5
    rw [step_union_left ht h4 h2, List.all_eq_true] at h
    simp only [plain, plains_iff] at hs
    refine .unionL _ _ h4 fun v hv => ih v t (hs v hv) ht ?_ (h v hv)
    have := size_mem hv
    simp only [size_union]; omega
  have h5' : ∀ ws, s ≠ .union ws := fun ws hw => h5 ⟨ws, hw⟩
  by_cases h6 : ∃ vs, t = .union vs
  · obtain ⟨vs, rfl⟩ := h6
    rw [step_union_right hs h1 h3 h5', List.any_eq_true] at h
    obtain ⟨v, hv, h⟩ := h
    simp only [plain, plains_iff] at ht
    refine .unionR _ v _ h3 h5' hv (ih s v hs (ht v hv) ?_ h)
    have := size_mem hv
    simp only [size_union]; omega
  cases s with
  | any => simp [plain] at hs
  | var => simp [plain] at hs
  | mu => simp [plain] at hs
  | forall_ => simp [plain] at hs
  | lam => simp [plain] at hs
  | never => exact absurd rfl h1
  | top => exact absurd rfl h3
  | union vs => exact absurd rfl (h5' vs)
  | prim p =>
    exfalso
    cases t <;> first
      | (simp [plain] at ht; done)
      | (simp [step, specialSub, listSub, blockSub, restSub] at h h2 h4 h6; done)
      | (rename_i q; cases p <;> cases q <;> (simp [step, specialSub, listSub, blockSub, restSub] at h hne; done))
      | (rename_i pre tail; cases pre <;> simp [step, specialSub, listSub, blockSub, restSub, plain] at h ht)
  | con n =>
    exfalso
    cases t <;> first
      | (simp [plain] at ht; done)
      | (simp [step, specialSub, listSub, blockSub, restSub] at h h2 h4 h6; done)
      | (rename_i pre tail; cases pre <;> simp [step, specialSub, listSub, blockSub, restSub, plain] at h ht)
  | litSymbol n =>
    cases t <;> first
      | (simp [plain] at ht; done)
      | (simp [step, specialSub, listSub, blockSub, restSub] at h h2 h4 h6; done)
      | (rename_i q; cases q <;> first | exact .litSymbol _ | (simp [step, specialSub, listSub, blockSub, restSub] at h; done))
      | (rename_i pre tail; cases pre <;> simp [step, specialSub, listSub, blockSub, restSub, plain] at h ht)
  | litString n =>
    cases t <;> first
      | (simp [plain] at ht; done)
      | (simp [step, specialSub, listSub, blockSub, restSub] at h h2 h4 h6; done)
      | (rename_i q; cases q <;> first | exact .litString _ | (simp [step, specialSub, listSub, blockSub, restSub] at h; done))
      | (rename_i pre tail; cases pre <;> simp [step, specialSub, listSub, blockSub, restSub, plain] at h ht)
  | function a b =>
    cases t with
    | function c d =>
      simp only [plain, Bool.and_eq_true] at hs ht
      simp only [step, specialSub, listSub, blockSub, restSub, Bool.and_eq_true] at h
      exact .function _ _ _ _ (ih _ _ ht.1 hs.1 (by simp only [size_fn]; omega) h.1)
        (ih _ _ hs.2 ht.2 (by simp only [size_fn]; omega) h.2)
    | prefixList pre tail =>
      exfalso
      cases pre <;> simp [step, specialSub, listSub, blockSub, restSub, plain] at h ht
    | _ =>
      exfalso
      first
        | (simp [plain] at ht; done)
        | (simp [step, specialSub, listSub, blockSub, restSub] at h h2 h4 h6; done)
  | record sf so sr =>
    cases t with
    | record tf to tr =>
      simp only [plain, Bool.and_eq_true, plainFields_iff, List.isEmpty_iff] at hs ht
      obtain ⟨rfl, hs⟩ := hs
      obtain ⟨rfl, ht⟩ := ht
      simp only [step, specialSub, listSub, blockSub, recordSub, Bool.and_eq_true, List.all_eq_true] at h
      obtain ⟨ha, hb⟩ := h
      refine .record sf tf so to ?_ ?_ ?_ ?_
      · intro n tt hm
        have := ha _ hm
        dsimp only at this
        split at this
        · exact ⟨_, ‹_›⟩
        · cases this
        · cases this
      · intro n tt st hm hg
        have := ha _ hm
        dsimp only at this
        rw [hg] at this
        have hsm := getField_mem hg
        refine ih st tt (hs _ _ _ hsm).2 (ht _ _ _ hm).2 ?_ this
        have := size_field (o := so) (r := []) hsm
        have := size_field (o := to) (r := []) hm
        omega
      · intro hto
        subst hto
        cases so
        · rfl
        · simp at hb
      · intro n tt hm
        exact absurd (ht _ _ _ hm).1 (by simp)
    | app g x =>
      exfalso
      simp only [plain, Bool.and_eq_true, decide_eq_true_eq] at ht
      have hd : (Ty.app g x).argOf "Dict" = none := by
        cases hd : (Ty.app g x).argOf "Dict" with
        | none => rfl
        | some u =>
          have := argOf_some hd
          cases this
          exact absurd rfl ht.1.1
      simp [step, specialSub, listSub, blockSub, restSub, hd] at h
    | prefixList pre tail =>
      exfalso
      cases pre <;> simp [step, specialSub, listSub, blockSub, restSub, plain] at h ht
    | _ =>
      exfalso
      first
        | (simp [plain] at ht; done)
        | (simp [step, specialSub, listSub, blockSub, restSub] at h h2 h4 h6; done)
  | app g x =>
    cases t with
    | app g' x' => exact sub_of_app hs ht hne ih (by simpa [step, specialSub, listSub] using h)
    | prefixList pre tail =>
      simp only [plain, Bool.and_eq_true, plains_iff] at ht
      cases pre with
      | nil => simp at ht
      | cons p pre =>
        cases ha : (Ty.app g x).argOf "NonEmpty" with
        | none => exfalso; simp [step, specialSub, listSub, blockSub, restSub, ha] at h
        | some u =>
          have := argOf_some ha
          cases this
          simp only [step, specialSub, listSub, ha, Bool.and_eq_true, decide_eq_true_eq,
            List.length_cons] at h
          cases pre with
          | cons => simp at h
          | nil =>
            simp only [plain, Bool.and_eq_true] at hs
            exact .nePre _ _ _
              (ih _ _ hs.2 (ht.1.2 p (by simp)) (by simp only [size_app, size_pre, List.cons.sizeOf_spec]; omega) h.1.2)
              (ih _ _ hs.2 ht.2 (by simp only [size_app, size_pre]; omega) h.2)
    | record tf to tr =>
      exfalso
      simp only [plain, Bool.and_eq_true, decide_eq_true_eq] at hs
      have hd : (Ty.app g x).argOf "Dict" = none := by
        cases hd : (Ty.app g x).argOf "Dict" with
        | none => rfl
        | some u =>
          have := argOf_some hd
          cases this
          exact absurd rfl hs.1.1
      simp [step, specialSub, listSub, blockSub, restSub, hd] at h
    | _ =>
      exfalso
      first
        | (simp [plain] at ht; done)
        | (simp [step, specialSub, listSub, blockSub, restSub] at h h2 h4 h6; done)
  | tuple es =>
    simp only [plain, plains_iff] at hs
    cases t with
    | app g x =>
      simp only [plain, Bool.and_eq_true] at ht
      cases ha : (Ty.app g x).argOf "List" with
      | some u =>
        have := argOf_some ha
        cases this
        simp only [step, specialSub, listSub, ha, List.all_eq_true] at h
        refine .tupList _ _ fun e he => ih e x (hs e he) ht.2 ?_ (h e he)
        have := size_mem he
        simp only [size_app, size_tuple]; omega
      | none =>
        cases hb : (Ty.app g x).argOf "NonEmpty" with
        | some u =>
          have := argOf_some hb
          cases this
          simp only [step, specialSub, listSub, ha, hb, List.all_eq_true, Bool.and_eq_true,
            Bool.not_eq_true', List.isEmpty_eq_false_iff] at h
          refine .tupNE _ _ h.1 fun e he => ih e x (hs e he) ht.2 ?_ (h.2 e he)
          have := size_mem he
          simp only [size_app, size_tuple]; omega
        | none => exfalso; simp [step, specialSub, listSub, blockSub, restSub, ha, hb] at h
    | tuple fs =>
      simp only [plain, plains_iff] at ht
      simp only [step, specialSub, listSub, Bool.and_eq_true, decide_eq_true_eq, zipAll_iff] at h
      refine .tupTup _ _ h.1 fun p hp => ?_
      obtain ⟨m1, m2⟩ := mem_zip hp
      refine ih _ _ (hs _ m1) (ht _ m2) ?_ (h.2 p hp)
      have := size_mem m1
      have := size_mem m2
      simp only [size_tuple]; omega
    | prefixList pre tail =>
      simp only [plain, Bool.and_eq_true, plains_iff] at ht
      cases pre with
      | nil => simp at ht
      | cons p pre =>
        simp only [step, specialSub, listSub, tuplePrefix, Bool.and_eq_true, decide_eq_true_eq,
          zipAll_iff, List.all_eq_true] at h
        refine .tupPre _ _ _ (by simp) h.1.1 (fun q hq => ?_) fun e he => ?_
        · obtain ⟨m1, m2⟩ := mem_zip hq
          refine ih _ _ (hs _ m1) (ht.1.2 _ m2) ?_ (h.1.2 q hq)
          have := size_mem m1
          have := size_mem m2
          simp only [size_tuple, size_pre]; omega
        · have m1 := List.mem_of_mem_drop he
          refine ih _ _ (hs _ m1) ht.2 ?_ (h.2 e he)
          have := size_mem m1
          simp only [size_tuple, size_pre]; omega
    | _ =>
      exfalso
      first
        | (simp [plain] at ht; done)
        | (simp [step, specialSub, listSub, blockSub, restSub] at h h2 h4 h6; done)
  | prefixList pre tail =>
    simp only [plain, Bool.and_eq_true, plains_iff] at hs
    cases pre with
    | nil => simp at hs
    | cons p pre =>
      cases t with
      | app g x =>
        simp only [plain, Bool.and_eq_true] at ht
        cases ha : (Ty.app g x).argOf "List" with
        | some u =>
          have := argOf_some ha
          cases this
          simp only [step, specialSub, listSub, ha, List.all_eq_true, Bool.and_eq_true] at h
          refine .preList _ _ _ (fun e he => ih e x (hs.1.2 e he) ht.2 ?_ (h.1 e he))
            (ih _ _ hs.2 ht.2 (by simp only [size_app, size_pre]; omega) h.2)
          have := size_mem he
          simp only [size_app, size_pre]; omega
        | none => exfalso; simp [step, specialSub, listSub, blockSub, restSub, ha] at h
      | prefixList p2 t2 =>
        simp only [plain, Bool.and_eq_true, plains_iff] at ht
        cases p2 with
        | nil => simp at ht
        | cons q p2 =>
          simp only [step, specialSub, listSub, Bool.and_eq_true, decide_eq_true_eq,
            zipAll_iff, List.all_eq_true] at h
          refine .prePre _ _ _ _ (by simp) h.1.1.1 (fun q hq => ?_) (fun e he => ?_)
            (ih _ _ hs.2 ht.2 (by simp only [size_pre]; omega) h.2)
          · obtain ⟨m1, m2⟩ := mem_zip hq
            refine ih _ _ (hs.1.2 _ m1) (ht.1.2 _ m2) ?_ (h.1.1.2 q hq)
            have := size_mem m1
            have := size_mem m2
            simp only [size_pre]; omega
          · have m1 := List.mem_of_mem_drop he
            refine ih _ _ (hs.1.2 _ m1) ht.2 ?_ (h.1.2 e he)
            have := size_mem m1
            simp only [size_pre]; omega
      | _ =>
        exfalso
        first
          | (simp [plain] at ht; done)
          | (simp [step, specialSub, listSub, blockSub, restSub] at h h2 h4 h6; done)

/-- On plain types the computation, given enough levels, is the rules. -/
theorem subCo_iff : ∀ (k : Nat) (s t : Ty), plain s = true → plain t = true →
    sizeOf s + sizeOf t ≤ k → (subCo k [] s t = true ↔ Sub s t)
  | 0, s, t, _, _, hk => by
    have : 0 < sizeOf s := by cases s <;> simp <;> omega
    omega
  | k + 1, s, t, hs, ht, hk => by
    rw [subCo_plain hs ht]
    by_cases he : s = t
    · subst he; simp [Sub.refl]
    · rw [if_neg he]
      constructor
      · intro h
        exact sub_of_step (f := subCo k []) hs ht he
          (fun a b ha hb hlt => (subCo_iff k a b ha hb (by omega)).1) h
      · intro h
        exact step_of_sub (f := subCo k []) hs ht he
          (fun a b ha hb hlt => (subCo_iff k a b ha hb (by omega)).2) h

end Verif.Subtype
