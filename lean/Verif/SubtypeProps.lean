import Verif.SubtypeSound

/-!
# C35: subtyping is a preorder, and C47: it respects the meaning of types

The full property asks for transitivity of the check on all types without `any`
and type variables.  This fails with optional fields and with `Dict`; three
witnesses are proved.  On the remaining types — `plain`, i.e. fully known types in
which no record has an optional field and `Dict` does not occur — the check is
transitive, does not depend on the number of levels of recursion, and is sound for
every meaning of the types.
-/

namespace Verif.Subtype

/-- Every type is a subtype of itself, also with `any`, variables and recursion. -/
theorem subtype_reflexive (k : Nat) (s : Ty) : isSubtype (k + 1) s s = true := by
  simp [isSubtype, subCo]

/-- On plain types the check accepts exactly what the rules `Sub` derive. -/
theorem subtype_rules_partial {s t : Ty} (hs : plain s = true) (ht : plain t = true) {k : Nat}
    (hk : sizeOf s + sizeOf t ≤ k) : isSubtype k s t = true ↔ Sub s t :=
  subCo_iff k s t hs ht hk

/-- On plain types the outcome is the same for every sufficient recursion depth, so
that the check of the code, which has no bound, terminates with that outcome. -/
theorem subtype_depth_partial {s t : Ty} (hs : plain s = true) (ht : plain t = true) {j k : Nat}
    (hj : sizeOf s + sizeOf t ≤ j) (hk : sizeOf s + sizeOf t ≤ k) :
    isSubtype j s t = isSubtype k s t := by
  rw [Bool.eq_iff_iff]
  exact (subCo_iff _ _ _ hs ht hj).trans (subCo_iff _ _ _ hs ht hk).symm

/-- On plain types the check is transitive.  (Missing: optional fields and `Dict`,
for which it is not.) -/
theorem subtype_transitive_partial {s t u : Ty} (hs : plain s = true) (ht : plain t = true)
    (hu : plain u = true) {k : Nat} (hk : sizeOf s + sizeOf t + sizeOf u ≤ k)
    (h1 : isSubtype k s t = true) (h2 : isSubtype k t u = true) : isSubtype k s u = true := by
  have e1 := (subCo_iff k s t hs ht (by omega)).1 h1
  have e2 := (subCo_iff k t u ht hu (by omega)).1 h2
  exact (subCo_iff k s u hs hu (by omega)).2 (sub_trans _ s t u (Nat.le_refl _) e1 e2)

/-- C47: if the check accepts `s` where `t` is expected, every value of `s` is a value
of `t`, whatever the values are. -/
theorem subtype_sound_partial {V : Type} (M : Values V) {s t : Ty} (hs : plain s = true)
    (ht : plain t = true) {k : Nat} (hk : sizeOf s + sizeOf t ≤ k) (h : isSubtype k s t = true)
    (v : V) (hv : den M s v) : den M t v :=
  sub_sound M ((subCo_iff k s t hs ht hk).1 h) v hv

/-! ## Where it fails -/

/-- A required field of type `t`. -/
def req (n : String) (t : Ty) : String × Bool × Ty := (n, false, t)
/-- An optional field of type `t`. -/
def opt (n : String) (t : Ty) : String × Bool × Ty := (n, true, t)

/-- `{a: string, b: string}`. -/
def tAB : Ty := .record [req "a" (.prim .string), req "b" (.prim .string)] false []
/-- `{b: string}`. -/
def tB : Ty := .record [req "b" (.prim .string)] false []
/-- `{a?: number, b: string}`. -/
def tOptB : Ty := .record [opt "a" (.prim .number), req "b" (.prim .string)] false []
/-- `Dict(string)`. -/
def tDict : Ty := .app (.con "Dict") (.prim .string)
/-- `{a: number, b: string}`. -/
def tAnB : Ty := .record [req "a" (.prim .number), req "b" (.prim .string)] false []
/-- `{a: string, ..}`. -/
def tAOpen : Ty := .record [req "a" (.prim .string)] true []
/-- `{..}`. -/
def tOpen : Ty := .record [] true []
/-- `{a?: number, ..}`. -/
def tOptOpen : Ty := .record [opt "a" (.prim .number)] true []

/-- `{a: string, b: string}` is accepted as `{b: string}`, which is accepted as
`{a?: number, b: string}`; but the first is not accepted as the last. -/
theorem not_transitive_optional : known tAB = true ∧ known tB = true ∧ known tOptB = true ∧
    ∀ k, isSubtype (k + 2) tAB tB = true ∧ isSubtype (k + 2) tB tOptB = true ∧
      isSubtype (k + 2) tAB tOptB = false :=
  ⟨rfl, rfl, rfl, fun _ => ⟨rfl, rfl, rfl⟩⟩

/-- `{a: number, b: string}` is accepted as `{b: string}`, which is accepted as
`Dict(string)`; but the first is not accepted as the last. -/
theorem not_transitive_dict : known tAnB = true ∧ known tB = true ∧ known tDict = true ∧
    ∀ k, isSubtype (k + 2) tAnB tB = true ∧ isSubtype (k + 2) tB tDict = true ∧
      isSubtype (k + 2) tAnB tDict = false :=
  ⟨rfl, rfl, rfl, fun _ => ⟨rfl, rfl, rfl⟩⟩

/-- `{a: string, ..}`, `{..}` and `{a?: number, ..}` likewise. -/
theorem not_transitive_open : known tAOpen = true ∧ known tOpen = true ∧ known tOptOpen = true ∧
    ∀ k, isSubtype (k + 2) tAOpen tOpen = true ∧ isSubtype (k + 2) tOpen tOptOpen = true ∧
      isSubtype (k + 2) tAOpen tOptOpen = false :=
  ⟨rfl, rfl, rfl, fun _ => ⟨rfl, rfl, rfl⟩⟩

/-- The full C35 is therefore false of the code. -/
theorem subtype_not_transitive :
    ¬ ∀ s t u : Ty, known s = true → known t = true → known u = true →
      ∀ k, sizeOf s + sizeOf t + sizeOf u ≤ k →
        isSubtype k s t = true → isSubtype k t u = true → isSubtype k s u = true := by
  intro h
  have := h tAB tB tOptB rfl rfl rfl (sizeOf tAB + sizeOf tB + sizeOf tOptB + 2) (by omega) rfl rfl
  have e := (not_transitive_optional.2.2.2 (sizeOf tAB + sizeOf tB + sizeOf tOptB)).2.2
  rw [e] at this
  cases this

/-- Nor is it sound with optional fields: any block with a string under `a` and
another under `b` is a `{b: string}`, hence passes for `{a?: number, b: string}`,
unless strings are numbers. -/
theorem subtype_unsound_optional {V : Type} (M : Values V) (v x y : V) (hb : M.isBlock v)
    (ha : M.entry v "a" = some x) (hx : ¬ M.prim .number x)
    (hy : M.entry v "b" = some y) (hys : M.prim .string y) :
    den M tB v ∧ (∀ k, isSubtype (k + 2) tB tOptB = true) ∧ ¬ den M tOptB v := by
  refine ⟨?_, fun _ => rfl, ?_⟩
  · simp only [tB, req, den, denFields]
    exact ⟨hb, ⟨y, hy, hys⟩, trivial⟩
  · simp only [tOptB, opt, req, den, denFields]
    exact fun h => hx (h.2.1 x ha)

/-! ## Examples -/

/-- `{a: NonEmpty(:x | string), b: number}`. -/
def exS : Ty := .record [req "a" (.app (.con "NonEmpty") (.union [.litSymbol "x", .prim .string])),
  req "b" (.prim .number)] false []
/-- `{a: [symbol | string, top, ..]}`, as a list of at least one element. -/
def exT : Ty := .record [req "a" (.prefixList [.union [.prim .symbol, .prim .string]] (.top))] false []
/-- `{a: List(top)}`, open. -/
def exU : Ty := .record [req "a" (.app (.con "List") .top)] true []

-- The hypotheses of the theorems hold of types that are not equal.
example : plain exS = true ∧ plain exT = true ∧ plain exU = true := ⟨rfl, rfl, rfl⟩
example (k : Nat) : isSubtype (k + 10) exS exT = true := rfl
example (k : Nat) : isSubtype (k + 10) exT exU = true := rfl
example (k : Nat) : isSubtype (k + 10) exS exU = true := rfl
example (k : Nat) : isSubtype (k + 10) exU exT = false := rfl
-- Functions: contravariant in the argument.
example (k : Nat) : isSubtype (k + 10) (.function (.union [.prim .number, .prim .string]) (.litString "a"))
    (.function (.prim .number) (.prim .string)) = true := rfl
example (k : Nat) : isSubtype (k + 10) (.function (.prim .number) (.prim .string))
    (.function (.union [.prim .number, .prim .string]) (.prim .string)) = false := rfl
-- Recursive types.
example : isSubtype 10 (.mu "x" (.function (.prim .null) (.var "x")))
    (.function (.prim .null) (.mu "x" (.function (.prim .null) (.var "x")))) = true := by decide +kernel

/-- A meaning: naturals as numbers (even) and strings (odd); pairs of them as blocks. -/
def exValues : Values (Nat ⊕ (Nat × Nat)) where
  prim p v := match p, v with
    | .number, .inl n => n % 2 = 0
    | .string, .inl n => n % 2 = 1
    | _, _ => False
  sym _ _ := False
  str _ _ := False
  sym_symbol _ _ h := h.elim
  str_string _ _ h := h.elim
  elems _ := none
  entry v n := match v with
    | .inr (a, b) => if n = "a" then some (.inl a) else if n = "b" then some (.inl b) else none
    | _ => none
  isBlock v := v.isRight
  isFun _ := False
  apply _ _ _ := False
  io P := P
  io_mono _ _ h := h
  lens _ _ _ := False
  traversal _ _ _ := False
  lens_mono _ _ _ _ _ _ _ h := h
  traversal_mono _ _ _ _ _ _ _ h := h
  lens_traversal _ _ _ h := h
  other _ _ := False

example : den exValues tB (.inr (1, 3)) ∧ ¬ den exValues tOptB (.inr (1, 3)) := by
  have h := subtype_unsound_optional exValues (.inr (1, 3)) (.inl 1) (.inl 3) rfl rfl
    (by simp [exValues]) rfl (by simp [exValues])
  exact ⟨h.1, h.2.2⟩

example : den exValues tB (.inr (1, 3)) := by
  refine subtype_sound_partial exValues (s := tAB) (t := tB) rfl rfl (k := sizeOf tAB + sizeOf tB + 2)
    (by omega) rfl _ ?_
  simp [tAB, req, den, denFields, exValues]

end Verif.Subtype
