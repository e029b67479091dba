import Verif.FuseLemmas

/-!
# Rewriting lookups

Proofs only.
-/

namespace Verif.Fuse
open Verif.Fold
variable {K : Type} [DecidableEq K] {P : Comp.World K}

/-- What each entry of a table stands for. -/
def Fair (P : Comp.World K) (t : Table K) : Prop :=
  ∀ ns k g, t.get ns k = some g → ∀ d, Joins P (lookupOr k (.free ns) d) (.free g)

theorem two_cases (k : Inl.Kind K) (xs : Inl.Exps K) (t : Table K) (h : Fair P t) (hx : Ts P (meanL xs) (meanL (rewriteL t xs))) :
    T P (meanNode k (meanL xs)) (mean (rewrite t (.node k xs))) := by
  unfold rewrite
  split
  · rename_i m ns
    split
    · rename_i g hg
      exact .join (h _ _ _ hg _)
    · exact T.refl _
  · rename_i m ns d
    split
    · rename_i g hg
      exact .join (h _ _ _ hg _)
    · match hx with
      | .cons h1 (.cons h2 .nil) => exact lookupOr_same h1 h2
  · exact node_same _ hx

mutual
theorem rewrite_same {t : Table K} (h : Fair P t) (x : Inl.Exp K) : T P (mean x) (mean (rewrite t x)) := by
  match x with
  | .var v => exact T.refl _
  | .let_ ty bs b => exact .head (.let_ (rewriteB_same h bs) (rewrite_same h b))
  | .lam i ps b => exact .head (.lam (rewrite_same h b))
  | .app f xs => exact .head (.app (rewrite_same h f) (rewriteL_same h xs))
  | .lit p => exact T.refl _
  | .intrinsic n => exact T.refl _
  | .metaOf x m => exact .head (.metaOf (rewrite_same h x) (rewrite_same h m))
  | .node k xs => exact two_cases k xs t h (rewriteL_same h xs)
termination_by structural x
theorem rewriteL_same {t : Table K} (h : Fair P t) (xs : Inl.Exps K) : Ts P (meanL xs) (meanL (rewriteL t xs)) := by
  match xs with
  | .nil => exact .nil
  | .cons x xs => exact .cons (rewrite_same h x) (rewriteL_same h xs)
termination_by structural xs
theorem rewriteB_same {t : Table K} (h : Fair P t) (xs : Inl.Binds K) : Tb P (meanB xs) (meanB (rewriteB t xs)) := by
  match xs with
  | .nil => exact .nil
  | .cons n x xs => exact .cons (rewrite_same h x) (rewriteB_same h xs)
termination_by structural xs
end

omit [DecidableEq K] in
theorem get_append [DecidableEq K] (t t' : Table K) (ns : String) (k : K) : (t ++ t').get ns k = (t.get ns k).or (t'.get ns k) := by
  simp only [Table.get, List.find?_append]
  cases List.find? (fun x => decide (x.1 = (ns, k))) t <;> simp

/-- What is in the table comes from a name that comes apart so. -/
theorem seed_from {key : String → K} {gs : List String} {t : Table K} {ns : String} {k : K} {g : String}
    (h : (seed key t gs).get ns k = some g) : t.get ns k = some g ∨
      (t.get ns k = none ∧ g ∈ gs ∧ ∃ m, split g.toList = some (ns.toList, m) ∧ key (String.ofList m) = k) := by
  induction gs generalizing t with
  | nil => exact .inl h
  | cons g' gs ih =>
    unfold seed at h
    split at h
    · rename_i a m hs
      split at h
      · rcases ih h with h | ⟨h1, h2, h3⟩
        · exact .inl h
        · exact .inr ⟨h1, by simp [h2], h3⟩
      · rcases ih h with h | ⟨h1, h2, h3⟩
        · rw [get_append] at h
          cases ht : t.get ns k with
          | some g'' => rw [ht] at h; exact .inl (by simpa using h)
          | none =>
            rw [ht, Option.none_or] at h
            simp only [Table.get, List.find?_cons, List.find?_nil] at h
            split at h
            · rename_i he
              simp only [decide_eq_true_eq, Prod.mk.injEq] at he
              simp only [Option.map_some, Option.some.injEq] at h
              subst h
              exact .inr ⟨rfl, by simp, m, by rw [hs, ← he.1]; simp, he.2⟩
            · cases h
        · refine .inr ⟨?_, by simp [h2], h3⟩
          rw [get_append, Option.or_eq_none_iff] at h1
          exact h1.1
    · rcases ih h with h | ⟨h1, h2, h3⟩
      · exact .inl h
      · exact .inr ⟨h1, by simp [h2], h3⟩

end Verif.Fuse
