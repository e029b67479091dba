import Verif.SplitLemmas

/-!
# Splitting recursive binding groups keeps what names refer to (C07)
-/

namespace Verif.Split

open Verif.Core

/-- What the pass does to one expression. -/
def Good (Γ : List (Option (List String))) (e : Core) (r : Option Core) : Prop :=
  ∃ e', r = some e' ∧ Same e e' ∧ Fit Γ e' ∧ (binders e').Perm (binders e)

theorem walkL_good {ord : List Nat → List String → List String} {Γ : List (Option (List String))} {path : List Nat}
    {xs : List Core} (h : ∀ x ∈ xs, ∀ path, Good Γ x (walk ord path x)) :
    ∃ xs', walkL ord path xs = some xs' ∧ xs'.length = xs.length ∧
      (∀ (i : Nat) e e', xs[i]? = some e → xs'[i]? = some e' → Same e e') ∧ (∀ x ∈ xs', Fit Γ x) ∧
      (bindersL xs').Perm (bindersL xs) := by
  induction xs with
  | nil => exact ⟨[], rfl, rfl, by simp, by simp, .refl _⟩
  | cons x xs ih =>
    obtain ⟨xs', h1, h2, h3, h4, h5⟩ := ih fun y hy => h y (List.mem_cons_of_mem _ hy)
    obtain ⟨x', g1, g2, g3, g4⟩ := h x (List.mem_cons_self ..) ((xs.length + 1) :: path)
    refine ⟨x' :: xs', by simp only [walkL, g1, h1], by simp [h2], ?_, ?_, ?_⟩
    · intro i e e' he he'
      cases i with
      | zero => simp at he he'; subst he he'; exact g2
      | succ i => exact h3 i e e' (by simpa using he) (by simpa using he')
    · intro y hy
      rcases List.mem_cons.mp hy with rfl | hy
      · exact g3
      · exact h4 y hy
    · simp only [bindersL]
      exact g4.append h5

theorem walk_good {ord : List Nat → List String → List String} (ho : AnyOrder ord) (e : Core) :
    ∀ (path : List Nat) (Γ : List (Option (List String))), Fit Γ e → Good Γ e (walk ord path e) := by
  induction e using Core.ind with
  | hv v => intro path Γ h; exact ⟨_, rfl, .refl _, h, .refl _⟩
  | hlet ns vs b t ihv ihb =>
    intro path Γ h
    simp only [Fit, FitL_iff] at h
    obtain ⟨hn, hl, hv, hb⟩ := h
    obtain ⟨vs', h1, h2, h3, h4, h5⟩ := walkL_good (path := path) fun x hx path => ihv x hx path _ (hv x hx)
    obtain ⟨b', g1, g2, g3, g4⟩ := ihb (0 :: path) _ hb
    have hfit : Fit Γ (.letE ns vs' b' t) := by
      simp only [Fit, FitL_iff]
      exact ⟨hn, by omega, h4, g3⟩
    have hsame : Same (.letE ns vs b t) (.letE ns vs' b' t) := Same.letE (by omega) h3 g2
    have hbind : (binders (.letE ns vs' b' t)).Perm (binders (.letE ns vs b t)) := by
      simp only [binders]
      exact (List.Perm.append_left _ h5).append g4
    simp only [walk, h1, g1]
    split
    · exact ⟨_, rfl, hsame, hfit, hbind⟩
    · next ht =>
      have : t = .other := by
        cases t <;> simp at ht ⊢
      subst this
      obtain ⟨e', k1, k2, k3, k4⟩ := splitScope_ok ho path hfit
      exact ⟨e', k1, hsame.trans k2, k3, k4.trans hbind⟩
  | hlam ps b ih =>
    intro path Γ h
    obtain ⟨b', g1, g2, g3, g4⟩ := ih (0 :: path) (none :: Γ) h
    exact ⟨.lam ps b', by simp [walk, g1], Same.lam rfl g2, g3, g4⟩
  | hn k xs ih =>
    intro path Γ h
    simp only [Fit, FitL_iff] at h
    obtain ⟨xs', h1, h2, h3, h4, h5⟩ := walkL_good (path := path) fun x hx path => ih x hx path _ (h x hx)
    refine ⟨.node k xs', by simp [walk, h1], ?_, by simpa only [Fit, FitL_iff] using h4, h5⟩
    intro n E
    rw [unfold_node, unfold_node]
    congr 1
    refine List.ext_getElem (by simp [h2]) ?_
    intro i hi hi'
    simp only [List.getElem_map]
    simp only [List.length_map] at hi hi'
    exact h3 i _ _ (List.getElem?_eq_getElem hi) (List.getElem?_eq_getElem hi') n E

/-- **Splitting keeps what every name refers to.**  Whatever order the dependencies are met in, the pass
succeeds, every reference of its result stands for what it stood for before, and the bindings are the
same, each exactly as many times.  Hypothesis (`Fit`): in each group names are distinct and a reference
is to one of the bindings, and no free name is the name of an enclosing binding. -/
theorem splitLetrecs_preserves {ord : List Nat → List String → List String} (ho : AnyOrder ord) {e : Core}
    (h : Fit [] e) :
    ∃ e', splitLetrecs ord e = some e' ∧ Same e e' ∧ (binders e').Perm (binders e) ∧ Fit [] e' := by
  obtain ⟨e', h1, h2, h3, h4⟩ := walk_good ho e [] [] h
  exact ⟨e', h1, h2, h4, h3⟩

/-- Without distinct names it fails: of two bindings of one name the reference goes to the first, and
the dependency is taken to be on the last. -/
theorem splitLetrecs_repeated :
    ∃ e e' : Core, splitLetrecs (fun _ l => l) e = some e' ∧ e.WS [] ∧ ¬ Same e e' := by
  refine ⟨.letE ["x", "x", "y"] [.node (.literal "1") [], .node (.literal "2") [], .var (.bound 0 0 (some "x"))]
    (.var (.bound 0 2 (some "y"))) .other,
    .letE ["x"] [.node (.literal "1") []]
      (.letE ["x"] [.node (.literal "2") []]
        (.letE ["y"] [.var (.bound 1 0 (some "x"))] (.var (.bound 0 0 (some "y"))) .other) .other) .other, rfl, ?_, ?_⟩
  · simp [Core.WS, WSL, Var.InScope]
  · intro h
    have h := h 2 []
    have h1 : Tree.node (.literal "1") [] = Tree.node (.literal "2") [] := h
    simp at h1

section
/-- Even and odd, and a user of both that is defined first. -/
def wSplit : Core :=
  .letE ["use", "even", "odd", "one"]
    [.node .app [.var (.bound 0 1 (some "even")), .var (.bound 0 3 (some "one"))],
     .lam ["n"] (.node .app [.var (.bound 1 2 (some "odd")), .var (.bound 0 0 (some "n"))]),
     .lam ["n"] (.node .app [.var (.bound 1 1 (some "even")), .var (.bound 0 0 (some "n")), .var (.free "t")]),
     .node (.literal "1") []]
    (.var (.bound 0 0 (some "use"))) .other

example : Fit [] wSplit := by
  simp [wSplit, Fit, FitL, Fits]

example : splitLetrecs (fun _ l => l) wSplit = some
    (.letE ["odd", "even"]
      [.lam ["n"] (.node .app [.var (.bound 1 1 (some "even")), .var (.bound 0 0 (some "n")), .var (.free "t")]),
       .lam ["n"] (.node .app [.var (.bound 1 0 (some "odd")), .var (.bound 0 0 (some "n"))])]
      (.letE ["one"] [.node (.literal "1") []]
        (.letE ["use"] [.node .app [.var (.bound 2 1 (some "even")), .var (.bound 1 0 (some "one"))]]
          (.var (.bound 0 0 (some "use"))) .other) .other) .other) := by
  rfl
end

end Verif.Split
