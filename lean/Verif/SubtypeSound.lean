import Verif.SubtypeTrans
import Verif.SubtypeSpec

/-!
# Subtyping: the rules respect the meaning of types
-/

namespace Verif.Subtype

variable {V : Type} {M : Values V}

theorem denSome_iff : ∀ {ts : List Ty} {v : V}, denSome M ts v ↔ ∃ t ∈ ts, den M t v
  | [], v => by simp [denSome]
  | t :: ts, v => by simp [denSome, denSome_iff (ts := ts)]

theorem denFields_mem : ∀ {fs : List (String × Bool × Ty)} {v : V} {n : String} {t : Ty},
    denFields M fs v → (n, false, t) ∈ fs → ∃ w, M.entry v n = some w ∧ den M t w
  | [], _, _, _, _, h => by simp at h
  | (m, true, u) :: fs, v, n, t, hd, h => by
    simp only [List.mem_cons, Prod.mk.injEq, Bool.false_eq_true, false_and, and_false, false_or] at h
    exact denFields_mem hd.2 h
  | (m, false, u) :: fs, v, n, t, hd, h => by
    simp only [List.mem_cons, Prod.mk.injEq, true_and] at h
    rcases h with ⟨rfl, rfl⟩ | h
    · exact hd.1
    · exact denFields_mem hd.2 h

theorem denFields_of : ∀ {fs : List (String × Bool × Ty)} {v : V},
    (∀ n t, (n, true, t) ∉ fs) →
    (∀ n t, (n, false, t) ∈ fs → ∃ w, M.entry v n = some w ∧ den M t w) → denFields M fs v
  | [], _, _, _ => trivial
  | (m, true, u) :: _, _, hn, _ => absurd (List.mem_cons_self ..) (hn m u)
  | (m, false, u) :: _, _, hn, h =>
    ⟨h m u (List.mem_cons_self ..), denFields_of (fun n t hm => hn n t (List.mem_cons_of_mem _ hm))
      fun n t hm => h n t (List.mem_cons_of_mem _ hm)⟩

theorem denAll_list {u : Ty} : ∀ {es : List Ty} {vs : List V},
    (∀ e ∈ es, ∀ v, den M e v → den M u v) → denAll M es vs → ∀ w ∈ vs, den M u w
  | [], vs, _, h, w, hw => by simp only [denAll] at h; subst h; simp at hw
  | e :: es, vs, hs, h, w, hw => by
    obtain ⟨x, xs, rfl, h1, h2⟩ := h
    rcases List.mem_cons.1 hw with rfl | hw
    · exact hs e (List.mem_cons_self ..) _ h1
    · exact denAll_list (fun e he => hs e (List.mem_cons_of_mem _ he)) h2 w hw

theorem denAll_ne : ∀ {es : List Ty} {vs : List V}, es ≠ [] → denAll M es vs → vs ≠ []
  | [], _, h, _ => absurd rfl h
  | _ :: _, _, _, h => by obtain ⟨_, _, rfl, _⟩ := h; simp

theorem denAll_zip : ∀ {as bs : List Ty} {vs : List V}, as.length = bs.length →
    (∀ p ∈ as.zip bs, ∀ v, den M p.1 v → den M p.2 v) → denAll M as vs → denAll M bs vs
  | [], [], vs, _, _, h => h
  | [], b :: bs, _, hl, _, _ => by simp at hl
  | a :: as, [], _, hl, _, _ => by simp at hl
  | a :: as, b :: bs, vs, hl, hs, h => by
    obtain ⟨x, xs, rfl, h1, h2⟩ := h
    exact ⟨x, xs, rfl, hs (a, b) (by simp) _ h1,
      denAll_zip (by simpa using hl) (fun p hp => hs p (by simp [hp])) h2⟩

theorem denAll_prefix {P : V → Prop} : ∀ {es pre : List Ty} {vs : List V}, pre.length ≤ es.length →
    (∀ p ∈ es.zip pre, ∀ v, den M p.1 v → den M p.2 v) →
    (∀ e ∈ es.drop pre.length, ∀ v, den M e v → P v) → denAll M es vs → denPrefix M pre P vs
  | [], [], vs, _, _, _, h => by simp only [denAll] at h; subst h; simp [denPrefix]
  | [], b :: bs, _, hl, _, _, _ => by simp at hl
  | e :: es, [], vs, _, _, hd, h => by
    obtain ⟨x, xs, rfl, h1, h2⟩ := h
    have := denAll_prefix (P := P) (es := es) (pre := []) (vs := xs) (by simp) (by simp)
      (fun e he => hd e (by simp at he; simp [he])) h2
    simp only [denPrefix, List.mem_cons, forall_eq_or_imp] at this ⊢
    exact ⟨hd e (by simp) _ h1, this⟩
  | e :: es, b :: bs, vs, hl, hs, hd, h => by
    obtain ⟨x, xs, rfl, h1, h2⟩ := h
    refine ⟨x, xs, rfl, hs (e, b) (by simp) _ h1,
      denAll_prefix (by simpa using hl) (fun p hp => hs p (by simp [hp])) ?_ h2⟩
    intro e he
    exact hd e (by simpa using he)

theorem denPrefix_mono {P Q : V → Prop} : ∀ {es pre : List Ty} {vs : List V}, pre.length ≤ es.length →
    (∀ p ∈ es.zip pre, ∀ v, den M p.1 v → den M p.2 v) →
    (∀ e ∈ es.drop pre.length, ∀ v, den M e v → Q v) → (∀ v, P v → Q v) →
    denPrefix M es P vs → denPrefix M pre Q vs
  | [], [], vs, _, _, _, hpq, h => by
    simp only [denPrefix] at h ⊢
    exact fun w hw => hpq w (h w hw)
  | [], b :: bs, _, hl, _, _, _, _ => by simp at hl
  | e :: es, [], vs, _, _, hd, hpq, h => by
    obtain ⟨x, xs, rfl, h1, h2⟩ := h
    have := denPrefix_mono (P := P) (Q := Q) (es := es) (pre := []) (vs := xs) (by simp) (by simp)
      (fun e he => hd e (by simp at he; simp [he])) hpq h2
    simp only [denPrefix, List.mem_cons, forall_eq_or_imp] at this ⊢
    exact ⟨hd e (by simp) _ h1, this⟩
  | e :: es, b :: bs, vs, hl, hs, hd, hpq, h => by
    obtain ⟨x, xs, rfl, h1, h2⟩ := h
    refine ⟨x, xs, rfl, hs (e, b) (by simp) _ h1,
      denPrefix_mono (by simpa using hl) (fun p hp => hs p (by simp [hp])) ?_ hpq h2⟩
    intro e he
    exact hd e (by simpa using he)

theorem denPrefix_list {u : Ty} {P : V → Prop} : ∀ {es : List Ty} {vs : List V},
    (∀ e ∈ es, ∀ v, den M e v → den M u v) → (∀ v, P v → den M u v) → denPrefix M es P vs →
    ∀ w ∈ vs, den M u w
  | [], vs, _, hp, h, w, hw => hp w (h w hw)
  | e :: es, vs, hs, hp, h, w, hw => by
    obtain ⟨x, xs, rfl, h1, h2⟩ := h
    rcases List.mem_cons.1 hw with rfl | hw
    · exact hs e (List.mem_cons_self ..) _ h1
    · exact denPrefix_list (fun e he => hs e (List.mem_cons_of_mem _ he)) hp h2 w hw

/-- Whatever has a type has the types the rules put above it. -/
theorem sub_sound (M : Values V) {s t : Ty} (h : Sub s t) : ∀ v, den M s v → den M t v := by
  induction h with
  | refl => exact fun v h => h
  | never => intro v h; simp [den] at h
  | top => intro v _; simp [den]
  | litSymbol a => intro v h; exact M.sym_symbol a v h
  | litString a => intro v h; exact M.str_string a v h
  | cov n a b hn _ ih =>
    intro v h
    simp only [covariant, List.mem_cons, List.not_mem_nil, or_false] at hn
    rcases hn with rfl | rfl | rfl
    · simp only [den, if_true] at h ⊢
      obtain ⟨vs, h1, h2⟩ := h
      exact ⟨vs, h1, fun w hw => ih w (h2 w hw)⟩
    · simp only [den, String.reduceEq, if_true, if_false] at h ⊢
      exact M.io_mono _ _ ih v h
    · simp only [den, String.reduceEq, if_true, if_false] at h ⊢
      obtain ⟨vs, h1, h3, h2⟩ := h
      exact ⟨vs, h1, h3, fun w hw => ih w (h2 w hw)⟩
  | neList a b _ ih =>
    intro v h
    simp only [den, String.reduceEq, if_true, if_false] at h ⊢
    obtain ⟨vs, h1, _, h2⟩ := h
    exact ⟨vs, h1, fun w hw => ih w (h2 w hw)⟩
  | optic n m a b c d hn _ _ ih1 ih2 =>
    intro v h
    simp only [optics, List.mem_cons, List.not_mem_nil, or_false, Prod.mk.injEq] at hn
    rcases hn with ⟨rfl, rfl⟩ | ⟨rfl, rfl⟩ | ⟨rfl, rfl⟩ <;>
      simp only [den, String.reduceEq, if_true, if_false] at h ⊢
    · exact M.lens_mono _ _ _ _ ih1 ih2 v h
    · exact M.traversal_mono _ _ _ _ ih1 ih2 v h
    · exact M.lens_traversal _ _ v (M.lens_mono _ _ _ _ ih1 ih2 v h)
  | tupList es u _ ih =>
    intro v h
    simp only [den, if_true] at h ⊢
    obtain ⟨vs, h1, h2⟩ := h
    exact ⟨vs, h1, denAll_list ih h2⟩
  | tupNE es u hne _ ih =>
    intro v h
    simp only [den, String.reduceEq, if_true, if_false] at h ⊢
    obtain ⟨vs, h1, h2⟩ := h
    exact ⟨vs, h1, denAll_ne hne h2, denAll_list ih h2⟩
  | tupTup as bs hl _ ih =>
    intro v h
    simp only [den] at h ⊢
    obtain ⟨vs, h1, h2⟩ := h
    exact ⟨vs, h1, denAll_zip hl ih h2⟩
  | tupPre es pre tail _ hl _ _ ih1 ih2 =>
    intro v h
    simp only [den] at h ⊢
    obtain ⟨vs, h1, h2⟩ := h
    exact ⟨vs, h1, denAll_prefix hl ih1 ih2 h2⟩
  | prePre p p2 s2 t2 _ hl _ _ _ ih1 ih2 ih3 =>
    intro v h
    simp only [den] at h ⊢
    obtain ⟨vs, h1, h2⟩ := h
    exact ⟨vs, h1, denPrefix_mono hl ih1 ih2 ih3 h2⟩
  | preList pre tail u _ _ ih1 ih2 =>
    intro v h
    simp only [den, if_true] at h ⊢
    obtain ⟨vs, h1, h2⟩ := h
    exact ⟨vs, h1, denPrefix_list ih1 ih2 h2⟩
  | nePre u p tail _ _ ih1 ih2 =>
    intro v h
    simp only [den, String.reduceEq, if_true, if_false] at h ⊢
    obtain ⟨vs, h1, hne, h2⟩ := h
    refine ⟨vs, h1, ?_⟩
    cases vs with
    | nil => exact absurd rfl hne
    | cons w ws =>
      exact ⟨w, ws, rfl, ih1 w (h2 w (List.mem_cons_self ..)),
        fun x hx => ih2 x (h2 x (List.mem_cons_of_mem _ hx))⟩
  | record sf tf so to g1 _ _ g4 ih =>
    intro v h
    simp only [den] at h ⊢
    refine ⟨h.1, denFields_of g4 fun n tt hm => ?_⟩
    obtain ⟨st, hst⟩ := g1 n tt hm
    obtain ⟨w, hw1, hw2⟩ := denFields_mem h.2 (getField_mem hst)
    exact ⟨w, hw1, ih n tt st hm hst w hw2⟩
  | function a b c d _ _ ih1 ih2 =>
    intro v h
    simp only [den] at h ⊢
    exact ⟨h.1, fun x y hx hy => ih2 y (h.2 x y (ih1 x hx) hy)⟩
  | unionL vs t _ _ ih =>
    intro v h
    simp only [den] at h
    obtain ⟨u, hu, hd⟩ := denSome_iff.1 h
    exact ih u hu v hd
  | unionR s u vs _ _ hu _ ih =>
    intro v h
    simp only [den]
    exact denSome_iff.2 ⟨u, hu, ih v h⟩

end Verif.Subtype
