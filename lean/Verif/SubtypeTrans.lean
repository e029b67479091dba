import Verif.SubtypeLemmas

/-!
# Subtyping: transitivity and meaning of the rules
-/

namespace Verif.Subtype

theorem sub_never {s : Ty} (h : Sub s .never) : s = .never := by
  cases h with
  | refl => rfl
  | never => rfl
  | unionL vs t hn => exact absurd rfl hn

theorem sub_top_left {t : Ty} (h : Sub .top t) : t = .top := by
  cases h with
  | refl => rfl
  | top => rfl
  | unionR _ _ _ hn => exact absurd rfl hn

theorem sub_list_inv {u z : Ty} (h : Sub (.app (.con "List") u) z) :
    z = .top ∨ (∃ vs, z = .union vs) ∨ ∃ c, z = .app (.con "List") c ∧ Sub u c := by
  generalize e : Ty.app (.con "List") u = t at h
  cases h with
  | refl => subst e; exact .inr (.inr ⟨u, rfl, .refl _⟩)
  | top => exact .inl rfl
  | unionR _ _ vs => exact .inr (.inl ⟨vs, rfl⟩)
  | cov m a b hm hab =>
    simp only [Ty.app.injEq, Ty.con.injEq] at e
    obtain ⟨rfl, rfl⟩ := e
    exact .inr (.inr ⟨b, rfl, hab⟩)
  | neList => simp at e
  | nePre => simp at e
  | never => simp at e
  | unionL => simp at e
  | litSymbol => simp at e
  | litString => simp at e
  | optic => simp at e
  | tupList => simp at e
  | tupNE => simp at e
  | tupTup => simp at e
  | tupPre => simp at e
  | prePre => simp at e
  | preList => simp at e
  | record => simp at e
  | function => simp at e

theorem zip_trans {P : Ty → Ty → Prop} {as bs cs : List Ty} (h1 : bs.length ≤ as.length)
    (h2 : cs.length ≤ bs.length)
    (h : ∀ a b c, (a, b) ∈ as.zip bs → (b, c) ∈ bs.zip cs → P a c) :
    ∀ p ∈ as.zip cs, P p.1 p.2 := by
  induction as generalizing bs cs with
  | nil => simp
  | cons a as ih =>
    cases bs with
    | nil =>
      cases cs with
      | nil => simp
      | cons => simp at h2
    | cons b bs =>
      cases cs with
      | nil => simp
      | cons c cs =>
        intro p hp
        simp only [List.zip_cons_cons, List.mem_cons] at hp
        rcases hp with rfl | hp
        · exact h a b c (by simp) (by simp)
        · simp only [List.length_cons] at h1 h2
          exact ih (bs := bs) (by omega) (by omega) (fun a b c ha hb => h a b c (by simp [ha]) (by simp [hb])) p hp

/-- Elements past the shorter of two prefixes: either they face an element of the
middle list that is past it too, or they are past the middle list. -/
theorem drop_trans {P : Ty → Prop} {as bs : List Ty} {n : Nat} (hn : n ≤ bs.length)
    (hl : bs.length ≤ as.length)
    (h1 : ∀ a b, (a, b) ∈ as.zip bs → b ∈ bs.drop n → P a) (h2 : ∀ a ∈ as.drop bs.length, P a) :
    ∀ a ∈ as.drop n, P a := by
  induction bs generalizing as n with
  | nil =>
    simp only [List.length_nil, Nat.le_zero] at hn
    subst hn
    exact h2
  | cons b bs ih =>
    cases as with
    | nil => simp
    | cons a as =>
      simp only [List.length_cons] at hl
      cases n with
      | zero =>
        intro x hx
        simp only [List.drop_zero, List.mem_cons] at hx
        rcases hx with rfl | hx
        · exact h1 x b (by simp) (by simp)
        · refine ih (as := as) (n := 0) (by omega) (by omega) ?_ ?_ x (by simpa using hx)
          · intro a' b' hm hb; exact h1 a' b' (by simp [hm]) (by simp at hb; simp [hb])
          · intro a' ha; exact h2 a' (by simpa using ha)
      | succ n =>
        simp only [List.length_cons] at hn
        intro x hx
        simp only [List.drop_succ_cons] at hx
        refine ih (as := as) (n := n) (by omega) (by omega) ?_ ?_ x hx
        · intro a' b' hm hb; exact h1 a' b' (by simp [hm]) (by simpa using hb)
        · intro a' ha; exact h2 a' (by simpa using ha)

theorem exists_zip {as bs : List Ty} (h : bs.length ≤ as.length) : ∀ b ∈ bs, ∃ a, (a, b) ∈ as.zip bs := by
  induction bs generalizing as with
  | nil => simp
  | cons b bs ih =>
    cases as with
    | nil => simp at h
    | cons a as =>
      simp only [List.length_cons] at h
      intro x hx
      rcases List.mem_cons.1 hx with rfl | hx
      · exact ⟨a, by simp⟩
      · obtain ⟨a', ha⟩ := ih (as := as) (by omega) x hx
        exact ⟨a', by simp [ha]⟩

theorem zip_left {as bs : List Ty} (h : as.length = bs.length) : ∀ a ∈ as, ∃ b, (a, b) ∈ as.zip bs := by
  induction as generalizing bs with
  | nil => simp
  | cons a as ih =>
    cases bs with
    | nil => simp at h
    | cons b bs =>
      simp only [List.length_cons] at h
      intro x hx
      rcases List.mem_cons.1 hx with rfl | hx
      · exact ⟨b, by simp⟩
      · obtain ⟨b', hb⟩ := ih (bs := bs) (by omega) x hx
        exact ⟨b', by simp [hb]⟩

/-- Elements of a longer list: facing one of the shorter, or past it. -/
theorem zip_or_drop {as bs : List Ty} (h : bs.length ≤ as.length) :
    ∀ a ∈ as, (∃ b, (a, b) ∈ as.zip bs) ∨ a ∈ as.drop bs.length := by
  induction as generalizing bs with
  | nil => simp
  | cons a as ih =>
    cases bs with
    | nil => intro x hx; right; simpa using hx
    | cons b bs =>
      simp only [List.length_cons] at h
      intro x hx
      rcases List.mem_cons.1 hx with rfl | hx
      · exact .inl ⟨b, by simp⟩
      · rcases ih (bs := bs) (by omega) x hx with ⟨b', hb⟩ | h
        · exact .inl ⟨b', by simp [hb]⟩
        · exact .inr (by simpa using h)

/-- The rules are transitive. -/
theorem sub_trans : ∀ (n : Nat) (s t z : Ty), sizeOf s + sizeOf t + sizeOf z ≤ n →
    Sub s t → Sub t z → Sub s z
  | 0, s, t, z, hn, _, _ => by
    have : 0 < sizeOf s := by cases s <;> simp <;> omega
    omega
  | n + 1, s, t, z, hn, h1, h2 => by
    have ih := sub_trans n
    -- the rules about arbitrary types first
    by_cases e0 : s = t
    · subst e0; exact h2
    by_cases e1 : t = z
    · subst e1; exact h1
    by_cases e2 : s = .never
    · subst e2; exact .never _
    by_cases e3 : z = .top
    · subst e3; exact .top _
    have e4 : t ≠ .top := by rintro rfl; exact e3 (sub_top_left h2)
    have e5 : t ≠ .never := by rintro rfl; exact e2 (sub_never h1)
    have e6 : z ≠ .never := by rintro rfl; exact e5 (sub_never h2)
    have e7 : s ≠ .top := by rintro rfl; exact e4 (sub_top_left h1)
    by_cases e8 : ∃ vs, s = .union vs
    · obtain ⟨vs, rfl⟩ := e8
      refine .unionL _ _ e6 fun v hv => ?_
      have hvt : Sub v t := by
        cases h1 with
        | refl => exact absurd rfl e0
        | top => exact absurd rfl e4
        | unionL _ _ _ h => exact h v hv
        | unionR _ _ _ _ h => exact absurd rfl (h vs)
      refine ih v t z ?_ hvt h2
      have := size_mem hv
      simp only [size_union] at hn; omega
    have e8' : ∀ ws, s ≠ .union ws := fun ws h => e8 ⟨ws, h⟩
    by_cases e9 : ∃ vs, t = .union vs
    · obtain ⟨vs, rfl⟩ := e9
      have hall : ∀ v ∈ vs, Sub v z := by
        cases h2 with
        | refl => exact absurd rfl e1
        | top => exact absurd rfl e3
        | unionL _ _ _ h => exact h
        | unionR _ _ _ _ h => exact absurd rfl (h vs)
      cases h1 with
      | refl => exact absurd rfl e0
      | never => exact absurd rfl e2
      | unionL ws => exact absurd rfl (e8' ws)
      | unionR _ v _ _ _ hv h =>
        refine ih s v z ?_ h (hall v hv)
        have := size_mem hv
        simp only [size_union] at hn; omega
    by_cases e10 : ∃ vs, z = .union vs
    · obtain ⟨vs, rfl⟩ := e10
      cases h2 with
      | refl => exact absurd rfl e1
      | never => exact absurd rfl e5
      | unionL ws => exact absurd ⟨ws, rfl⟩ e9
      | unionR _ v _ _ _ hv h =>
        refine .unionR _ v _ e7 e8' hv (ih s t v ?_ h1 h)
        have := size_mem hv
        simp only [size_union] at hn; omega
    cases h1 with
    | refl => exact absurd rfl e0
    | never => exact absurd rfl e2
    | top => exact absurd rfl e4
    | unionL vs => exact absurd rfl (e8' vs)
    | unionR _ _ vs => exact absurd ⟨vs, rfl⟩ e9
    | litSymbol =>
      cases h2 with
      | refl => exact absurd rfl e1
      | top => exact absurd rfl e3
      | unionR _ _ vs => exact absurd ⟨vs, rfl⟩ e10
    | litString =>
      cases h2 with
      | refl => exact absurd rfl e1
      | top => exact absurd rfl e3
      | unionR _ _ vs => exact absurd ⟨vs, rfl⟩ e10
    | cov m a b hm hab =>
      cases h2 with
      | refl => exact absurd rfl e1
      | top => exact absurd rfl e3
      | unionR _ _ vs => exact absurd ⟨vs, rfl⟩ e10
      | cov _ _ c _ hbc => exact .cov _ _ _ hm (ih a b c (by simp only [size_app] at hn; omega) hab hbc)
      | neList _ c hbc => exact .neList _ _ (ih a b c (by simp only [size_app] at hn; omega) hab hbc)
      | nePre _ p tail hp ht =>
        exact .nePre _ _ _
          (ih a b p (by simp only [size_app, size_pre, List.cons.sizeOf_spec] at hn; omega) hab hp)
          (ih a b tail (by simp only [size_app, size_pre] at hn; omega) hab ht)
    | neList a b hab =>
      rcases sub_list_inv h2 with h2 | h2 | ⟨c, rfl, hbc⟩
      · exact absurd h2 e3
      · exact absurd h2 e10
      · exact .neList _ _ (ih a b c (by simp only [size_app] at hn; omega) hab hbc)
    | optic m1 m2 a b c d hm hac hbd =>
      cases h2 with
      | refl => exact absurd rfl e1
      | top => exact absurd rfl e3
      | unionR _ _ vs => exact absurd ⟨vs, rfl⟩ e10
      | optic _ m3 _ _ c' d' hm' hcc hdd =>
        refine .optic _ _ _ _ _ _ ?_ (ih a c c' (by simp only [size_app] at hn; omega) hac hcc)
          (ih b d d' (by simp only [size_app] at hn; omega) hbd hdd)
        simp only [optics, List.mem_cons, List.not_mem_nil, or_false, Prod.mk.injEq] at hm hm' ⊢
        rcases hm with ⟨rfl, rfl⟩ | ⟨rfl, rfl⟩ | ⟨rfl, rfl⟩ <;>
          rcases hm' with ⟨hh, rfl⟩ | ⟨hh, rfl⟩ | ⟨hh, rfl⟩ <;> simp at hh ⊢
    | tupList es u h =>
      rcases sub_list_inv h2 with h2 | h2 | ⟨c, rfl, huc⟩
      · exact absurd h2 e3
      · exact absurd h2 e10
      · refine .tupList _ _ fun e he => ih e u c ?_ (h e he) huc
        have := size_mem he
        simp only [size_app, size_tuple] at hn; omega
    | tupNE es u hne h =>
      cases h2 with
      | refl => exact absurd rfl e1
      | top => exact absurd rfl e3
      | unionR _ _ vs => exact absurd ⟨vs, rfl⟩ e10
      | cov _ _ c _ huc =>
        refine .tupNE _ _ hne fun e he => ih e u c ?_ (h e he) huc
        have := size_mem he
        simp only [size_app, size_tuple] at hn; omega
      | neList _ c huc =>
        refine .tupList _ _ fun e he => ih e u c ?_ (h e he) huc
        have := size_mem he
        simp only [size_app, size_tuple] at hn; omega
      | nePre _ p tail hp ht =>
        refine .tupPre _ _ _ (by simp) (List.length_pos_iff.2 hne) ?_ ?_
        · intro q hq
          cases es with
          | nil => exact absurd rfl hne
          | cons x es =>
            simp only [List.zip_cons_cons, List.zip_nil_right, List.mem_singleton] at hq
            subst hq
            refine ih x u p ?_ (h x (by simp)) hp
            simp only [size_app, size_tuple, size_pre, List.cons.sizeOf_spec] at hn; omega
        · intro x hx
          have hx := List.mem_of_mem_drop hx
          refine ih x u tail ?_ (h x hx) ht
          have := size_mem hx
          simp only [size_app, size_tuple, size_pre] at hn; omega
    | tupTup as bs hl h =>
      cases h2 with
      | refl => exact absurd rfl e1
      | top => exact absurd rfl e3
      | unionR _ _ vs => exact absurd ⟨vs, rfl⟩ e10
      | tupList _ u hu =>
        refine .tupList _ _ fun a ha => ?_
        obtain ⟨b, hb⟩ := zip_left hl a ha
        have hbm := (List.of_mem_zip hb).2
        refine ih a b u ?_ (h _ hb) (hu b hbm)
        have := size_mem ha
        have := size_mem hbm
        simp only [size_app, size_tuple] at hn; omega
      | tupNE _ u hne hu =>
        refine .tupNE _ _ (by rintro rfl; cases bs <;> simp_all) fun a ha => ?_
        obtain ⟨b, hb⟩ := zip_left hl a ha
        have hbm := (List.of_mem_zip hb).2
        refine ih a b u ?_ (h _ hb) (hu b hbm)
        have := size_mem ha
        have := size_mem hbm
        simp only [size_app, size_tuple] at hn; omega
      | tupTup _ cs hl' h' =>
        refine .tupTup _ _ (hl.trans hl') (zip_trans (Nat.le_of_eq hl.symm) (Nat.le_of_eq hl'.symm) fun a b c hab hbc => ?_)
        refine ih a b c ?_ (h _ hab) (h' _ hbc)
        have := size_mem (List.of_mem_zip hab).1
        have := size_mem (List.of_mem_zip hab).2
        have := size_mem (List.of_mem_zip hbc).2
        simp only [size_tuple] at hn; omega
      | tupPre _ pre tail hne hl' h' h'' =>
        refine .tupPre _ _ _ hne (by omega) (zip_trans (Nat.le_of_eq hl.symm) hl' fun a b c hab hbc => ?_) ?_
        · refine ih a b c ?_ (h _ hab) (h' _ hbc)
          have := size_mem (List.of_mem_zip hab).1
          have := size_mem (List.of_mem_zip hab).2
          have := size_mem (List.of_mem_zip hbc).2
          simp only [size_tuple, size_pre] at hn; omega
        · refine drop_trans hl' (Nat.le_of_eq hl.symm) (fun a b hab hb => ?_) (fun a ha => ?_)
          · refine ih a b tail ?_ (h _ hab) (h'' b hb)
            have := size_mem (List.of_mem_zip hab).1
            have := size_mem (List.of_mem_zip hab).2
            simp only [size_tuple, size_pre] at hn; omega
          · rw [← hl] at ha; simp at ha
    | tupPre es pre tail hne hl h h' =>
      cases h2 with
      | refl => exact absurd rfl e1
      | top => exact absurd rfl e3
      | unionR _ _ vs => exact absurd ⟨vs, rfl⟩ e10
      | prePre _ p2 _ t2 hne2 hl2 g g' ht =>
        refine .tupPre _ _ _ hne2 (by omega) (zip_trans hl hl2 fun a b c hab hbc => ?_) ?_
        · refine ih a b c ?_ (h _ hab) (g _ hbc)
          have := size_mem (List.of_mem_zip hab).1
          have := size_mem (List.of_mem_zip hab).2
          have := size_mem (List.of_mem_zip hbc).2
          simp only [size_tuple, size_pre] at hn; omega
        · refine drop_trans hl2 hl (fun a b hab hb => ?_) (fun a ha => ?_)
          · refine ih a b t2 ?_ (h _ hab) (g' b hb)
            have := size_mem (List.of_mem_zip hab).1
            have := size_mem (List.of_mem_zip hab).2
            simp only [size_tuple, size_pre] at hn; omega
          · refine ih a tail t2 ?_ (h' a ha) ht
            have := size_mem (List.mem_of_mem_drop ha)
            simp only [size_tuple, size_pre] at hn; omega
      | preList _ _ u g g' =>
        refine .tupList _ _ fun a ha => ?_
        have hsa := size_mem ha
        rcases zip_or_drop hl a ha with ⟨b, hb⟩ | hd
        · have hbm := (List.of_mem_zip hb).2
          refine ih a b u ?_ (h _ hb) (g b hbm)
          have := size_mem hbm
          simp only [size_tuple, size_pre, size_app] at hn; omega
        · refine ih a tail u ?_ (h' a hd) g'
          simp only [size_tuple, size_pre, size_app] at hn; omega
    | prePre p p2 s2 t2 hne hl h h' ht =>
      cases h2 with
      | refl => exact absurd rfl e1
      | top => exact absurd rfl e3
      | unionR _ _ vs => exact absurd ⟨vs, rfl⟩ e10
      | prePre _ p3 _ t3 hne3 hl3 g g' ht' =>
        refine .prePre _ _ _ _ hne3 (by omega) (zip_trans hl hl3 fun a b c hab hbc => ?_) ?_
          (ih s2 t2 t3 (by simp only [size_pre] at hn; omega) ht ht')
        · refine ih a b c ?_ (h _ hab) (g _ hbc)
          have := size_mem (List.of_mem_zip hab).1
          have := size_mem (List.of_mem_zip hab).2
          have := size_mem (List.of_mem_zip hbc).2
          simp only [size_pre] at hn; omega
        · refine drop_trans hl3 hl (fun a b hab hb => ?_) (fun a ha => ?_)
          · refine ih a b t3 ?_ (h _ hab) (g' b hb)
            have := size_mem (List.of_mem_zip hab).1
            have := size_mem (List.of_mem_zip hab).2
            simp only [size_pre] at hn; omega
          · refine ih a t2 t3 ?_ (h' a ha) ht'
            have := size_mem (List.mem_of_mem_drop ha)
            simp only [size_pre] at hn; omega
      | preList _ _ u g g' =>
        refine .preList _ _ _ (fun a ha => ?_) (ih s2 t2 u (by simp only [size_pre, size_app] at hn; omega) ht g')
        have hsa := size_mem ha
        rcases zip_or_drop hl a ha with ⟨b, hb⟩ | hd
        · have hbm := (List.of_mem_zip hb).2
          refine ih a b u ?_ (h _ hb) (g b hbm)
          have := size_mem hbm
          simp only [size_pre, size_app] at hn; omega
        · refine ih a t2 u ?_ (h' a hd) g'
          simp only [size_pre, size_app] at hn; omega
    | preList pre tail u h h' =>
      rcases sub_list_inv h2 with h2 | h2 | ⟨c, rfl, huc⟩
      · exact absurd h2 e3
      · exact absurd h2 e10
      · refine .preList _ _ _ (fun e he => ih e u c ?_ (h e he) huc)
          (ih tail u c (by simp only [size_pre, size_app] at hn; omega) h' huc)
        have := size_mem he
        simp only [size_app, size_pre] at hn; omega
    | nePre u p tail hp ht =>
      cases h2 with
      | refl => exact absurd rfl e1
      | top => exact absurd rfl e3
      | unionR _ _ vs => exact absurd ⟨vs, rfl⟩ e10
      | prePre _ p2 _ t2 hne hl g g' htt =>
        cases p2 with
        | nil => exact absurd rfl hne
        | cons q p2 =>
          cases p2 with
          | cons => simp at hl
          | nil =>
            refine .nePre _ _ _ (ih u p q ?_ hp (g (p, q) (by simp))) (ih u tail t2 ?_ ht htt)
            · simp only [size_app, size_pre, List.cons.sizeOf_spec] at hn; omega
            · simp only [size_app, size_pre] at hn; omega
      | preList _ _ w g g' =>
        refine .neList _ _ (ih u p w ?_ hp (g p (by simp)))
        simp only [size_app, size_pre, List.cons.sizeOf_spec] at hn; omega
    | record sf tf so to g1 g2 g3 g4 =>
      cases h2 with
      | refl => exact absurd rfl e1
      | top => exact absurd rfl e3
      | unionR _ _ vs => exact absurd ⟨vs, rfl⟩ e10
      | record _ zf _ zo k1 k2 k3 k4 =>
        refine .record _ _ _ _ ?_ ?_ (fun h => g3 (k3 h)) k4
        · intro n tt hm
          obtain ⟨mt, hmt⟩ := k1 n tt hm
          exact g1 n mt (getField_mem hmt)
        · intro n tt st hm hst
          obtain ⟨mt, hmt⟩ := k1 n tt hm
          have hmm := getField_mem hmt
          refine ih st mt tt ?_ (g2 n mt st hmm hst) (k2 n tt mt hm hmt)
          have := size_field (o := so) (r := []) (getField_mem hst)
          have := size_field (o := to) (r := []) hmm
          have := size_field (o := zo) (r := []) hm
          omega
    | function a b c d h h' =>
      cases h2 with
      | refl => exact absurd rfl e1
      | top => exact absurd rfl e3
      | unionR _ _ vs => exact absurd ⟨vs, rfl⟩ e10
      | function _ _ e f g g' =>
        exact .function _ _ _ _ (ih e c a (by simp only [size_fn] at hn; omega) g h)
          (ih b d f (by simp only [size_fn] at hn; omega) h' g')

end Verif.Subtype
