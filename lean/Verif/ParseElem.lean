import Verif.ParseLemmas

/-!
# The grammar keeps its tokens
-/

namespace Verif.Parse

open Verif.Lex (Kind)

/-- The tokens are fit for the parser; `C` is what an opening Unicode bracket allows to happen. -/
structure Safe (C : Prop) (ts : List PTok) : Prop where
  colons : ColonsOk false (ts.map PTok.kind)
  applies : AppliesOk (ts.map PTok.kind)
  strings : StringsOk (ts.map PTok.kind)
  brackets : .bracketOpen ∈ ts.map PTok.kind → C

theorem ColonsOk.weaken {p : Bool} {ks : List Kind} (h : ColonsOk p ks) (hc : p = true → ks.head? ≠ some .colon) :
    ColonsOk false ks := by
  cases ks with
  | nil => trivial
  | cons k ks =>
    refine ⟨fun hk _ => ?_, h.2⟩
    cases p with
    | false => exact h.1 hk rfl
    | true => exact (hc rfl (by simp [hk])).elim

theorem ColonsOk.joint {X ts : List PTok} : ∀ {p : Bool}, ColonsOk p ((X ++ ts).map PTok.kind) → X ≠ [] → Joint X ts →
    ColonsOk false (ts.map PTok.kind) := by
  induction X with
  | nil => intro p _ h; exact (h rfl).elim
  | cons t X ih =>
    intro p h _ hj
    cases X with
    | nil =>
      refine ColonsOk.weaken h.2 ?_
      intro hp
      have := hj (by simpa using hp)
      simpa using this
    | cons u X =>
      refine ih h.2 (by simp) ?_
      intro hl
      exact hj (by simpa using hl)

theorem AppliesOk.suffix {X : List Kind} {ts : List Kind} (h : AppliesOk (X ++ ts)) : AppliesOk ts := by
  induction X with
  | nil => exact h
  | cons t X ih => exact ih h.2
theorem StringsOk.suffix {X : List Kind} {ts : List Kind} (h : StringsOk (X ++ ts)) : StringsOk ts := by
  induction X with
  | nil => exact h
  | cons t X ih => exact ih h.2

theorem Safe.suffix {C : Prop} {X ts : List PTok} (h : Safe C (X ++ ts)) (hj : Joint X ts) : Safe C ts := by
  refine ⟨?_, ?_, ?_, ?_⟩
  · by_cases hx : X = []
    · subst hx; exact h.colons
    · exact ColonsOk.joint h.colons hx hj
  · have := h.applies; rw [List.map_append] at this; exact this.suffix
  · have := h.strings; rw [List.map_append] at this; exact this.suffix
  · intro hm
    exact h.brackets (by rw [List.map_append, List.mem_append]; exact .inr hm)

theorem Safe.drop {C : Prop} {t : PTok} {ts : List PTok} (h : Safe C (t :: ts))
    (ht : t.kind ≠ .stringInterpolationTarget) : Safe C ts := Safe.suffix (X := [t]) h (Joint.one ht ts)

theorem Safe.seg {C : Prop} {ts ts' : List PTok} {o : List Op} (h : Safe C ts) (hs : Seg ts o ts') : Safe C ts' := by
  obtain ⟨X, rfl, _, _, hj⟩ := hs
  exact h.suffix hj

/-- How a node and its first token go together. -/
structure Link (k f : Kind) : Prop where
  head : isHeadStart k = true → isHeadTok f = true
  args : k = .argTuple → isApplyKind f = true
  solid : f.isTrivial = false

theorem link_of {k f g : Kind} (h : f = g)
    (hd : ((!isHeadStart k || isHeadTok g) && (k != .argTuple || isApplyKind g) && !g.isTrivial) = true) : Link k f := by
  subst h
  simp only [Bool.and_eq_true, Bool.or_eq_true, Bool.not_eq_true', bne_iff_ne, ne_eq] at hd
  refine ⟨fun h => ?_, fun h => ?_, hd.2⟩
  · rcases hd.1.1 with h' | h'
    · rw [h] at h'; simp at h'
    · exact h'
  · rcases hd.1.2 with h' | h'
    · exact (h' h).elim
    · exact h'

/-- What `try_parse_element` does: nothing, or it sends a whole node. -/
def ElemPost (ts : List PTok) (b : Bool) (o : List Op) (ts' : List PTok) : Prop :=
  (b = false ∧ o = [] ∧ ts' = ts) ∨
  (b = true ∧ ∃ k t X body, ts = t :: X ++ ts' ∧ o = .start k :: body ++ [.finish] ∧ OpBal body ∧
    opToks body = t.kind :: X.map PTok.kind ∧ Link k t.kind ∧ Joint (t :: X) ts')

theorem ElemPost.seg {ts ts' : List PTok} {b : Bool} {o : List Op} (h : ElemPost ts b o ts') : Seg ts o ts' := by
  rcases h with ⟨_, rfl, rfl⟩ | ⟨_, k, t, X, body, rfl, rfl, hb, ht, _, hj⟩
  · exact Seg.refl _
  · exact ⟨t :: X, rfl, by rw [opToks_node, ht]; rfl, hb.node k, hj⟩

theorem ElemPost.len {ts ts' : List PTok} {b : Bool} {o : List Op} (h : ElemPost ts b o ts') (hb : b = true) :
    ts'.length < ts.length := by
  rcases h with ⟨h, _⟩ | ⟨_, k, t, X, body, rfl, _⟩
  · rw [hb] at h; simp at h
  · simp; omega

/-- The node of something that consumes the first token. -/
theorem good_elem {α : Type} {C : Prop} {m : PM α} {k : Kind} {t : PTok} {ts : List PTok} (hl : Link k t.kind)
    (h : Good C m (t :: ts) fun _ o ts' => Seg (t :: ts) o ts' ∧ ts'.length ≤ ts.length) :
    Good C (node k m) (t :: ts) fun _ o ts' => ElemPost (t :: ts) true o ts' := by
  refine good_node (h.mono ?_)
  rintro _ o ts' ⟨⟨X, h1, h2, h3, h5⟩, h4⟩
  cases X with
  | nil => simp at h1; subst h1; simp at h4; omega
  | cons u X =>
    injection h1 with hu h1
    subst hu
    exact .inr ⟨rfl, k, t, X, o, by rw [h1]; rfl, rfl, h3, h2, hl, h5⟩

theorem good_then_true {α : Type} {C : Prop} {m : PM α} {ts : List PTok}
    (h : Good C m ts fun _ o ts' => ElemPost ts true o ts') :
    Good C (do let _ ← m; pure true) ts (ElemPost ts) :=
  Good.bind h fun _ o ts' hq => Good.pure (by simpa using hq)

/-! ## Atoms -/

theorem good_stringPattern {C : Prop} {pat e : Kind} {t : PTok} {ts : List PTok} (hs : Safe C (t :: ts))
    (he : patternEnd t.kind = some e) (hp : isHeadStart pat = false) (hp2 : pat ≠ .argTuple)
    (ht : t.kind.isTrivial = false) :
    Good C (stringPattern pat t.kind e) (t :: ts) fun _ o ts' => ElemPost (t :: ts) true o ts' := by
  refine good_elem ⟨by simp [hp], fun h => (hp2 h).elim, ht⟩ ?_
  refine Good.bind (take_cons t ts) ?_
  rintro _ _ _ ⟨rfl, rfl⟩
  refine Good.look ?_
  refine (segM_pattern (isEnd_of_patternEnd he) _ _ (by omega) (hs.strings.1 e he)).mono ?_
  intro _ o ts' hq
  exact ⟨((SegI.token t _).trans hq.1).seg (EndsWell.trans (SegI.token t _) hq.2), hq.1.len⟩

theorem good_takeIn_elem {C : Prop} {n : Kind} {t : PTok} {ts : List PTok} (hl : Link n t.kind)
    (ht : t.kind ≠ .stringInterpolationTarget) :
    Good C (takeIn n t.kind) (t :: ts) fun _ o ts' => ElemPost (t :: ts) true o ts' := by
  refine good_elem hl ((take_cons t ts).mono ?_)
  rintro _ _ _ ⟨rfl, rfl⟩
  exact ⟨Seg.token ht _, by omega⟩

theorem good_literal {C : Prop} (ts : List PTok) (hs : Safe C ts) : Good C tryLiteral ts (ElemPost ts) := by
  unfold tryLiteral
  refine Good.peek ?_
  cases ts with
  | nil => exact Good.pure (.inl ⟨rfl, rfl, rfl⟩)
  | cons t ts =>
    simp only [List.head?_cons]
    split
    · rename_i h
      refine good_then_true ?_
      have := good_stringPattern (pat := .stringPattern) (e := .stringPatternEnd) hs (by rw [h]; rfl) rfl (by decide)
        (by rw [h]; rfl)
      rw [h] at this
      exact this
    · split
      · rename_i h
        refine good_then_true ?_
        have := good_stringPattern (pat := .cStringPattern) (e := .cStringPatternEnd) hs (by rw [h]; rfl) rfl
          (by decide) (by rw [h]; rfl)
        rw [h] at this
        exact this
      · split
        · rename_i h
          refine good_then_true ?_
          have := good_stringPattern (pat := .rawStringPattern) (e := .rawStringPatternEnd) hs (by rw [h]; rfl) rfl
            (by decide) (by rw [h]; rfl)
          rw [h] at this
          exact this
        · split
          · rename_i h
            refine good_then_true (good_takeIn_elem ⟨by simp [isHeadStart], by simp, ?_⟩ ?_)
            · revert h
              cases t.kind <;> decide
            · intro hh; rw [hh] at h; simp [Kind.isLiteralTerminal] at h
          · exact Good.pure (.inl ⟨rfl, rfl, rfl⟩)

theorem good_name {C : Prop} (ts : List PTok) : Good C tryName ts (ElemPost ts) := by
  unfold tryName
  refine Good.peek ?_
  cases ts with
  | nil => exact Good.pure (.inl ⟨rfl, rfl, rfl⟩)
  | cons t ts =>
    simp only [List.head?_cons]
    split
    · rename_i h
      refine good_then_true (good_takeIn_elem ⟨?_, by simp, ?_⟩ ?_)
      · intro _; simp [isHeadTok, h]
      · revert h
        cases t.kind <;> decide
      · intro hh; rw [hh] at h; simp [Kind.isNameTerminal] at h
    · exact Good.pure (.inl ⟨rfl, rfl, rfl⟩)

theorem good_atom {C : Prop} (ts : List PTok) (hs : Safe C ts) : Good C tryAtom ts (ElemPost ts) := by
  unfold tryAtom
  refine Good.bind (good_literal ts hs) ?_
  intro b o ts' hq
  cases b with
  | true => exact Good.pure (by simpa using hq)
  | false =>
    rcases hq with ⟨_, rfl, rfl⟩ | ⟨h, _⟩
    · exact good_name _
    · simp at h

/-! ## Soup, lists, arguments -/

section Grammar

variable {C : Prop} {elem : PM Bool} {n : Nat}

/-- What is known of elements of less than `n` tokens. -/
def ElemOk (C : Prop) (elem : PM Bool) (n : Nat) : Prop :=
  ∀ ts : List PTok, ts.length < n → Safe C ts → Good C elem ts (ElemPost ts)

theorem segM_elements (he : ElemOk C elem n) : ∀ (fuel : Nat) (ts : List PTok), ts.length < fuel → ts.length < n →
    Safe C ts → SegM C (elements elem fuel) ts := by
  intro fuel
  induction fuel with
  | zero => intro ts h; omega
  | succ fuel ih =>
    intro ts hl hn hs
    unfold elements
    refine Good.bind (he ts hn hs) ?_
    intro b o ts' hq
    cases b with
    | false => exact Good.pure (by simpa using hq.seg)
    | true =>
      have hlen := hq.len rfl
      simp only [↓reduceIte]
      refine Good.bind (segM_trivia ts') ?_
      intro _ o' ts'' hq'
      have := hq'.len
      refine (ih ts'' (by omega) (by omega) ((hs.seg hq.seg).seg hq')).mono ?_
      intro _ o'' ts''' hq''
      exact hq.seg.trans (hq'.trans hq'')

theorem segM_trySoup (he : ElemOk C elem n) (ts : List PTok) (hn : ts.length < n) (hs : Safe C ts) :
    SegM C (trySoup elem) ts := by
  have key : ∀ f, ts.length < f → SegM C (do
      node .soup do
        elements elem f
        addTrivia
      pure true : PM Bool) ts := by
    intro f hf
    refine SegM.bind (segM_node (SegM.bind (segM_elements he f ts hf hn hs) ?_)) ?_
    · intro _ o ts' _; exact segM_trivia ts'
    · intro _ o ts' _; exact SegM.pure _ _
  unfold trySoup
  refine Good.look ?_
  cases ts with
  | nil => exact key 1 (by simp)
  | cons t ts =>
    dsimp only
    split
    · exact SegM.pure _ _
    · exact key _ (by omega)

theorem segM_soupLoop (he : ElemOk C elem n) : ∀ (fuel : Nat) (ts : List PTok), ts.length < fuel → ts.length < n →
    Safe C ts → SegM C (soupLoop elem fuel) ts := by
  intro fuel
  induction fuel with
  | zero => intro ts h; omega
  | succ fuel ih =>
    intro ts hl hn hs
    unfold soupLoop
    refine Good.peek ?_
    cases ts with
    | nil => exact SegM.pure _ _
    | cons t ts =>
      simp only [List.head?_cons]
      simp only [List.length_cons] at hl hn
      split
      · rename_i htr
        have ht : t.kind ≠ .stringInterpolationTarget := by intro hh; rw [hh] at htr; simp [Kind.isTrivial] at htr
        refine Good.bind (take_cons t ts) ?_
        rintro _ _ _ ⟨rfl, rfl⟩
        refine (ih _ (by omega) (by omega) (hs.drop ht)).mono ?_
        intro _ o ts' hq
        exact (Seg.token ht _).trans hq
      · refine Good.bind (he (t :: ts) (by simpa using hn) hs) ?_
        intro b o ts' hq
        cases b with
        | false => exact Good.pure (by simpa using hq.seg)
        | true =>
          have := hq.len rfl
          simp only [List.length_cons] at this
          refine (ih ts' (by omega) (by omega) (hs.seg hq.seg)).mono ?_
          intro _ o' ts'' hq'
          exact hq.seg.trans hq'

theorem segM_soup (he : ElemOk C elem n) (ts : List PTok) (hn : ts.length < n) (hs : Safe C ts) :
    SegM C (soup elem) ts := by
  refine segM_node ?_
  refine Good.look ?_
  refine SegM.bind (segM_soupLoop he _ ts (by omega) hn hs) ?_
  intro _ o ts' _
  exact segM_trivia ts'

theorem segM_listItems (he : ElemOk C elem n) : ∀ (fuel : Nat) (ts : List PTok), ts.length < fuel → ts.length < n →
    Safe C ts → SegM C (listItems elem fuel) ts := by
  intro fuel
  induction fuel with
  | zero => intro ts h; omega
  | succ fuel ih =>
    intro ts hl hn hs
    unfold listItems
    refine SegM.bind (segM_trySoup he ts hn hs) ?_
    intro b o ts1 h1
    have hs1 := hs.seg h1
    have hl1 := h1.len
    cases b with
    | false => exact SegM.pure _ _
    | true =>
      simp only [↓reduceIte]
      refine Good.bind (good_tryAccept (k := .comma) (by decide) ts1) ?_
      intro b o2 ts2 h2
      have hs2 := hs1.seg h2.1
      have hl2 := h2.1.len
      cases b with
      | true =>
        have hlt := h2.2.1 rfl
        simp only [↓reduceIte]
        refine Good.bind (segM_trivia ts2) ?_
        intro _ o3 ts3 h3
        have := h3.len
        exact (ih ts3 (by omega) (by omega) (hs2.seg h3)).mono fun _ _ _ h4 => h2.1.trans (h3.trans h4)
      | false =>
        simp only [Bool.false_eq_true, if_false]
        have : SegM C (do
            if ← tryAccept .colon then do
              addTrivia
              let _ ← trySoup elem
              pure ()
            else pure () : PM Unit) ts2 := by
          refine SegM.bind (segM_tryAccept (by decide) ts2) ?_
          intro b o3 ts3 h3
          have hs3 := hs2.seg h3
          have hl3 := h3.len
          cases b with
          | false => exact SegM.pure _ _
          | true =>
            simp only [↓reduceIte]
            refine SegM.bind (segM_trivia ts3) ?_
            intro _ o4 ts4 h4
            have := h4.len
            refine SegM.bind (segM_trySoup he ts4 (by omega) (hs3.seg h4)) ?_
            intro _ o5 ts5 h5
            exact SegM.pure _ _
        exact this.mono fun _ _ _ h4 => h2.1.trans h4

theorem segM_args (he : ElemOk C elem n) : ∀ (fuel : Nat) (ts : List PTok), ts.length < fuel → ts.length < n →
    Safe C ts → SegM C (args elem fuel) ts := by
  intro fuel
  induction fuel with
  | zero => intro ts h; omega
  | succ fuel ih =>
    intro ts hl hn hs
    unfold args
    refine SegM.bind (segM_trySoup he ts hn hs) ?_
    intro b o ts1 h1
    have hs1 := hs.seg h1
    have hl1 := h1.len
    cases b with
    | false => exact SegM.pure _ _
    | true =>
      simp only [↓reduceIte]
      refine Good.bind (good_tryAccept (k := .comma) (by decide) ts1) ?_
      intro b o2 ts2 h2
      have hs2 := hs1.seg h2.1
      cases b with
      | true =>
        have hlt := h2.2.1 rfl
        simp only [↓reduceIte]
        refine Good.bind (segM_trivia ts2) ?_
        intro _ o3 ts3 h3
        have := h3.len
        exact (ih ts3 (by omega) (by omega) (hs2.seg h3)).mono fun _ _ _ h4 => h2.1.trans (h3.trans h4)
      | false => exact Good.pure (by simpa using h2.1)

theorem seg_argsRecover (ts : List PTok) : ∃ X, ts = X ++ (argsRecover ts).2 ∧
    opToks (argsRecover ts).1 = X.map PTok.kind ∧ OpBal (argsRecover ts).1 ∧
    ((argsRecover ts).2.head?.map PTok.kind ≠ some .colon ∨
      ∃ Y t, X = Y ++ [t] ∧ t.kind ≠ .stringInterpolationTarget) := by
  induction ts with
  | nil => exact ⟨[], rfl, rfl, rfl, .inl (by simp [argsRecover])⟩
  | cons t ts ih =>
    unfold argsRecover
    dsimp only
    split
    · rename_i h
      exact ⟨[t], rfl, by rw [← h]; rfl, rfl, .inr ⟨[], t, rfl, by rw [h]; decide⟩⟩
    · split
      · rename_i h
        refine ⟨[], rfl, rfl, rfl, .inl ?_⟩
        intro hh
        simp at hh
        rw [hh] at h
        simp at h
      · obtain ⟨X, h1, h2, h3, h4⟩ := ih
        refine ⟨t :: X, by rw [List.cons_append, ← h1], ?_, ?_, ?_⟩
        · rw [opToks_append, h2]; rfl
        · exact OpBal.append (OpBal.node (a := [.token t.kind]) rfl .errorStowaways) h3
        · rcases h4 with h | ⟨Y, u, rfl, hu⟩
          · exact .inl h
          · exact .inr ⟨t :: Y, u, rfl, hu⟩

theorem seg_argsRecover' (ts : List PTok) : Seg ts (argsRecover ts).1 (argsRecover ts).2 := by
  obtain ⟨X, h1, h2, h3, h4⟩ := seg_argsRecover ts
  refine ⟨X, h1, h2, h3, ?_⟩
  intro hl
  rcases h4 with h | ⟨Y, t, rfl, ht⟩
  · exact h
  · simp at hl; exact (ht hl).elim

/-! ## Blocks -/

/-- The items a block sink is sent for some tokens. -/
inductive ItemsOf : List PTok → List Item → List PTok → Prop
  | nil (ts : List PTok) : ItemsOf ts [] ts
  | tok (t : PTok) (ts : List PTok) (its : List Item) (ts' : List PTok) :
      (t.kind = .colon → (ts.map PTok.kind).head? ≠ some .colon) → t.kind ≠ .stringInterpolationTarget →
      ItemsOf ts its ts' →
      ItemsOf (t :: ts) (.tok t.kind :: its) ts'
  | node (t : PTok) (X ts : List PTok) (k : Kind) (body : List Ev) (its : List Item) (ts' : List PTok) :
      Bal body → evToks body = t.kind :: X.map PTok.kind → Link k t.kind → Joint (t :: X) ts →
      ItemsOf ts its ts' → ItemsOf (t :: X ++ ts) (.node k t.kind body :: its) ts'

theorem ItemsOf.append {a b c : List PTok} {x y : List Item} (h : ItemsOf a x b) (h' : ItemsOf b y c) :
    ItemsOf a (x ++ y) c := by
  induction h with
  | nil ts => exact h'
  | tok t ts its ts' hc ht _ ih => exact .tok t ts _ _ hc ht (ih h')
  | node t X ts k body its ts' h1 h2 h3 hj _ ih => exact .node t X ts k body _ _ h1 h2 h3 hj (ih h')

theorem ItemsOf.ok {a b : List PTok} {x : List Item} (h : ItemsOf a x b) : AllOk x := by
  induction h with
  | nil ts => intro y hy; simp at hy
  | tok t ts its ts' _ _ _ ih =>
    intro y hy
    rcases List.mem_cons.1 hy with rfl | hy
    · trivial
    · exact ih y hy
  | node t X ts k body its ts' h1 h2 h3 _ _ ih =>
    intro y hy
    rcases List.mem_cons.1 hy with rfl | hy
    · exact ⟨h1, by rw [h2]; rfl⟩
    · exact ih y hy

theorem ItemsOf.toks {a b : List PTok} {x : List Item} (h : ItemsOf a x b) :
    ∃ X, a = X ++ b ∧ x.flatMap Item.toks = X.map PTok.kind ∧ Joint X b := by
  induction h with
  | nil ts => exact ⟨[], rfl, rfl, Joint.nil ts⟩
  | tok t ts its ts' _ ht _ ih =>
    obtain ⟨X, rfl, h2, hj⟩ := ih
    exact ⟨t :: X, rfl, by simp [Item.toks, Item.evs, evToks, h2], (Joint.one ht _).append hj⟩
  | node t Y ts k body its ts' h1 h2 h3 hjt _ ih =>
    obtain ⟨X, rfl, h4, hj⟩ := ih
    refine ⟨t :: Y ++ X, by simp, ?_, hjt.append hj⟩
    have : evToks (Ev.start k :: body ++ [Ev.finish]) = evToks body := by
      rw [evToks_append]
      show evToks body ++ [] = _
      rw [List.append_nil]
    have h5 : Item.toks (.node k t.kind body) = t.kind :: Y.map PTok.kind := this.trans h2
    rw [List.flatMap_cons, h5, h4]
    simp

theorem notBad_items {a b : List PTok} {x : List Item} (h : ItemsOf a x b) : ∀ tr,
    (tr = false → (a.map PTok.kind).head? ≠ some .colon) → AppliesOk (a.map PTok.kind) →
    (∀ k', (a.map PTok.kind).head? = some k' → isApplyKind k' = false) → colonBad tr (a.map PTok.kind) = false →
    nextBad tr x = false := by
  induction h with
  | nil ts => intros; rfl
  | tok t ts its ts' hc htt _ ih =>
    intro tr htr hap hnx hb
    simp only [List.map_cons, colonBad] at hb
    unfold nextBad
    split at hb
    · rename_i ht
      rw [if_pos (show (Item.tok t.kind).triv = true from ht)]
      exact ih true (by simp) hap.2 (hap.1 (.inl ht)) hb
    · rename_i ht
      rw [if_neg (show ¬ (Item.tok t.kind).triv = true from ht)]
      dsimp only
      cases tr with
      | false =>
        simp only [Bool.false_eq_true, if_false, Bool.or_eq_false_iff] at hb
        have hc2 : t.kind ≠ .colon := by
          intro hh
          exact htr rfl (by simp [hh])
        simp [hc2, hb.1]
      | true =>
        simp only [if_true] at hb
        have hc2 : t.kind ≠ .colon := by
          intro hh
          have := hc hh
          rw [bne_iff_ne.2 this] at hb
          simp [hh] at hb
        simp [hc2]
  | node t X ts k body its ts' h1 h2 h3 _ _ ih =>
    intro tr htr hap hnx hb
    simp only [List.cons_append, List.map_cons, colonBad] at hb
    rw [if_neg (by simp [h3.solid])] at hb
    unfold nextBad
    simp only [Item.triv, Bool.false_eq_true, if_false]
    simp only [Bool.or_eq_false_iff]
    refine ⟨?_, ?_⟩
    · rw [decide_eq_false_iff_not]
      intro hk
      have h5 := h3.args hk
      rw [hnx t.kind (by simp)] at h5
      simp at h5
    · cases tr with
      | true => rfl
      | false =>
        simp only [Bool.false_eq_true, if_false, Bool.or_eq_false_iff] at hb
        simp only [Bool.not_false, Bool.true_and]
        cases hk : isHeadStart k with
        | false => rfl
        | true => rw [h3.head hk] at hb; simp at hb

theorem colonsFine_items {a b : List PTok} {x : List Item} (h : ItemsOf a x b)
    (hc : ColonsOk false (a.map PTok.kind)) (hap : AppliesOk (a.map PTok.kind)) : ColonsFine x := by
  induction h with
  | nil ts => trivial
  | tok t ts its ts' hcc htt hits ih =>
    have hc2 : ColonsOk false (ts.map PTok.kind) := ColonsOk.joint (X := [t]) hc (by simp) (Joint.one htt ts)
    refine ⟨?_, ih hc2 hap.2⟩
    intro hk
    injection hk with hk
    exact notBad_items hits false (fun _ => hcc hk) hap.2 (hap.1 (.inr hk)) (hc.1 hk rfl)
  | node t X ts k body its ts' h1 h2 h3 hj hits ih =>
    refine ⟨fun hk => Item.noConfusion hk, ih (ColonsOk.joint hc (by simp) hj) ?_⟩
    rw [List.map_append] at hap
    exact hap.suffix

theorem openDecl_depth (k : Kind) (p : List Ev × Sink) : (openDecl k p).depth = p.2.depth := by
  unfold openDecl; split <;> rfl
theorem headFromMeta_depth (h : List Ev) (s : Sink) : (headFromMeta h s).2.depth = s.depth := by
  unfold headFromMeta
  split
  · split <;> rfl
  · rfl
theorem commitDecl_depth (s : Sink) : (commitDecl s).depth = s.depth := by unfold commitDecl; split <;> rfl
theorem commitMeta_depth (s : Sink) : (commitMeta s).depth = s.depth := by
  unfold commitMeta
  split
  · rfl
  · split <;> rfl
theorem flush_depth (s : Sink) : (flush s).depth = s.depth := by
  unfold flush
  split
  · rw [commitDecl_depth]
  · rw [commitMeta_depth]
theorem flushColon_depth (s : Sink) : (flushColon s).depth = s.depth := by
  unfold flushColon
  split
  · rfl
  · split
    · split
      · rfl
      · exact flush_depth s
    · exact flush_depth s

theorem topToken_depth (k : Kind) (s : Sink) : (topToken k s).depth = s.depth := by
  unfold topToken
  split
  · dsimp only
    split
    · rfl
    · exact flush_depth s
  · split
    · dsimp only
      rw [openDecl_depth]
      split
      · rw [headFromMeta_depth, flushColon_depth]
      · rw [flushColon_depth]
    · split
      · dsimp only
        split
        · split
          · rfl
          · rw [flush_depth]
        · rfl
      · rfl

/-- The calls `o` are those for the items. -/
def Runs (o : List Op) (its : List Item) : Prop :=
  ∀ s : Sink, s.depth = 0 → o.foldl Sink.call s = its.foldl callItem s ∧ (its.foldl callItem s).depth = 0

theorem Runs.nil : Runs [] [] := fun _ h => ⟨rfl, h⟩

theorem Runs.append {a b : List Op} {x y : List Item} (h : Runs a x) (h' : Runs b y) : Runs (a ++ b) (x ++ y) := by
  intro s hs
  obtain ⟨h1, h2⟩ := h s hs
  rw [List.foldl_append, List.foldl_append, h1]
  exact h' _ h2

theorem Runs.token (k : Kind) : Runs [.token k] [.tok k] := by
  intro s hs
  refine ⟨?_, ?_⟩
  · show s.call (.token k) = topToken k s
    simp only [Sink.call]
    rw [if_pos hs]
  · show (topToken k s).depth = 0
    rw [topToken_depth, hs]

theorem Runs.node {body : List Op} (hb : OpBal body) (k f : Kind) :
    Runs (.start k :: body ++ [.finish]) [.node k f (simpleEvents body)] := by
  intro s hs
  refine ⟨?_, hs⟩
  rw [run_node hb k s hs]
  rfl

/-- Items sent and tokens consumed. -/
def Sent (ts : List PTok) (o : List Op) (ts' : List PTok) : Prop := ∃ its, ItemsOf ts its ts' ∧ Runs o its

theorem Sent.refl (ts : List PTok) : Sent ts [] ts := ⟨[], .nil ts, Runs.nil⟩
theorem Sent.trans {a b c : List PTok} {o o' : List Op} (h : Sent a o b) (h' : Sent b o' c) : Sent a (o ++ o') c := by
  obtain ⟨x, h1, h2⟩ := h
  obtain ⟨y, h3, h4⟩ := h'
  exact ⟨x ++ y, h1.append h3, h2.append h4⟩
theorem Sent.len {a b : List PTok} {o : List Op} (h : Sent a o b) : b.length ≤ a.length := by
  obtain ⟨x, h1, _⟩ := h
  obtain ⟨X, rfl, _⟩ := h1.toks
  simp
theorem Safe.sent {ts ts' : List PTok} {o : List Op} (h : Safe C ts) (hs : Sent ts o ts') : Safe C ts' := by
  obtain ⟨x, h1, _⟩ := hs
  obtain ⟨X, rfl, _, hj⟩ := h1.toks
  exact h.suffix hj
theorem Sent.token {t : PTok} {ts : List PTok} (h : t.kind = .colon → (ts.map PTok.kind).head? ≠ some .colon)
    (ht : t.kind ≠ .stringInterpolationTarget) : Sent (t :: ts) [.token t.kind] ts :=
  ⟨[.tok t.kind], .tok t ts [] ts h ht (.nil ts), Runs.token _⟩
theorem ElemPost.sent {ts ts' : List PTok} {b : Bool} {o : List Op} (h : ElemPost ts b o ts') : Sent ts o ts' := by
  rcases h with ⟨_, rfl, rfl⟩ | ⟨_, k, t, X, body, rfl, rfl, hb, ht, hl, hj⟩
  · exact Sent.refl _
  · exact ⟨[.node k t.kind (simpleEvents body)], .node t X ts' k _ [] ts' hb.bal ht hl hj (.nil ts'), Runs.node hb k _⟩

theorem sent_trivia (ts : List PTok) : Sent ts (triviaLoop ts).1 (triviaLoop ts).2 := by
  induction ts with
  | nil => exact Sent.refl _
  | cons t ts ih =>
    unfold triviaLoop
    split
    · rename_i h
      exact (Sent.token (by intro hh; rw [hh] at h; simp [Kind.isTrivial] at h)
        (by intro hh; rw [hh] at h; simp [Kind.isTrivial] at h)).trans ih
    · exact Sent.refl _

theorem good_colon (t : PTok) (ts : List PTok) (ht : t.kind = .colon) :
    Good C colonTok (t :: ts) fun _ o ts' => Sent (t :: ts) o ts' ∧ ts'.length ≤ ts.length := by
  unfold colonTok
  refine Good.bind (Q := fun _ o ts' => o = [] ∧ ts' = ts) ⟨rfl, rfl⟩ ?_
  rintro _ _ _ ⟨rfl, rfl⟩
  refine Good.peek ?_
  rename_i ts
  cases ts with
  | nil =>
    have : Sent [t] [.token t.kind] [] := Sent.token (by simp) (by rw [ht]; decide)
    rw [ht] at this
    exact ⟨this, Nat.le_refl _⟩
  | cons u us =>
    simp only [List.head?_cons]
    split
    · rename_i hu
      refine Good.bind (Q := fun _ o ts' => o = [] ∧ ts' = us) ⟨rfl, rfl⟩ ?_
      rintro _ _ _ ⟨rfl, rfl⟩
      refine good_node ?_
      refine Good.bind (Q := fun _ o ts' => o = [.token .colon] ∧ ts' = _) ⟨rfl, rfl⟩ ?_
      rintro _ _ _ ⟨rfl, rfl⟩
      refine (⟨?_, Nat.le_succ _⟩ : Sent _ ([] ++ ([] ++ (.start .errorStowaways :: ([.token .colon] ++ [.token .colon])
        ++ [.finish]))) _ ∧ _)
      refine ElemPost.sent (b := true) (.inr ⟨rfl, .errorStowaways, t, [u], [.token .colon, .token .colon], rfl, rfl, rfl,
        ?_, ⟨?_, ?_, ?_⟩, ?_⟩)
      · simp [ht, hu, opToks, simpleEvents, evToks]
      · intro hh; simp [isHeadStart] at hh
      · intro hh; cases hh
      · rw [ht]; rfl
      · intro hh; simp [hu] at hh
    · rename_i hu
      have : Sent (t :: u :: us) [.token t.kind] (u :: us) :=
        Sent.token (by simp [hu]) (by rw [ht]; decide)
      rw [ht] at this
      exact ⟨this, Nat.le_refl _⟩

theorem good_protoElem (he : ElemOk C elem n) (close : Kind) (ts : List PTok) (hn : ts.length < n) (hs : Safe C ts) :
    Good C (protoblockElement elem close) ts fun b o ts' => Sent ts o ts' ∧ (b = true → ts'.length < ts.length) := by
  unfold protoblockElement
  refine Good.peek ?_
  cases ts with
  | nil => exact Good.pure ⟨Sent.refl _, by simp⟩
  | cons t ts =>
    simp only [List.head?_cons]
    split
    · rename_i ht
      refine Good.bind (good_colon t ts ht) ?_
      intro _ o ts1 h1
      refine Good.bind (Q := fun _ o ts' => Sent ts1 o ts') (sent_trivia ts1) ?_
      intro _ o2 ts2 h2
      have := h2.len
      exact Good.pure ⟨by simpa using h1.1.trans h2, by intro _; simp; omega⟩
    · rename_i hc
      split
      · rename_i hkk
        have htt : t.kind ≠ .stringInterpolationTarget := by
          intro hh; rw [hh] at hkk; simp [Kind.isTrivial] at hkk
        refine Good.bind (take_cons t ts) ?_
        rintro _ _ _ ⟨rfl, rfl⟩
        refine Good.bind (Q := fun _ o ts' => Sent _ o ts') (sent_trivia _) ?_
        intro _ o2 ts2 h2
        have := h2.len
        exact Good.pure ⟨by simpa using (Sent.token (fun h => (hc h).elim) htt).trans h2, by intro _; simp; omega⟩
      · split
        · exact Good.pure ⟨Sent.refl _, by simp⟩
        · exact (he _ hn hs).mono fun b o ts' h => ⟨h.sent, h.len⟩

theorem good_protoblock (he : ElemOk C elem n) (close : Kind) : ∀ (fuel : Nat) (ts : List PTok), ts.length < fuel →
    ts.length < n → Safe C ts → Good C (protoblock elem close fuel) ts fun _ o ts' => Sent ts o ts' := by
  intro fuel
  induction fuel with
  | zero => intro ts h; omega
  | succ fuel ih =>
    intro ts hl hn hs
    unfold protoblock
    refine Good.bind (good_protoElem he close ts hn hs) ?_
    intro b o ts1 h1
    cases b with
    | false => exact Good.pure (by simpa using h1.1)
    | true =>
      have := h1.2 rfl
      exact (ih ts1 (by omega) (by omega) (hs.sent h1.1)).mono fun _ _ _ h2 => h1.1.trans h2

theorem seg_block {ts ts' : List PTok} {o : List Op} (h : Sent ts o ts') (hs : Safe C ts) :
    Seg ts [.accept (blockEvents o)] ts' := by
  obtain ⟨its, hi, hr⟩ := h
  obtain ⟨X, hX, ht, hj⟩ := hi.toks
  obtain ⟨k1, k2⟩ := block_keeps hi.ok (colonsFine_items hi hs.colons hs.applies)
  have hrun : blockEvents o = (its.foldl callItem {}).complete := by
    unfold blockEvents
    rw [(hr {} rfl).1]
  refine ⟨X, hX, ?_, ?_, hj⟩
  · rw [hrun]
    show evToks ([_].flatten) = _
    simp only [List.flatten_cons, List.flatten_nil, List.append_nil]
    rw [k1, ht]
  · rw [hrun]
    unfold OpBal opScan
    rw [if_pos (show scan 0 _ = some 0 from k2)]
    rfl

theorem segM_blockContent (he : ElemOk C elem n) (close : Kind) (ts : List PTok) (hn : ts.length < n) (hs : Safe C ts) :
    SegM C (blockContent elem close) ts := by
  unfold blockContent
  refine Good.look ?_
  have h := good_protoblock he close _ ts (Nat.lt_succ_self _) hn hs
  unfold Good at h
  unfold Good withBlockSink
  split at h
  · rename_i heq
    rw [heq]
    exact seg_block h hs
  · rename_i heq
    rw [heq]
    exact h
  · exact h.elim

/-! ## Brackets -/

theorem segM_closing {close : Kind} {m : PM Unit} (hcl : close ≠ .stringInterpolationTarget) (ts : List PTok) (hm : ∀ ts', Seg ts [] ts' → SegM C m ts') :
    SegM C (do if ← tryAccept close then pure () else m) ts := by
  refine Good.bind (good_tryAccept hcl ts) ?_
  intro b o ts' h
  cases b with
  | true => exact Good.pure (by simpa using h.1)
  | false =>
    have := h.2.2 rfl
    subst this
    exact (hm _ (Seg.refl _)).mono fun _ _ _ h' => h.1.trans h'

/-- First a token known to be there, then the rest. -/
theorem good_opening {α : Type} {t : PTok} {ts : List PTok} {m : PM α} (ht : t.kind ≠ .stringInterpolationTarget)
    (hm : SegM C m ts) :
    Good C (do let _ ← tryAccept t.kind; m) (t :: ts) fun _ o ts' => Seg (t :: ts) o ts' ∧ ts'.length ≤ ts.length := by
  refine Good.bind (tryAccept_hit t ts) ?_
  rintro _ _ _ ⟨rfl, rfl, rfl⟩
  exact hm.mono fun _ _ _ h => ⟨(Seg.token ht _).trans h, h.len⟩

theorem segM_after_trivia {α : Type} {ts : List PTok} {m : PM α} (hn : ts.length < n) (hs : Safe C ts)
    (hm : ∀ ts' : List PTok, ts'.length < n → Safe C ts' → SegM C m ts') : SegM C (do addTrivia; m) ts := by
  refine SegM.bind (segM_trivia ts) ?_
  intro _ o ts' h
  have := h.len
  exact hm ts' (by omega) (hs.seg h)

theorem segM_paren (he : ElemOk C elem n) (ts : List PTok) (hn : ts.length < n) (hs : Safe C ts) {close : Kind}
    {m : PM Unit} (hcl : close ≠ .stringInterpolationTarget) (hm : ∀ ts, Safe C ts → SegM C m ts) :
    SegM C (do
      addTrivia
      soup elem
      if ← tryAccept close then pure () else m) ts := by
  refine segM_after_trivia hn hs ?_
  intro ts1 hn1 hs1
  refine SegM.bind (segM_soup he ts1 hn1 hs1) ?_
  intro _ o ts2 h2
  exact segM_closing hcl ts2 fun ts' h => hm ts' ((hs1.seg h2).seg h)

theorem segM_braces (he : ElemOk C elem n) (ts : List PTok) (hn : ts.length < n) (hs : Safe C ts) {inner close : Kind}
    {m : PM Unit} (hcl : close ≠ .stringInterpolationTarget) (hm : ∀ ts, Safe C ts → SegM C m ts) :
    SegM C (do
      addTrivia
      blockContent elem inner
      addTrivia
      if ← tryAccept close then pure () else m) ts := by
  refine segM_after_trivia hn hs ?_
  intro ts1 hn1 hs1
  refine SegM.bind (segM_blockContent he inner ts1 hn1 hs1) ?_
  intro _ o ts2 h2
  refine SegM.bind (segM_trivia ts2) ?_
  intro _ o3 ts3 h3
  exact segM_closing hcl ts3 fun ts' h => hm ts' (((hs1.seg h2).seg h3).seg h)

theorem segM_accept_last {close : Kind} (hcl : close ≠ .stringInterpolationTarget) (ts : List PTok) :
    SegM C (do let _ ← tryAccept close; pure ()) ts := by
  refine SegM.bind (segM_tryAccept hcl ts) ?_
  intro _ _ ts' _
  exact SegM.pure _ _

theorem segM_list (he : ElemOk C elem n) (ts : List PTok) (hn : ts.length < n) (hs : Safe C ts)
    {m : PM Unit} (hm : ∀ ts, SegM C m ts) :
    SegM C (do
      addTrivia
      let ts ← look
      listItems elem (ts.length + 1)
      addTrivia
      m) ts := by
  refine segM_after_trivia hn hs ?_
  intro ts1 hn1 hs1
  refine Good.look ?_
  refine SegM.bind (segM_listItems he _ ts1 (by omega) hn1 hs1) ?_
  intro _ o ts2 h2
  refine SegM.bind (segM_trivia ts2) ?_
  intro _ o3 ts3 h3
  exact hm ts3

theorem nextRange_spec (hC : C) (ts : List PTok) : SegM C nextRange ts := by
  cases ts with
  | nil => exact ⟨rfl, hC⟩
  | cons t ts => exact Seg.refl _

/-- A node around an element is an element. -/
theorem elem_wrap {ts ts' : List PTok} {o : List Op} {b : Bool} (k : Kind) {t : PTok} {us : List PTok}
    (hts : ts = t :: us) (h : ElemPost ts b o ts') (hb : b = true) (hl : Link k t.kind) :
    ElemPost ts true (.start k :: o ++ [.finish]) ts' := by
  rcases h with ⟨h, _⟩ | ⟨_, k', t', X, body, h1, rfl, h3, h4, _, hj⟩
  · rw [hb] at h; simp at h
  · rw [hts] at h1
    injection h1 with ht h1
    subst ht
    exact .inr ⟨rfl, k, t, X, _, by rw [hts, h1]; rfl, rfl, h3.node k', by rw [opToks_node, h4], hl, hj⟩

theorem good_wrap {α : Type} {m : PM α} (k : Kind) {t : PTok} {us : List PTok}
    (h : Good C m (t :: us) fun _ o ts' => ElemPost (t :: us) true o ts') (hl : Link k t.kind) :
    Good C (node k m) (t :: us) fun _ o ts' => ElemPost (t :: us) true o ts' :=
  good_node (h.mono fun _ _ _ hq => elem_wrap k rfl hq rfl hl)

theorem good_elementF (he : ElemOk C elem n) : ElemOk C (elementF elem) (n + 1) := by
  intro ts hn hs
  unfold elementF
  refine Good.peek ?_
  cases ts with
  | nil => exact Good.pure (.inl ⟨rfl, rfl, rfl⟩)
  | cons t ts =>
    simp only [List.head?_cons]
    have hn' : ts.length < n := by simp at hn; omega
    by_cases h1 : t.kind = .openParen
    · have htt : t.kind ≠ .stringInterpolationTarget := by rw [h1]; decide
      have hs' := hs.drop htt
      rw [if_pos h1]
      refine good_then_true ?_
      unfold parenExpression
      rw [← h1]
      exact good_elem (link_of h1 rfl)
        (good_opening htt (segM_paren he ts hn' hs' (by decide) fun _ _ => segM_recover (by decide) (by decide) _ _))
    rw [if_neg h1]
    by_cases h2 : t.kind = .openParenApply
    · have htt : t.kind ≠ .stringInterpolationTarget := by rw [h2]; decide
      have hs' := hs.drop htt
      rw [if_pos h2]
      refine good_then_true ?_
      unfold applyTuple
      rw [← h2]
      refine good_elem (link_of h2 rfl) (good_opening htt ?_)
      refine segM_after_trivia hn' hs' ?_
      intro ts1 hn1 hs1
      refine Good.look ?_
      refine SegM.bind (segM_args he _ ts1 (by omega) hn1 hs1) ?_
      intro _ o ts2 h2
      refine SegM.bind (segM_trivia ts2) ?_
      intro _ o3 ts3 h3
      exact segM_closing (by decide) ts3 fun ts' _ => seg_argsRecover' ts'
    rw [if_neg h2]
    by_cases h3 : t.kind = .openSquare
    · have htt : t.kind ≠ .stringInterpolationTarget := by rw [h3]; decide
      have hs' := hs.drop htt
      rw [if_pos h3]
      refine good_then_true ?_
      unfold listExpression
      rw [← h3]
      refine good_elem (link_of h3 rfl) ?_
      refine Good.bind (take_cons t ts) ?_
      rintro _ _ _ ⟨rfl, rfl⟩
      refine (segM_list he _ hn' hs' (m := do
        if ← tryAccept .closeSquare then pure ()
        else recoverTo .closeSquare [.closeBrace, .closeParen, .reservedClose, .bracketClose] t.kind) ?_).mono ?_
      · intro ts1; exact segM_closing (by decide) ts1 fun ts' _ => segM_recover (by decide) (by decide) _ _
      · intro _ o ts' h; exact ⟨(Seg.token htt _).trans h, h.len⟩
    rw [if_neg h3]
    by_cases h4 : t.kind = .openBrace
    · have htt : t.kind ≠ .stringInterpolationTarget := by rw [h4]; decide
      have hs' := hs.drop htt
      rw [if_pos h4]
      refine good_then_true ?_
      unfold blockExpression
      rw [← h4]
      exact good_elem (link_of h4 rfl)
        (good_opening htt (segM_braces he ts hn' hs' (by decide) fun _ _ => segM_recover (by decide) (by decide) _ _))
    rw [if_neg h4]
    by_cases h5 : t.kind = .openBraceApply
    · have htt : t.kind ≠ .stringInterpolationTarget := by rw [h5]; decide
      have hs' := hs.drop htt
      rw [if_pos h5]
      refine good_then_true ?_
      unfold blockApplyTuple
      rw [← h5]
      refine good_wrap _ (good_wrap _ (good_elem (link_of h5 rfl) (good_opening htt ?_))
        (link_of h5 rfl)) (link_of h5 rfl)
      refine segM_after_trivia hn' hs' ?_
      intro ts1 hn1 hs1
      refine SegM.bind (segM_blockContent he _ ts1 hn1 hs1) ?_
      intro _ o ts2 h2
      refine SegM.bind (segM_trivia ts2) ?_
      intro _ o3 ts3 h3
      exact segM_accept_last (by decide) ts3
    rw [if_neg h5]
    by_cases h6 : t.kind = .openSquareApply
    · have htt : t.kind ≠ .stringInterpolationTarget := by rw [h6]; decide
      have hs' := hs.drop htt
      rw [if_pos h6]
      refine good_then_true ?_
      unfold listApplyTuple
      rw [← h6]
      exact good_wrap _ (good_wrap _ (good_elem (link_of h6 rfl)
        (good_opening htt (segM_list he ts hn' hs' fun ts => segM_accept_last (by decide) ts)))
        (link_of h6 rfl)) (link_of h6 rfl)
    rw [if_neg h6]
    by_cases h7 : t.kind = .bracketOpen
    · have htt : t.kind ≠ .stringInterpolationTarget := by rw [h7]; decide
      have hs' := hs.drop htt
      rw [if_pos h7]
      refine good_then_true ?_
      have hC : C := hs.brackets (by simp [h7])
      unfold bracketExpression
      refine Good.look ?_
      rw [← h7]
      split
      · exact good_elem (link_of h7 rfl)
          (good_opening htt (segM_braces he ts hn' hs' (by decide) fun ts _ => nextRange_spec hC ts))
      · exact good_elem (link_of h7 rfl)
          (good_opening htt (segM_paren he ts hn' hs' (by decide) fun ts _ => nextRange_spec hC ts))
    rw [if_neg h7]
    by_cases h8 : t.kind = .reservedOpen
    · have htt : t.kind ≠ .stringInterpolationTarget := by rw [h8]; decide
      have hs' := hs.drop htt
      rw [if_pos h8]
      refine good_then_true ?_
      unfold reservedParenExpression
      rw [← h8]
      refine good_elem (link_of h8 rfl) (good_opening htt ?_)
      refine segM_after_trivia hn' hs' ?_
      intro ts1 hn1 hs1
      refine SegM.bind (segM_soup he ts1 hn1 hs1) ?_
      intro _ o ts2 h2
      exact segM_accept_last (by decide) ts2
    rw [if_neg h8]
    exact good_atom _ hs

end Grammar

theorem good_element {C : Prop} : ∀ n, ElemOk C (element n) n := by
  intro n
  induction n with
  | zero => intro ts h; omega
  | succ n ih => exact good_elementF ih

/-! ## The tree -/

theorem leavesL_append (a b : List Tree) : Tree.leavesL (a ++ b) = Tree.leavesL a ++ Tree.leavesL b := by
  induction a with
  | nil => rfl
  | cons x a ih => simp [Tree.leavesL, ih]

/-- The kinds with numbers. -/
def numberedK (i : Nat) : List Kind → List (Nat × Kind)
  | [] => []
  | k :: ks => (i, k) :: numberedK (i + 1) ks

theorem numberedK_append (a b : List Kind) : ∀ i, numberedK i (a ++ b) = numberedK i a ++ numberedK (i + a.length) b := by
  induction a with
  | nil => intro i; simp [numberedK]
  | cons k a ih => intro i; simp [numberedK, ih]; congr 1; omega

theorem split_node : ∀ (len : Nat) (es : List Ev), es.length ≤ len → ∀ d, scan (d + 1) es = some 0 →
    ∃ body tail, es = body ++ .finish :: tail ∧ Bal body ∧ scan d tail = some 0 := by
  intro len
  induction len with
  | zero =>
    intro es hl d h
    have : es = [] := List.length_eq_zero_iff.1 (by omega)
    subst this
    simp [scan] at h
  | succ len ih =>
    intro es hl d h
    cases es with
    | nil => simp [scan] at h
    | cons e es =>
      simp only [List.length_cons] at hl
      cases e with
      | finish => exact ⟨[], es, rfl, Bal.nil, h⟩
      | token k =>
        obtain ⟨body, tail, rfl, hb, ht⟩ := ih es (by omega) d h
        exact ⟨.token k :: body, tail, rfl, hb, ht⟩
      | start k =>
        obtain ⟨b1, t1, rfl, hb1, ht1⟩ := ih es (by omega) (d + 1) h
        obtain ⟨b2, t2, rfl, hb2, ht2⟩ := ih t1 (by simp at hl; omega) d ht1
        refine ⟨(.start k :: b1 ++ [.finish]) ++ b2, t2, by simp, (hb1.node k).append hb2, ht2⟩

/-- Balanced events add trees to the children of the open node, with their tokens. -/
theorem buildTree_bal : ∀ (len : Nat) (es : List Ev), es.length ≤ len → Bal es → ∀ i, ∃ new : List Tree,
    Tree.leavesL new = numberedK i (evToks es) ∧ ∀ rest parents cur, buildTree (es ++ rest) i parents cur =
      buildTree rest (i + (evToks es).length) parents (new.reverse ++ cur) := by
  intro len
  induction len with
  | zero =>
    intro es hl _ i
    have : es = [] := List.length_eq_zero_iff.1 (by omega)
    subst this
    exact ⟨[], rfl, fun _ _ _ => rfl⟩
  | succ len ih =>
    intro es hl hb i
    cases es with
    | nil => exact ⟨[], rfl, fun _ _ _ => rfl⟩
    | cons e es =>
      simp only [List.length_cons] at hl
      cases e with
      | finish => simp [Bal, scan] at hb
      | token k =>
        obtain ⟨new, h1, h2⟩ := ih es (by omega) hb (i + 1)
        refine ⟨.leaf k i :: new, ?_, ?_⟩
        · simp [Tree.leavesL, Tree.leaves, h1, evToks, numberedK]
        · intro rest parents cur
          simp only [List.cons_append, buildTree, h2]
          simp [evToks]
          congr 1
          omega
      | start k =>
        obtain ⟨body, tail, rfl, hb1, hb2⟩ := split_node es.length es (Nat.le_refl _) 0 hb
        simp only [List.length_append, List.length_cons] at hl
        obtain ⟨n1, h1, h2⟩ := ih body (by omega) hb1 i
        obtain ⟨n2, h3, h4⟩ := ih tail (by omega) hb2 (i + (evToks body).length)
        have htk : evToks (Ev.start k :: (body ++ Ev.finish :: tail)) = evToks body ++ evToks tail := by
          show evToks (body ++ Ev.finish :: tail) = _
          rw [evToks_append]
          rfl
        refine ⟨.node k n1 :: n2, ?_, ?_⟩
        · rw [htk, numberedK_append]
          simp [Tree.leavesL, Tree.leaves, h1, h3]
        · intro rest parents cur
          rw [htk]
          simp only [List.cons_append, buildTree, List.append_assoc, h2, h4]
          simp
          congr 1
          omega

theorem numbered_eq (ts : List PTok) : ∀ i, numbered i ts = numberedK i (ts.map PTok.kind) := by
  induction ts with
  | nil => intro i; rfl
  | cons t ts ih => intro i; simp [numbered, numberedK, ih]

theorem buildTree_node {es : List Ev} (h : Bal es) (k : Kind) :
    ∃ t, buildTree (.start k :: es ++ [.finish]) 0 [] [] = .ok t ∧ t.leaves = numberedK 0 (evToks es) := by
  obtain ⟨new, h1, h2⟩ := buildTree_bal es.length es (Nat.le_refl _) h 0
  refine ⟨.node k new, ?_, by rw [Tree.leaves, h1]⟩
  simp only [List.cons_append, buildTree, h2]
  simp

theorem surplus_spec (rest : List PTok) : Bal (surplus rest) ∧ evToks (surplus rest) = rest.map PTok.kind := by
  unfold surplus
  split
  · rename_i h; subst h; exact ⟨Bal.nil, rfl⟩
  · have h1 : ∀ (l : List PTok) d, scan d (l.map fun t => Ev.token t.kind) = some d := by
      intro l
      induction l with
      | nil => intro d; rfl
      | cons t l ih => intro d; exact ih d
    have h2 : ∀ l : List PTok, evToks (l.map fun t => Ev.token t.kind) = l.map PTok.kind := by
      intro l
      induction l with
      | nil => rfl
      | cons t l ih => simp [evToks, ih]
    refine ⟨Bal.node (show Bal (rest.map fun t => Ev.token t.kind) from h1 rest 0) _, ?_⟩
    rw [evToks_append, evToks_append, h2]
    simp [evToks]

theorem build_spec {all X rest : List PTok} {body : List Op} (k : Kind) (h1 : all = X ++ rest) (h2 : OpBal body)
    (h3 : opToks body = X.map PTok.kind) :
    ∃ t, build all (.start k :: body ++ [.finish]) rest = .ok t ∧ t.leaves = numbered 0 all := by
  have hev : simpleEvents (.start k :: body ++ [.finish]) = .start k :: simpleEvents body ++ [.finish] := by
    rw [simpleEvents_append]
    rfl
  obtain ⟨s1, s2⟩ := surplus_spec rest
  have hall : evToks (simpleEvents body ++ surplus rest) = all.map PTok.kind := by
    rw [evToks_append, s2, h1, List.map_append]
    congr 1
  obtain ⟨t, ht1, ht2⟩ := buildTree_node (h2.bal.append s1) k
  have hnode : evToks (Ev.start k :: (simpleEvents body ++ surplus rest) ++ [Ev.finish]) = all.map PTok.kind := by
    rw [← hall, evToks_append]
    show evToks (simpleEvents body ++ surplus rest) ++ [] = _
    rw [List.append_nil]
  refine ⟨t, ?_, by rw [ht2, hall, numbered_eq]⟩
  unfold build
  dsimp only
  rw [hev]
  split
  · rename_i hs
    rw [hs, List.append_nil] at hnode ht1
    rw [if_pos hnode, ht1]
  · rw [List.getLast?_concat]
    dsimp only
    rw [List.dropLast_concat]
    have : Ev.start k :: simpleEvents body ++ surplus rest ++ [Ev.finish] =
      Ev.start k :: (simpleEvents body ++ surplus rest) ++ [Ev.finish] := by simp
    rw [this, if_pos hnode, ht1]

/-- What a whole parse does. -/
theorem parseWith_spec {C : Prop} {m : Nat → PM Unit} {ts : List PTok} {k : Kind}
    {body : Nat → PM Unit} (hm : ∀ n, m n = node k (body n)) (hb : SegM C (body (ts.length + 1)) ts) :
    match parseWith m ts with
    | .ok t => t.leaves = numbered 0 ts
    | .crash c => c = .rangeAtEnd ∧ C
    | .fuel => False := by
  have h : Good C (m (ts.length + 1)) ts fun _ o ts' =>
      ∃ X b, o = .start k :: b ++ [.finish] ∧ ts = X ++ ts' ∧ OpBal b ∧ opToks b = X.map PTok.kind := by
    rw [hm]
    refine good_node (hb.mono ?_)
    rintro _ o ts' ⟨X, h1, h2, h3, _⟩
    exact ⟨X, o, rfl, h1, h3, h2⟩
  unfold parseWith
  unfold Good at h
  split at h
  · rename_i heq
    rw [heq]
    obtain ⟨X, b, rfl, h1, h2, h3⟩ := h
    obtain ⟨t, ht1, ht2⟩ := build_spec k h1 h2 h3
    dsimp only
    rw [ht1]
    exact ht2
  · rename_i heq; rw [heq]; exact h
  · exact h.elim

theorem parseUnit_safe {C : Prop} {ts : List PTok} (h : Safe C ts) :
    match parseUnit ts with
    | .ok t => t.leaves = numbered 0 ts
    | .crash c => c = .rangeAtEnd ∧ C
    | .fuel => False := by
  refine parseWith_spec (C := C) (fun n => rfl) ?_
  refine segM_after_trivia (Nat.lt_succ_self _) h ?_
  intro ts1 hn1 hs1
  refine SegM.bind (segM_blockContent (good_element _) _ ts1 hn1 hs1) ?_
  intro _ o ts2 h2
  exact segM_trivia ts2

theorem parseExpression_safe {C : Prop} {ts : List PTok} (h : Safe C ts) :
    match parseExpression ts with
    | .ok t => t.leaves = numbered 0 ts
    | .crash c => c = .rangeAtEnd ∧ C
    | .fuel => False := by
  refine parseWith_spec (C := C) (fun n => rfl) ?_
  refine Good.look ?_
  refine SegM.bind (segM_soupLoop (good_element _) _ ts (Nat.lt_succ_self _) (Nat.lt_succ_self _) h) ?_
  intro _ o ts' _
  exact segM_trivia ts'

end Verif.Parse
