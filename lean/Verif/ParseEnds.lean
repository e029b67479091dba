import Verif.ParseModel

/-!
# The parser ends
-/

namespace Verif.Parse

open Verif.Lex (Kind)

/-- `m` run on `ts` ends, and leaves what `Q` says. -/
def Ends {α : Type} (m : PM α) (ts : List PTok) (Q : α → List PTok → Prop) : Prop :=
  match m ts with
  | .ok (a, _, ts') => Q a ts'
  | .crash _ => True
  | .fuel => False

/-- `m` ends and does not make tokens. -/
def EndsLe {α : Type} (m : PM α) (ts : List PTok) : Prop := Ends m ts fun _ ts' => ts'.length ≤ ts.length

theorem Ends.mono {α : Type} {m : PM α} {ts : List PTok} {Q R : α → List PTok → Prop} (h : Ends m ts Q)
    (hq : ∀ a ts', Q a ts' → R a ts') : Ends m ts R := by
  unfold Ends at *
  cases he : m ts with
  | ok r => rw [he] at h; exact hq _ _ h
  | crash c => trivial
  | fuel => rw [he] at h; exact h.elim

theorem Ends.bind {α β : Type} {m : PM α} {f : α → PM β} {ts : List PTok} {Q : α → List PTok → Prop}
    {R : β → List PTok → Prop} (h : Ends m ts Q) (hf : ∀ a ts', Q a ts' → Ends (f a) ts' R) : Ends (m >>= f) ts R := by
  show Ends (PM.bind m f) ts R
  unfold Ends PM.bind at *
  split at h
  · rename_i a o ts' he
    rw [he]
    have := hf a ts' h
    dsimp only
    split at this
    · rename_i hg; rw [hg]; exact this
    · rename_i hg; rw [hg]; trivial
    · exact this.elim
  · rename_i he; rw [he]; trivial
  · exact h.elim

theorem EndsLe.bind {α β : Type} {m : PM α} {f : α → PM β} {ts : List PTok} (h : EndsLe m ts)
    (hf : ∀ a ts', ts'.length ≤ ts.length → EndsLe (f a) ts') : EndsLe (m >>= f) ts :=
  Ends.bind h fun a ts' h1 => (hf a ts' h1).mono fun _ _ h2 => Nat.le_trans h2 h1

theorem Ends.peek {α : Type} {f : Option PTok → PM α} {ts : List PTok} {Q : α → List PTok → Prop}
    (h : Ends (f ts.head?) ts Q) : Ends (peek >>= f) ts Q :=
  Ends.bind (Q := fun a ts' => a = ts.head? ∧ ts' = ts) ⟨rfl, rfl⟩ (by rintro a ts' ⟨rfl, rfl⟩; exact h)

theorem Ends.look {α : Type} {f : List PTok → PM α} {ts : List PTok} {Q : α → List PTok → Prop}
    (h : Ends (f ts) ts Q) : Ends (look >>= f) ts Q :=
  Ends.bind (Q := fun a ts' => a = ts ∧ ts' = ts) ⟨rfl, rfl⟩ (by rintro a ts' ⟨rfl, rfl⟩; exact h)

theorem ends_pure {α : Type} (a : α) (ts : List PTok) : EndsLe (pure a : PM α) ts := Nat.le_refl _

theorem ends_node {α : Type} {m : PM α} (k : Kind) {ts : List PTok} {Q : α → List PTok → Prop} (h : Ends m ts Q) :
    Ends (node k m) ts Q := by
  unfold node
  refine Ends.bind (Q := fun _ ts' => ts' = ts) rfl ?_
  rintro _ _ rfl
  refine Ends.bind h ?_
  intro a ts' hq
  refine Ends.bind (Q := fun _ ts'' => ts'' = ts') rfl ?_
  rintro _ _ rfl
  exact hq

theorem ends_take (k : Kind) (ts : List PTok) : Ends (take k) ts fun _ ts' => ts' = ts.drop 1 := rfl

theorem ends_takeLe (k : Kind) (ts : List PTok) : EndsLe (take k) ts :=
  (ends_take k ts).mono (by rintro _ _ rfl; simp)

theorem ends_takeIn (n k : Kind) (ts : List PTok) : Ends (takeIn n k) ts fun _ ts' => ts' = ts.drop 1 :=
  ends_node n (ends_take k ts)

theorem ends_tryAccept (k : Kind) (ts : List PTok) :
    Ends (tryAccept k) ts fun b ts' => ts'.length ≤ ts.length ∧ (b = true → ts'.length < ts.length) := by
  unfold tryAccept
  refine Ends.peek ?_
  cases ts with
  | nil => exact ⟨Nat.le_refl _, by simp⟩
  | cons t ts =>
    simp only [List.head?_cons]
    split
    · refine Ends.bind (ends_take k (t :: ts)) ?_
      intro _ x hx
      obtain rfl : ts = x := hx.symm
      exact ⟨by simp, by simp⟩
    · exact ⟨Nat.le_refl _, by simp⟩

theorem ends_acceptLe (k : Kind) (ts : List PTok) : EndsLe (tryAccept k) ts := (ends_tryAccept k ts).mono fun _ _ h => h.1

/-- The opening token is there. -/
theorem ends_hit {t : PTok} {k : Kind} (h : t.kind = k) (ts : List PTok) :
    Ends (tryAccept k) (t :: ts) fun _ ts' => ts' = ts := by
  unfold tryAccept
  refine Ends.peek ?_
  simp only [List.head?_cons]
  rw [if_pos h]
  rfl

theorem trivia_len (ts : List PTok) : (triviaLoop ts).2.length ≤ ts.length := by
  induction ts with
  | nil => exact Nat.le_refl _
  | cons t ts ih =>
    unfold triviaLoop
    split
    · exact Nat.le_succ_of_le ih
    · exact Nat.le_refl _

theorem ends_trivia (ts : List PTok) : EndsLe addTrivia ts := trivia_len ts

theorem recover_len (close : Kind) (stopAt : List Kind) (opn : Kind) (ts : List PTok) : ∀ d has,
    (recoverLoop close stopAt opn d has ts).2.length ≤ ts.length := by
  induction ts with
  | nil => intro d has; exact Nat.le_refl _
  | cons t ts ih =>
    intro d has
    unfold recoverLoop
    dsimp only
    split
    · exact Nat.le_succ _
    · split
      · exact Nat.le_refl _
      · exact Nat.le_succ_of_le (ih _ _)

theorem ends_recover (close : Kind) (stopAt : List Kind) (opn : Kind) (ts : List PTok) :
    EndsLe (recoverTo close stopAt opn) ts := recover_len close stopAt opn ts 0 false

/-! ## Strings -/

theorem stray_len (e : Kind) (ts : List PTok) : (strayLoop e ts).2.length ≤ ts.length := by
  induction ts with
  | nil => exact Nat.le_refl _
  | cons t ts ih =>
    unfold strayLoop
    dsimp only
    split
    · exact Nat.le_succ _
    · split
      · exact Nat.le_refl _
      · exact Nat.le_succ_of_le ih

theorem ends_stray (e : Kind) (ts : List PTok) : EndsLe (stray e) ts := stray_len e ts

theorem ends_takeIfIn (n k : Kind) (ts : List PTok) : EndsLe (takeIfIn n k) ts := by
  unfold takeIfIn
  refine Ends.peek ?_
  cases ts with
  | nil => exact ends_pure _ _
  | cons t ts =>
    simp only [List.head?_cons]
    split
    · exact (ends_takeIn n k _).mono (by rintro _ _ rfl; simp)
    · exact ends_pure _ _

theorem ends_dots : ∀ (fuel : Nat) (ts : List PTok), ts.length < fuel → EndsLe (dots fuel) ts := by
  intro fuel
  induction fuel with
  | zero => intro ts h; omega
  | succ fuel ih =>
    intro ts hl
    unfold dots
    refine Ends.peek ?_
    cases ts with
    | nil => exact ends_pure _ _
    | cons t ts =>
      simp only [List.head?_cons]
      split
      · refine Ends.bind (ends_takeIn _ _ (t :: ts)) ?_
        intro _ x hx
        obtain rfl : ts = x := hx.symm
        refine Ends.peek ?_
        cases ts with
        | nil => exact Nat.le_succ _
        | cons u us =>
          simp only [List.head?_cons]
          split
          · refine Ends.bind (ends_takeIn _ _ (u :: us)) ?_
            intro _ x hx
            obtain rfl : us = x := hx.symm
            refine (ih us (by simp at hl; omega)).mono ?_
            intro _ ts' h
            simp; omega
          · exact Nat.le_succ _
      · exact ends_pure _ _

theorem ends_interpolation (ts : List PTok) : EndsLe interpolationContent ts := by
  unfold interpolationContent
  refine EndsLe.bind ?_ ?_
  · unfold interpolationTarget
    refine Ends.look ?_
    dsimp only
    split
    · refine ends_node _ ?_
      refine EndsLe.bind (ends_takeIfIn _ _ ts) ?_
      intro _ ts' h
      exact ends_dots _ ts' (by omega)
    · exact ends_takeIfIn _ _ ts
  · intro _ ts' h
    unfold interpolationFormat
    refine EndsLe.bind (ends_acceptLe _ ts') ?_
    intro b ts'' _
    split
    · exact ends_takeIfIn _ _ ts''
    · exact ends_pure _ _

theorem ends_pattern (e : Kind) : ∀ (fuel : Nat) (ts : List PTok), ts.length < fuel → EndsLe (patternLoop e fuel) ts := by
  intro fuel
  induction fuel with
  | zero => intro ts h; omega
  | succ fuel ih =>
    intro ts hl
    unfold patternLoop
    refine Ends.peek ?_
    cases ts with
    | nil => exact ends_pure _ _
    | cons t ts =>
      simp only [List.head?_cons]
      have hl' : ts.length < fuel := by simp at hl; omega
      have one : ∀ n k, EndsLe (do takeIn n k; patternLoop e fuel) (t :: ts) := by
        intro n k
        refine Ends.bind (ends_takeIn n k (t :: ts)) ?_
        intro _ x hx
        obtain rfl : ts = x := hx.symm
        exact (ih ts hl').mono fun _ _ h => Nat.le_succ_of_le h
      split
      · exact ends_takeLe _ _
      split
      · exact one _ _
      split
      · exact one _ _
      split
      · exact one _ _
      split
      · refine Ends.bind (Q := fun _ ts' => ts'.length ≤ ts.length) ?_ ?_
        · refine ends_node _ ?_
          refine Ends.bind (ends_take _ (t :: ts)) ?_
          intro _ x hx
          obtain rfl : ts = x := hx.symm
          refine Ends.bind (ends_interpolation ts) ?_
          intro _ ts' h
          exact (ends_stray e ts').mono fun _ _ h' => Nat.le_trans h' h
        · intro _ ts' h
          refine (ih ts' (by omega)).mono ?_
          intro _ ts'' h'
          simp; omega
      · refine Ends.bind (Q := fun _ ts' => ts' = ts) rfl ?_
        rintro _ _ rfl
        exact (ih _ hl').mono fun _ _ h => Nat.le_succ_of_le h

/-! ## The grammar -/

/-- It consumes if it says so. -/
def Took (ts : List PTok) (b : Bool) (ts' : List PTok) : Prop :=
  ts'.length ≤ ts.length ∧ (b = true → ts'.length < ts.length)

theorem ends_true {α : Type} {m : PM α} {ts : List PTok} (h : Ends m ts fun _ ts' => ts'.length < ts.length) :
    Ends (do let _ ← m; pure true) ts (Took ts) :=
  Ends.bind h fun _ _ h' => ⟨Nat.le_of_lt h', fun _ => h'⟩

theorem ends_false (ts : List PTok) : Ends (pure false) ts (Took ts) := ⟨Nat.le_refl _, by simp⟩

theorem ends_stringPattern (p s e : Kind) (t : PTok) (ts : List PTok) :
    Ends (stringPattern p s e) (t :: ts) fun _ ts' => ts'.length < (t :: ts).length := by
  refine ends_node _ ?_
  refine Ends.bind (ends_take _ (t :: ts)) ?_
  intro _ x hx
  obtain rfl : ts = x := hx.symm
  refine Ends.look ?_
  exact (ends_pattern e _ ts (Nat.lt_succ_self _)).mono fun _ _ h => Nat.lt_succ_of_le h

theorem ends_one (n k : Kind) (t : PTok) (ts : List PTok) :
    Ends (takeIn n k) (t :: ts) fun _ ts' => ts'.length < (t :: ts).length :=
  (ends_takeIn n k _).mono (by rintro _ _ rfl; simp)

theorem ends_atom (ts : List PTok) : Ends tryAtom ts (Took ts) := by
  unfold tryAtom
  have hlit : Ends tryLiteral ts fun b ts' => Took ts b ts' ∧ (b = false → ts' = ts) := by
    unfold tryLiteral
    refine Ends.peek ?_
    cases ts with
    | nil => exact ⟨⟨Nat.le_refl _, by simp⟩, fun _ => rfl⟩
    | cons t ts =>
      simp only [List.head?_cons]
      have key : ∀ {m : PM Unit}, (Ends m (t :: ts) fun _ ts' => ts'.length < (t :: ts).length) →
          Ends (do m; pure true) (t :: ts) fun b ts' => Took (t :: ts) b ts' ∧ (b = false → ts' = t :: ts) :=
        fun h => Ends.bind h fun _ _ h' => ⟨⟨Nat.le_of_lt h', fun _ => h'⟩, by simp⟩
      split
      · exact key (ends_stringPattern _ _ _ t ts)
      split
      · exact key (ends_stringPattern _ _ _ t ts)
      split
      · exact key (ends_stringPattern _ _ _ t ts)
      split
      · exact key (ends_one _ _ t ts)
      · exact ⟨⟨Nat.le_refl _, by simp⟩, fun _ => rfl⟩
  refine Ends.bind hlit ?_
  rintro b ts' ⟨h1, h2⟩
  cases b with
  | true => exact h1
  | false =>
    have := h2 rfl
    subst this
    show Ends tryName ts' (Took ts')
    unfold tryName
    refine Ends.peek ?_
    cases ts' with
    | nil => exact ends_false _
    | cons t ts =>
      simp only [List.head?_cons]
      split
      · exact ends_true (ends_one _ _ t ts)
      · exact ends_false _

section Grammar

variable {elem : PM Bool} {n : Nat}

/-- Elements of less than `n` tokens end. -/
def ElemEnds (elem : PM Bool) (n : Nat) : Prop := ∀ ts : List PTok, ts.length < n → Ends elem ts (Took ts)

theorem ends_elements (he : ElemEnds elem n) : ∀ (fuel : Nat) (ts : List PTok), ts.length < fuel → ts.length < n →
    EndsLe (elements elem fuel) ts := by
  intro fuel
  induction fuel with
  | zero => intro ts h; omega
  | succ fuel ih =>
    intro ts hl hn
    unfold elements
    refine Ends.bind (he ts hn) ?_
    rintro b ts1 ⟨h1, h2⟩
    cases b with
    | false => exact h1
    | true =>
      have := h2 rfl
      simp only [↓reduceIte]
      refine Ends.bind (ends_trivia ts1) ?_
      intro _ ts2 h3
      exact (ih ts2 (by omega) (by omega)).mono fun _ _ h4 => by omega

theorem ends_trySoup (he : ElemEnds elem n) (ts : List PTok) (hn : ts.length < n) : EndsLe (trySoup elem) ts := by
  have key : ∀ f, ts.length < f → EndsLe (do
      node .soup do
        elements elem f
        addTrivia
      pure true : PM Bool) ts := by
    intro f hf
    refine EndsLe.bind (ends_node _ (EndsLe.bind (ends_elements he f ts hf hn) ?_)) ?_
    · intro _ ts' _; exact ends_trivia ts'
    · intro _ ts' _; exact ends_pure _ _
  unfold trySoup
  refine Ends.look ?_
  cases ts with
  | nil => exact key 1 (by simp)
  | cons t ts =>
    dsimp only
    split
    · exact ends_pure _ _
    · exact key _ (by omega)

theorem ends_soup (he : ElemEnds elem n) (ts : List PTok) (hn : ts.length < n) : EndsLe (soup elem) ts := by
  have loop : ∀ (fuel : Nat) (ts : List PTok), ts.length < fuel → ts.length < n → EndsLe (soupLoop elem fuel) ts := by
    intro fuel
    induction fuel with
    | zero => intro ts h; omega
    | succ fuel ih =>
      intro ts hl hn
      unfold soupLoop
      refine Ends.peek ?_
      cases ts with
      | nil => exact ends_pure _ _
      | cons t ts =>
        simp only [List.head?_cons]
        split
        · refine Ends.bind (ends_take _ (t :: ts)) ?_
          intro _ x hx
          obtain rfl : ts = x := hx.symm
          simp only [List.length_cons] at hl hn
          exact (ih ts (by omega) (by omega)).mono fun _ _ h => Nat.le_succ_of_le h
        · refine Ends.bind (he _ hn) ?_
          rintro b ts1 ⟨h1, h2⟩
          cases b with
          | false => exact h1
          | true =>
            have := h2 rfl
            exact (ih ts1 (by omega) (by omega)).mono fun _ _ h => by omega
  refine ends_node _ ?_
  refine Ends.look ?_
  refine EndsLe.bind (loop _ ts (by omega) hn) ?_
  intro _ ts' _
  exact ends_trivia ts'

theorem ends_listItems (he : ElemEnds elem n) : ∀ (fuel : Nat) (ts : List PTok), ts.length < fuel → ts.length < n →
    EndsLe (listItems elem fuel) ts := by
  intro fuel
  induction fuel with
  | zero => intro ts h; omega
  | succ fuel ih =>
    intro ts hl hn
    unfold listItems
    refine EndsLe.bind (ends_trySoup he ts hn) ?_
    intro b ts1 h1
    split
    · refine Ends.bind (ends_tryAccept .comma ts1) ?_
      rintro b ts2 ⟨h2, h3⟩
      cases b with
      | true =>
        have := h3 rfl
        simp only [↓reduceIte]
        refine Ends.bind (ends_trivia ts2) ?_
        intro _ ts3 h4
        exact (ih ts3 (by omega) (by omega)).mono fun _ _ h => by omega
      | false =>
        simp only [Bool.false_eq_true, if_false]
        refine Ends.bind (ends_acceptLe .colon ts2) ?_
        intro b ts3 h4
        split
        · refine Ends.bind (ends_trivia ts3) ?_
          intro _ ts4 h5
          refine Ends.bind (ends_trySoup he ts4 (by omega)) ?_
          intro _ ts5 h6
          show ts5.length ≤ ts1.length
          omega
        · show ts3.length ≤ ts1.length
          omega
    · exact ends_pure _ _

theorem ends_args (he : ElemEnds elem n) : ∀ (fuel : Nat) (ts : List PTok), ts.length < fuel → ts.length < n →
    EndsLe (args elem fuel) ts := by
  intro fuel
  induction fuel with
  | zero => intro ts h; omega
  | succ fuel ih =>
    intro ts hl hn
    unfold args
    refine EndsLe.bind (ends_trySoup he ts hn) ?_
    intro b ts1 h1
    split
    · refine Ends.bind (ends_tryAccept .comma ts1) ?_
      rintro b ts2 ⟨h2, h3⟩
      cases b with
      | true =>
        have := h3 rfl
        simp only [↓reduceIte]
        refine Ends.bind (ends_trivia ts2) ?_
        intro _ ts3 h4
        exact (ih ts3 (by omega) (by omega)).mono fun _ _ h => by omega
      | false => exact h2
    · exact ends_pure _ _

theorem argsRecover_len (ts : List PTok) : (argsRecover ts).2.length ≤ ts.length := by
  induction ts with
  | nil => exact Nat.le_refl _
  | cons t ts ih =>
    unfold argsRecover
    dsimp only
    split
    · exact Nat.le_succ _
    · split
      · exact Nat.le_refl _
      · exact Nat.le_succ_of_le ih

theorem ends_colon (t : PTok) (ts : List PTok) :
    Ends colonTok (t :: ts) fun _ ts' => ts'.length ≤ ts.length := by
  unfold colonTok
  refine Ends.bind (Q := fun _ ts' => ts' = ts) rfl ?_
  rintro _ _ rfl
  refine Ends.peek ?_
  rename_i ts
  cases ts with
  | nil => exact Nat.le_refl _
  | cons u us =>
    simp only [List.head?_cons]
    split
    · refine Ends.bind (Q := fun _ ts' => ts' = us) rfl ?_
      rintro _ _ rfl
      exact ends_node _ (Nat.le_succ _)
    · exact Nat.le_refl _

theorem ends_protoblock (he : ElemEnds elem n) (close : Kind) : ∀ (fuel : Nat) (ts : List PTok), ts.length < fuel →
    ts.length < n → EndsLe (protoblock elem close fuel) ts := by
  intro fuel
  induction fuel with
  | zero => intro ts h; omega
  | succ fuel ih =>
    intro ts hl hn
    unfold protoblock
    have hel : Ends (protoblockElement elem close) ts (Took ts) := by
      unfold protoblockElement
      refine Ends.peek ?_
      cases ts with
      | nil => exact ends_false _
      | cons t ts =>
        simp only [List.head?_cons]
        split
        · refine Ends.bind (ends_colon t ts) ?_
          intro _ ts1 h1
          refine Ends.bind (ends_trivia ts1) ?_
          intro _ ts2 h2
          exact ⟨by simp; omega, by intro _; simp; omega⟩
        · split
          · refine Ends.bind (ends_take _ (t :: ts)) ?_
            intro _ x hx
            obtain rfl : ts = x := hx.symm
            refine Ends.bind (ends_trivia ts) ?_
            intro _ ts2 h2
            exact ⟨by simp; omega, by intro _; simp; omega⟩
          · split
            · exact ends_false _
            · exact he _ hn
    refine Ends.bind hel ?_
    rintro b ts1 ⟨h1, h2⟩
    cases b with
    | false => exact h1
    | true =>
      have := h2 rfl
      exact (ih ts1 (by omega) (by omega)).mono fun _ _ h => by omega

theorem ends_blockContent (he : ElemEnds elem n) (close : Kind) (ts : List PTok) (hn : ts.length < n) :
    EndsLe (blockContent elem close) ts := by
  unfold blockContent
  refine Ends.look ?_
  have h := ends_protoblock he close _ ts (Nat.lt_succ_self _) hn
  unfold EndsLe Ends at h
  unfold Ends withBlockSink
  split at h
  · rename_i heq; rw [heq]; exact h
  · rename_i heq; rw [heq]; trivial
  · exact h.elim

theorem ends_closing {close : Kind} {m : PM Unit} (hm : ∀ ts, EndsLe m ts) (ts : List PTok) :
    EndsLe (do if ← tryAccept close then pure () else m) ts := by
  refine EndsLe.bind (ends_acceptLe close ts) ?_
  intro b ts' _
  split
  · exact ends_pure _ _
  · exact hm ts'

theorem ends_last (close : Kind) (ts : List PTok) : EndsLe (do let _ ← tryAccept close; pure ()) ts := by
  refine EndsLe.bind (ends_acceptLe close ts) ?_
  intro b ts' _
  exact ends_pure _ _

theorem ends_range (ts : List PTok) : EndsLe nextRange ts := by
  cases ts with
  | nil => trivial
  | cons t ts => exact Nat.le_refl _

theorem ends_after {α β : Type} {a : PM α} {m : PM β} (ha : ∀ ts : List PTok, ts.length < n → EndsLe a ts)
    (hm : ∀ ts : List PTok, ts.length < n → EndsLe m ts) (ts : List PTok) (hn : ts.length < n) :
    EndsLe (do let _ ← a; m) ts := EndsLe.bind (ha ts hn) fun _ ts' h => hm ts' (by omega)

theorem ends_opening {k : Kind} {m : PM Unit} {t : PTok} {ts : List PTok} (ht : t.kind = k)
    (hm : ∀ ts : List PTok, ts.length < n → EndsLe m ts) (hn : ts.length < n) :
    Ends (do let _ ← tryAccept k; m) (t :: ts) fun _ ts' => ts'.length < (t :: ts).length := by
  refine Ends.bind (ends_hit ht ts) ?_
  rintro _ _ rfl
  exact (hm _ hn).mono fun _ _ h => Nat.lt_succ_of_le h

theorem ends_elementF (he : ElemEnds elem n) : ElemEnds (elementF elem) (n + 1) := by
  have htr : ∀ ts : List PTok, ts.length < n → EndsLe addTrivia ts := fun ts _ => ends_trivia ts
  have hso : ∀ ts : List PTok, ts.length < n → EndsLe (soup elem) ts := fun ts h => ends_soup he ts h
  have hbl : ∀ c (ts : List PTok), ts.length < n → EndsLe (blockContent elem c) ts := fun c ts h =>
    ends_blockContent he c ts h
  have hli : ∀ {m : PM Unit}, (∀ ts : List PTok, ts.length < n → EndsLe m ts) → ∀ ts : List PTok, ts.length < n →
      EndsLe (do let ts ← look; listItems elem (ts.length + 1); m) ts := by
    intro m hm ts h
    refine Ends.look ?_
    exact EndsLe.bind (ends_listItems he _ ts (by omega) h) fun _ ts' h' => hm ts' (by omega)
  have har : ∀ {m : PM Unit}, (∀ ts : List PTok, ts.length < n → EndsLe m ts) → ∀ ts : List PTok, ts.length < n →
      EndsLe (do let ts ← look; args elem (ts.length + 1); m) ts := by
    intro m hm ts h
    refine Ends.look ?_
    exact EndsLe.bind (ends_args he _ ts (by omega) h) fun _ ts' h' => hm ts' (by omega)
  intro ts hn
  unfold elementF
  refine Ends.peek ?_
  cases ts with
  | nil => exact ends_false _
  | cons t ts =>
    simp only [List.head?_cons]
    have hn' : ts.length < n := by simp at hn; omega
    split
    · rename_i ht
      refine ends_true (ends_node _ (ends_opening ht ?_ hn'))
      exact ends_after htr (ends_after hso fun ts _ => ends_closing (fun ts => ends_recover _ _ _ ts) ts)
    split
    · rename_i ht
      refine ends_true (ends_node _ (ends_opening ht ?_ hn'))
      exact ends_after htr (har (ends_after htr fun ts _ =>
        ends_closing (m := fun ts => .ok ((), (argsRecover ts).1, (argsRecover ts).2)) (fun ts => argsRecover_len ts) ts))
    split
    · refine ends_true (ends_node _ ?_)
      refine Ends.bind (ends_take _ (t :: ts)) ?_
      intro _ x hx
      obtain rfl : ts = x := hx.symm
      refine (ends_after htr (hli (ends_after htr fun ts _ => ends_closing (fun ts => ends_recover _ _ _ ts) ts))
        ts hn').mono ?_
      intro _ _ h
      exact Nat.lt_succ_of_le h
    split
    · rename_i ht
      refine ends_true (ends_node _ (ends_opening ht ?_ hn'))
      exact ends_after htr (ends_after (hbl _) (ends_after htr fun ts _ =>
        ends_closing (fun ts => ends_recover _ _ _ ts) ts))
    split
    · rename_i ht
      refine ends_true (ends_node _ (ends_node _ (ends_node _ (ends_opening ht ?_ hn'))))
      exact ends_after htr (ends_after (hbl _) (ends_after htr fun ts _ => ends_last _ ts))
    split
    · rename_i ht
      refine ends_true (ends_node _ (ends_node _ (ends_node _ (ends_opening ht ?_ hn'))))
      exact ends_after htr (hli (ends_after htr fun ts _ => ends_last _ ts))
    split
    · rename_i ht
      refine ends_true ?_
      unfold bracketExpression
      refine Ends.look ?_
      split
      · refine ends_node _ (ends_opening ht ?_ hn')
        exact ends_after htr (ends_after (hbl _) (ends_after htr fun ts _ => ends_closing (fun ts => ends_range ts) ts))
      · refine ends_node _ (ends_opening ht ?_ hn')
        exact ends_after htr (ends_after hso fun ts _ => ends_closing (fun ts => ends_range ts) ts)
    split
    · rename_i ht
      refine ends_true (ends_node _ (ends_opening ht ?_ hn'))
      exact ends_after htr (ends_after hso fun ts _ => ends_last _ ts)
    · exact ends_atom _

end Grammar

theorem ends_element : ∀ n, ElemEnds (element n) n := by
  intro n
  induction n with
  | zero => intro ts h; omega
  | succ n ih => exact ends_elementF ih

theorem buildTree_ends : ∀ (es : List Ev) i p c, buildTree es i p c ≠ .fuel := by
  intro es
  induction es with
  | nil => intro i p c; unfold buildTree; split <;> simp
  | cons e es ih =>
    intro i p c
    cases e with
    | start k => exact ih _ _ _
    | token k => exact ih _ _ _
    | finish =>
      unfold buildTree
      split
      · exact ih _ _ _
      · simp

theorem build_ends (all : List PTok) (ops : List Op) (rest : List PTok) : build all ops rest ≠ .fuel := by
  unfold build
  dsimp only
  split
  · split
    · exact buildTree_ends _ _ _ _
    · simp
  · split
    · simp
    · split
      · exact buildTree_ends _ _ _ _
      · simp

theorem parseWith_ends {m : Nat → PM Unit} {ts : List PTok} (h : EndsLe (m (ts.length + 1)) ts) :
    parseWith m ts ≠ .fuel := by
  unfold parseWith
  unfold EndsLe Ends at h
  split
  · exact build_ends _ _ _
  · simp
  · rename_i heq; rw [heq] at h; exact h.elim

theorem unit_ends (ts : List PTok) : parseUnit ts ≠ .fuel := by
  refine parseWith_ends ?_
  refine ends_node _ ?_
  refine EndsLe.bind (ends_trivia ts) ?_
  intro _ ts1 h1
  refine EndsLe.bind (ends_blockContent (ends_element _) _ ts1 (by omega)) ?_
  intro _ ts2 _
  exact ends_trivia ts2

theorem expression_ends (ts : List PTok) : parseExpression ts ≠ .fuel :=
  parseWith_ends (ends_soup (ends_element _) ts (Nat.lt_succ_self _))

end Verif.Parse
