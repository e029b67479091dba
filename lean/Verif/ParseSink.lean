import Verif.ParseModel

/-!
# Lemmas about the sink of blocks
-/

namespace Verif.Parse

open Verif.Lex (Kind)

/-! ## Balanced events -/

/-- The number of open nodes after some events, if none is finished that is not open. -/
def scan : Nat → List Ev → Option Nat
  | d, [] => some d
  | d, .start _ :: es => scan (d + 1) es
  | 0, .finish :: _ => none
  | d + 1, .finish :: es => scan d es
  | d, .token _ :: es => scan d es

/-- Every node started is finished, and no other. -/
def Bal (es : List Ev) : Prop := scan 0 es = some 0

theorem scan_append (a b : List Ev) : ∀ d, scan d (a ++ b) = (scan d a).bind (scan · b) := by
  induction a with
  | nil => intro d; simp [scan]
  | cons e a ih =>
    intro d
    cases e with
    | start k => simp [scan, ih]
    | token k => simp [scan, ih]
    | finish =>
      cases d with
      | zero => simp [scan]
      | succ d => simp [scan, ih]

theorem scan_shift (a : List Ev) : ∀ {d e}, scan d a = some e → ∀ j, scan (d + j) a = some (e + j) := by
  induction a with
  | nil =>
    intro d e h j
    simp [scan] at h ⊢
    exact h
  | cons x a ih =>
    intro d e h j
    cases x with
    | start k =>
      simp only [scan] at h ⊢
      have := ih h j
      rw [show d + j + 1 = d + 1 + j by omega]
      exact this
    | token k => simp only [scan] at h ⊢; exact ih h j
    | finish =>
      cases d with
      | zero => simp [scan] at h
      | succ d =>
        simp only [scan] at h
        rw [show d + 1 + j = (d + j) + 1 by omega]
        simp only [scan]
        exact ih h j

theorem Bal.scan {es : List Ev} (h : Bal es) (d : Nat) : scan d es = some d := by
  have := scan_shift es h d
  simpa using this

theorem Bal.nil : Bal [] := rfl

theorem Bal.append {a b : List Ev} (ha : Bal a) (hb : Bal b) : Bal (a ++ b) := by
  unfold Bal
  rw [scan_append, ha]
  exact hb

theorem Bal.node {a : List Ev} (ha : Bal a) (k : Kind) : Bal (.start k :: a ++ [.finish]) := by
  unfold Bal
  show Parse.scan 1 (a ++ [.finish]) = some 0
  rw [scan_append, ha.scan 1]
  rfl

theorem Bal.token (k : Kind) : Bal [.token k] := rfl

theorem evToks_append (a b : List Ev) : evToks (a ++ b) = evToks a ++ evToks b := by
  induction a with
  | nil => rfl
  | cons e a ih => cases e <;> simp [evToks, ih]

/-! ## Items -/

/-- What is sent to the sink at its top level: a token, or a whole node with a first token. -/
inductive Item where
  | tok (k : Kind)
  | node (k first : Kind) (body : List Ev)
  deriving DecidableEq, Repr

namespace Item
/-- Its events. -/
def evs : Item → List Ev
  | tok k => [.token k]
  | node k _ body => .start k :: body ++ [.finish]
/-- A whole node. -/
def Ok : Item → Prop
  | tok _ => True
  | node _ f body => Bal body ∧ (evToks body).head? = some f
/-- Its tokens. -/
def toks (it : Item) : List Kind := evToks it.evs
/-- A trivial token. -/
def triv : Item → Bool
  | tok k => k.isTrivial
  | node _ _ _ => false
end Item

/-- The events of items. -/
def evsOf (its : List Item) : List Ev := its.flatMap Item.evs

theorem evsOf_append (a b : List Item) : evsOf (a ++ b) = evsOf a ++ evsOf b := by simp [evsOf]
theorem evsOf_cons (a : Item) (b : List Item) : evsOf (a :: b) = a.evs ++ evsOf b := by simp [evsOf]
theorem evsOf_nil : evsOf [] = [] := rfl
theorem evs_ne (it : Item) : it.evs ≠ [] := by cases it <;> simp [Item.evs]
theorem evsOf_eq_nil {its : List Item} : evsOf its = [] ↔ its = [] := by
  cases its with
  | nil => simp [evsOf]
  | cons a b => simp [evsOf_cons, evs_ne]

theorem Item.Ok.bal {it : Item} (h : it.Ok) : Bal it.evs := by
  cases it with
  | tok k => exact Bal.token k
  | node k f body => exact Bal.node h.1 k

/-- Items all whole. -/
def AllOk (its : List Item) : Prop := ∀ it ∈ its, it.Ok

theorem AllOk.bal {its : List Item} (h : AllOk its) : Bal (evsOf its) := by
  induction its with
  | nil => exact Bal.nil
  | cons a b ih =>
    rw [evsOf_cons]
    exact (h a (by simp)).bal.append (ih fun x hx => h x (by simp [hx]))

theorem AllOk.append {a b : List Item} (ha : AllOk a) (hb : AllOk b) : AllOk (a ++ b) := by
  intro x hx
  rcases List.mem_append.1 hx with h | h
  · exact ha x h
  · exact hb x h

/-! ## Splitting off the head -/

theorem headScan_body (body : List Ev) : ∀ (a b : Nat) (rest : List Ev) (n : Nat), scan a body = some b →
    headScan (body.reverse ++ rest) (b + 1) n = headScan rest (a + 1) (n + body.length) := by
  induction body with
  | nil =>
    intro a b rest n h
    simp [scan] at h
    simp [h]
  | cons e es ih =>
    intro a b rest n h
    rw [List.reverse_cons, List.append_assoc]
    cases e with
    | start k =>
      simp only [scan] at h
      rw [ih _ _ _ _ h]
      simp only [List.singleton_append, headScan]
      rw [if_pos (by omega)]
      congr 1
      · omega
    | token k =>
      simp only [scan] at h
      rw [ih _ _ _ _ h]
      simp only [List.singleton_append, headScan]
      split
      · rfl
      · rw [if_neg (by omega)]
        rfl
    | finish =>
      cases a with
      | zero => simp [scan] at h
      | succ a =>
        simp only [scan] at h
        rw [ih _ _ _ _ h]
        simp only [List.singleton_append, headScan]
        rfl

/-- The kinds of nodes a head starts with. -/
def isHeadStart (k : Kind) : Bool := k = .parenExpr || k = .name || k = .bracketExpr

/-- What may follow the start of a head. -/
def headRest : Item → Bool
  | .tok k => k.isTrivial
  | .node k _ _ => k = .argTuple
/-- The start of a head. -/
def headStart : Item → Bool
  | .tok _ => false
  | .node k _ _ => isHeadStart k

theorem headScan_items : ∀ (len : Nat) (its : List Item), its.length = len → ∀ (n m : Nat), AllOk its →
    headScan (evsOf its).reverse 0 n = some m →
    ∃ r h, its = r ++ h ∧ m = n + (evsOf h).length ∧
      (r = [] ∧ (∀ it ∈ h, headRest it = true) ∨ ∃ x h', h = x :: h' ∧ headStart x = true) := by
  intro len
  induction len with
  | zero =>
    intro its hl n m _ h
    have : its = [] := List.length_eq_zero_iff.1 hl
    subst this
    simp [evsOf, headScan] at h
    exact ⟨[], [], rfl, by simp [evsOf, h], .inl ⟨rfl, by simp⟩⟩
  | succ len ih =>
    intro its hl n m hok h
    have hne : its ≠ [] := by intro hh; subst hh; simp at hl
    obtain ⟨pre, x, rfl⟩ : ∃ pre x, its = pre ++ [x] := ⟨its.dropLast, its.getLast hne, (List.dropLast_concat_getLast hne).symm⟩
    have hpre : AllOk pre := fun y hy => hok y (by simp [hy])
    have hx := hok x (by simp)
    have hlen : pre.length = len := by simp at hl; exact hl
    rw [evsOf_append, evsOf_cons, evsOf_nil, List.append_nil, List.reverse_append] at h
    have key : ∀ m', headScan (evsOf pre).reverse 0 m' = some m → m' = n + x.evs.length → headRest x = true →
        ∃ r h, pre ++ [x] = r ++ h ∧ m = n + (evsOf h).length ∧
          (r = [] ∧ (∀ it ∈ h, headRest it = true) ∨ ∃ x h', h = x :: h' ∧ headStart x = true) := by
      intro m' hs hm' hr
      obtain ⟨r, h', hsplit, hm, hc⟩ := ih pre hlen m' m hpre hs
      refine ⟨r, h' ++ [x], by rw [hsplit, List.append_assoc], ?_, ?_⟩
      · rw [evsOf_append, evsOf_cons, evsOf_nil, List.append_nil, List.length_append]; omega
      · rcases hc with ⟨h1, h2⟩ | ⟨y, t, h1, h2⟩
        · refine .inl ⟨h1, ?_⟩
          intro it hit
          rcases List.mem_append.1 hit with q | q
          · exact h2 it q
          · simp at q; subst q; exact hr
        · exact .inr ⟨y, t ++ [x], by rw [h1]; rfl, h2⟩
    cases x with
    | tok k =>
      simp only [Item.evs, List.reverse_singleton, List.singleton_append, headScan] at h
      split at h
      · rename_i ht
        exact key _ h (by simp [Item.evs]) ht
      · simp at h
    | node k f body =>
      have hb : Bal body := hx.1
      simp only [Item.evs, List.reverse_append, List.reverse_cons,
        List.cons_append, List.append_assoc, List.reverse_nil, List.nil_append, headScan] at h
      have h2 : headScan (body.reverse ++ .start k :: (evsOf pre).reverse) 1 (n + 1) =
          headScan (.start k :: (evsOf pre).reverse) 1 (n + 1 + body.length) := headScan_body body 0 0 _ (n + 1) hb
      simp only [Int.zero_add] at h
      rw [h2] at h
      simp only [headScan] at h
      rw [if_neg (by omega)] at h
      have hlen2 : (Item.node k f body).evs.length = body.length + 2 := by simp [Item.evs]
      split at h
      · rename_i hk
        simp at h
        refine ⟨pre, [Item.node k f body], rfl, ?_, .inr ⟨_, [], rfl, ?_⟩⟩
        · rw [evsOf_cons, evsOf_nil, List.append_nil, hlen2]; omega
        · simp only [headStart, isHeadStart]
          rcases hk with rfl | rfl | rfl <;> decide
      · split at h
        · rename_i hk
          refine key (n + 1 + body.length + 1) ?_ (by rw [hlen2]; omega) (by simp [headRest, hk])
          simpa using h
        · simp at h

theorem splitHead_items {its : List Item} (hok : AllOk its) :
    ∃ r h, its = r ++ h ∧ splitHead (evsOf its) = (evsOf h, evsOf r) ∧
      (h = [] ∨ r = [] ∧ (∀ it ∈ h, headRest it = true) ∨ ∃ x h', h = x :: h' ∧ headStart x = true) := by
  unfold splitHead
  cases hs : headScan (evsOf its).reverse 0 0 with
  | none => exact ⟨its, [], by simp, by simp [evsOf_nil], .inl rfl⟩
  | some m =>
    obtain ⟨r, h, rfl, hm, hc⟩ := headScan_items _ its rfl 0 m hok hs
    refine ⟨r, h, rfl, ?_, .inr hc⟩
    rw [evsOf_append]
    have : (evsOf r ++ evsOf h).length - m = (evsOf r).length := by rw [List.length_append]; omega
    dsimp only
    rw [this, List.drop_left, List.take_left]

/-! ## Taking the head out of metadata -/

theorem exprScan_body (body : List Ev) : ∀ (a b : Nat) (rest : List Ev) (n : Nat) (f : Bool), scan a body = some b →
    exprScan (body.reverse ++ rest) (b + 1) n f = exprScan rest (a + 1) (n + body.length) f := by
  induction body with
  | nil =>
    intro a b rest n f h
    simp [scan] at h
    simp [h]
  | cons e es ih =>
    intro a b rest n f h
    rw [List.reverse_cons, List.append_assoc]
    cases e with
    | start k =>
      simp only [scan] at h
      rw [ih _ _ _ _ _ h]
      simp only [List.singleton_append, exprScan]
      rw [if_pos (by omega)]
      congr 1
      · omega
    | token k =>
      simp only [scan] at h
      rw [ih _ _ _ _ _ h]
      simp only [List.singleton_append, exprScan]
      split
      · rw [if_neg (by omega)]
        rfl
      · rw [if_neg (by omega)]
        rfl
    | finish =>
      cases a with
      | zero => simp [scan] at h
      | succ a =>
        simp only [scan] at h
        rw [ih _ _ _ _ _ h]
        simp only [List.singleton_append, exprScan]
        rfl

theorem exprScan_items : ∀ (len : Nat) (its : List Item), its.length = len → ∀ (n : Nat) (f : Bool), AllOk its →
    ∃ r h, its = r ++ h ∧ (exprScan (evsOf its).reverse 0 n f).1 = n + (evsOf h).length ∧
      ∀ k its', its = Item.tok k :: its' → k.isTrivial = false → r ≠ [] := by
  intro len
  induction len with
  | zero =>
    intro its hl n f _
    have : its = [] := List.length_eq_zero_iff.1 hl
    subst this
    exact ⟨[], [], rfl, by simp [evsOf, exprScan], by simp⟩
  | succ len ih =>
    intro its hl n f hok
    have hne : its ≠ [] := by intro hh; subst hh; simp at hl
    obtain ⟨pre, x, rfl⟩ : ∃ pre x, its = pre ++ [x] := ⟨its.dropLast, its.getLast hne, (List.dropLast_concat_getLast hne).symm⟩
    have hpre : AllOk pre := fun y hy => hok y (by simp [hy])
    have hx := hok x (by simp)
    have hlen : pre.length = len := by simp at hl; exact hl
    rw [evsOf_append, evsOf_cons, evsOf_nil, List.append_nil, List.reverse_append]
    have stop : ∃ r h, pre ++ [x] = r ++ h ∧ n = n + (evsOf h).length ∧
        ∀ k its', pre ++ [x] = Item.tok k :: its' → k.isTrivial = false → r ≠ [] :=
      ⟨pre ++ [x], [], by simp, by simp [evsOf_nil], by simp⟩
    have key : ∀ m' f', m' = n + x.evs.length → (∀ k, x = Item.tok k → k.isTrivial = true) →
        ∃ r h, pre ++ [x] = r ++ h ∧ (exprScan (evsOf pre).reverse 0 m' f').1 = n + (evsOf h).length ∧
        ∀ k its', pre ++ [x] = Item.tok k :: its' → k.isTrivial = false → r ≠ [] := by
      intro m' f' hm' hr
      obtain ⟨r, h', hsplit, hm, hc⟩ := ih pre hlen m' f' hpre
      refine ⟨r, h' ++ [x], by rw [hsplit, List.append_assoc], ?_, ?_⟩
      · rw [evsOf_append, evsOf_cons, evsOf_nil, List.append_nil, List.length_append]; omega
      · intro k its' he hk
        cases pre with
        | nil =>
          simp at he
          exact absurd (hr k he.1) (by simp [hk])
        | cons p pre' =>
          simp at he
          exact hc k pre' (by rw [he.1]) hk
    cases x with
    | tok k =>
      simp only [Item.evs, List.reverse_singleton, List.singleton_append, exprScan]
      split
      · split
        · exact stop
        · exact key _ _ (by simp [Item.evs]) (by intro k' hk'; cases hk'; assumption)
      · simp only [↓reduceIte]
        exact stop
    | node k g body =>
      have hb : Bal body := hx.1
      have h2 : exprScan (body.reverse ++ .start k :: (evsOf pre).reverse) 1 (n + 1) f =
          exprScan (.start k :: (evsOf pre).reverse) 1 (n + 1 + body.length) f := exprScan_body body 0 0 _ (n + 1) f hb
      simp only [Item.evs, List.reverse_append, List.reverse_cons,
        List.cons_append, List.append_assoc, List.reverse_nil, List.nil_append, exprScan]
      simp only [Int.zero_add]
      rw [h2]
      simp only [exprScan]
      have hlen2 : (Item.node k g body).evs.length = body.length + 2 := by simp [Item.evs]
      rw [if_neg (by omega)]
      split
      · rw [if_neg (by omega)]
        exact key _ _ (by rw [hlen2]; omega) (by simp)
      · rw [if_neg (by omega)]
        exact key _ _ (by rw [hlen2]; omega) (by simp)

theorem fixTuple_toks (e : List Ev) : evToks (fixTuple e) = evToks e := by
  unfold fixTuple
  split <;> rfl

theorem fixTuple_bal {e : List Ev} (h : Bal e) : Bal (fixTuple e) := by
  unfold fixTuple
  split <;> exact h

theorem extractLast_items {its : List Item} (hok : AllOk its) {e m' : List Ev}
    (h : extractLast (evsOf its) = some (e, m')) :
    ∃ r, m' = evsOf r ∧ AllOk r ∧ evToks m' ++ evToks e = evToks (evsOf its) ∧ Bal e ∧
      ∀ k its', its = Item.tok k :: its' → k.isTrivial = false → r ≠ [] := by
  unfold extractLast at h
  dsimp only at h
  split at h
  · rename_i hc
    obtain ⟨r, hd, hsplit, hm, hne⟩ := exprScan_items _ its rfl 0 false hok
    subst hsplit
    rw [evsOf_append] at h hm
    have hlen : (evsOf r ++ evsOf hd).length - (exprScan (evsOf r ++ evsOf hd).reverse 0 0 false).1 = (evsOf r).length := by
      rw [hm, List.length_append]; omega
    rw [hlen, List.drop_left, List.take_left] at h
    simp only [Option.some.injEq, Prod.mk.injEq] at h
    obtain ⟨h1, h2⟩ := h
    have hokr : AllOk r := fun x hx => hok x (by simp [hx])
    have hokh : AllOk hd := fun x hx => hok x (by simp [hx])
    refine ⟨r, h2.symm, hokr, ?_, ?_, hne⟩
    · rw [← h1, ← h2, fixTuple_toks, evsOf_append, evToks_append]
    · rw [← h1]; exact fixTuple_bal hokh.bal
  · simp at h

/-! ## Committing -/

theorem commitMeta_spec (s : Sink) (hb : Bal s.committed) (hm : Bal s.blockMeta) :
    evToks (commitMeta s).committed = evToks s.committed ++ evToks s.blockMeta ∧ Bal (commitMeta s).committed ∧
    (commitMeta s).blockMeta = [] ∧ (commitMeta s).buffer = s.buffer ∧ (commitMeta s).decl = s.decl ∧
    (commitMeta s).depth = s.depth := by
  unfold commitMeta
  split
  · rename_i hc
    refine ⟨?_, ?_, rfl, rfl, rfl, rfl⟩
    · simp [hc, evToks_append, evToks]
    · have := (hm.node .soup).node .blockMeta
      simpa using this
  · split
    · exact ⟨by simp [evToks_append], hb.append hm, rfl, rfl, rfl, rfl⟩
    · refine ⟨by simp [evToks_append, evToks], ?_, rfl, rfl, rfl, rfl⟩
      have := hb.append (hm.node .errorStowaways)
      simpa using this

theorem tokens_bal {es : List Ev} (h : ∀ e ∈ es, isTrailer e = true) (d : Nat) : scan d es = some d := by
  induction es with
  | nil => rfl
  | cons e es ih =>
    cases e with
    | token k => exact ih fun x hx => h x (by simp [hx])
    | start k => have := h (.start k) (by simp); simp [isTrailer] at this
    | finish => have := h .finish (by simp); simp [isTrailer] at this

theorem trailer_drop_rev (b : List Ev) :
    b.reverse.drop (b.length - (b.takeWhile isTrailer).length) = (b.takeWhile isTrailer).reverse := by
  have hs : b = b.takeWhile isTrailer ++ b.dropWhile isTrailer := (List.takeWhile_append_dropWhile).symm
  have hr : b.reverse = (b.dropWhile isTrailer).reverse ++ (b.takeWhile isTrailer).reverse := by
    rw [← List.reverse_append, ← hs]
  have hl : b.length - (b.takeWhile isTrailer).length = (b.dropWhile isTrailer).reverse.length := by
    have := congrArg List.length hs
    rw [List.length_append] at this
    rw [List.length_reverse]
    omega
  rw [hl, hr, List.drop_left]

theorem trailer_drop (body : List Ev) : ∀ e ∈ body.drop (body.length - trailerLen body), isTrailer e = true := by
  intro e he
  have := trailer_drop_rev body.reverse
  rw [List.reverse_reverse, List.length_reverse] at this
  unfold trailerLen at he
  rw [this] at he
  exact List.all_eq_true.1 (List.all_takeWhile (p := isTrailer) (l := body.reverse)) e (List.mem_reverse.1 he)

/-- A declaration made of whole parts. -/
structure DeclOk (d : Decl) : Prop where
  md : Bal (d.md.getD [])
  head : Bal d.head
  colon : Bal d.colon
  body : Bal d.body

/-- The tokens of a declaration. -/
def declToks (d : Decl) : List Kind := evToks (d.md.getD []) ++ evToks d.head ++ evToks d.colon ++ evToks d.body

theorem declEvents_spec {d : Decl} (h : DeclOk d) : evToks (declEvents d) = declToks d ∧ Bal (declEvents d) := by
  unfold declEvents
  dsimp only
  split
  · refine ⟨by simp [evToks_append, evToks, declToks], ?_⟩
    have := (((h.md.append h.head).append h.colon).append h.body).node .error
    simpa using this
  · have htd := trailer_drop d.body
    generalize hn : d.body.length - trailerLen d.body = n at htd
    have hbt : Bal (d.body.drop n) := tokens_bal htd 0
    have hbody : Bal (d.body.take n) := by
      have h1 := h.body
      unfold Bal at h1
      rw [← List.take_append_drop n d.body, scan_append] at h1
      cases hs : scan 0 (d.body.take n) with
      | none => rw [hs] at h1; simp at h1
      | some x =>
        rw [hs] at h1
        simp [tokens_bal htd x] at h1
        unfold Bal
        rw [hs, h1]
    have ht : evToks d.body = evToks (d.body.take n) ++ evToks (d.body.drop n) := by
      rw [← evToks_append, List.take_append_drop]
    have hmd : ∀ m, Bal m → Bal ([.start .declMeta, .start .soup] ++ m ++ [.finish, .finish]) := by
      intro m hm
      have := (hm.node .soup).node .declMeta
      simpa using this
    have hin : ∀ p, Bal p → Bal ([Ev.start .declaration] ++ p ++ [.start .declHead] ++ d.head ++ [.finish] ++ d.colon ++
        [.start .declBody, .start .soup] ++ d.body.take n ++ [.finish, .finish, .finish] ++ d.body.drop n) := by
      intro p hp
      have := (((hp.append (h.head.node .declHead)).append h.colon).append ((hbody.node .soup).node .declBody)).node .declaration
      have := this.append hbt
      simpa using this
    cases hm : d.md with
    | none =>
      refine ⟨?_, hin [] Bal.nil⟩
      simp [evToks_append, evToks, declToks, ht, hm]
    | some m =>
      have hmb : Bal m := by have := h.md; rw [hm] at this; exact this
      refine ⟨?_, hin _ (hmd m hmb)⟩
      simp [evToks_append, evToks, declToks, ht, hm]

theorem commitDecl_spec (s : Sink) (d : Decl) (hd : s.decl = some d) (hb : Bal s.committed) (h : DeclOk d) :
    evToks (commitDecl s).committed = evToks s.committed ++ declToks d ∧ Bal (commitDecl s).committed ∧
    (commitDecl s).blockMeta = s.blockMeta ∧ (commitDecl s).buffer = s.buffer ∧ (commitDecl s).decl = none ∧
    (commitDecl s).depth = s.depth := by
  obtain ⟨h1, h2⟩ := declEvents_spec h
  unfold commitDecl
  rw [hd]
  exact ⟨by rw [evToks_append, h1], hb.append h2, rfl, rfl, rfl, rfl⟩

end Verif.Parse
