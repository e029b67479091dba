import Verif.CompInv

/-!
# Scopes in compiled code

Proofs, and what they are about: which programs are closed (`closed`), which tables are in order (`Tables`).
-/

namespace Verif.Comp.Scope
open Verif.Bc Verif.Opt
set_option linter.unusedSectionVars false
variable {K : Type}

mutual
/-- With scopes of these sizes around, innermost first, every variable is in one of them; free names are in the prelude and
intrinsics are known; no function has more than 255 parameters; nothing the compiler refuses is in it. -/
def closed (cfg : Config K) (Γ : List Nat) : Exp K → Bool
  | .var s i _ => match Γ[s]? with
    | some n => decide (i < n)
    | none => false
  | .free name => (cfg.prelude name).isSome
  | .let_ bs body => closedBinds cfg ((bindings bs).length :: Γ) bs && closed cfg ((bindings bs).length :: Γ) body
  | .lam _ n body => decide (n ≤ 255) && closed cfg (n :: Γ) body
  | .app _ f args => closed cfg Γ f && closedAll cfg Γ args
  | .lit _ => true
  | .list _ xs => closedAll cfg Γ xs
  | .block _ kvs => closedKvs cfg Γ kvs
  | .intrinsic name => (cfg.index name).isSome
  | .lookup _ obj _ => closed cfg Γ obj
  | .lookupOr _ obj _ dft => closed cfg Γ obj && closed cfg Γ dft
  | .metaOf _ body m => closed cfg Γ body && closed cfg Γ m
  | .operator _ body => closed cfg Γ body
  | .other => false
def closedAll (cfg : Config K) (Γ : List Nat) : Exps K → Bool
  | .nil => true
  | .cons x xs => closed cfg Γ x && closedAll cfg Γ xs
def closedBinds (cfg : Config K) (Γ : List Nat) : Binds K → Bool
  | .nil => true
  | .cons _ _ x rest => closed cfg Γ x && closedBinds cfg Γ rest
def closedKvs (cfg : Config K) (Γ : List Nat) : Kvs K → Bool
  | .nil => true
  | .cons _ x rest => closed cfg Γ x && closedKvs cfg Γ rest
end

/-- With `g` globals: the tables lead to globals, and what is put in for an intrinsic is in scope and well formed. -/
structure Tables (cfg : Config K) (g : Nat) : Prop where
  index : ∀ name i, cfg.index name = some i → i < g
  prelude : ∀ name i, cfg.prelude name = some i → cfg.base + i < g
  empty : cfg.emptyList < g
  doc : cfg.renderDoc < g
  fragment : cfg.renderFragment < g
  lookupOr : cfg.lookupOr < g
  lookupFail : cfg.lookupFail < g
  wrapper : ∀ i w, cfg.wrapper i = some w → w.inlinable = true → wf g w.arity w.body = true

/-! ## More names in scope -/

theorem okRef_mono {g d d' : Nat} {r : Ref K} (h : okRef g d r = true) (hd : d ≤ d') : okRef g d' r = true := by
  cases r with
  | l i => simp only [okRef, decide_eq_true_eq] at h ⊢; omega
  | g i => exact h
  | v k => rfl

theorem allRef_mono {g d d' : Nat} {rs : List (Ref K)} (h : rs.all (okRef g d) = true) (hd : d ≤ d') :
    rs.all (okRef g d') = true := by
  rw [List.all_eq_true] at h ⊢
  exact fun r hr => okRef_mono (h r hr) hd

mutual
theorem wf_mono {g d d' : Nat} (c : Syn K) (h : wf g d c = true) (hd : d ≤ d') : wf g d' c = true := by
  match c with
  | .atom r => exact okRef_mono h hd
  | .case scr bs fb =>
    simp only [wf, Bool.and_eq_true] at h ⊢
    exact ⟨⟨wf_mono scr h.1.1 hd, wfBrs_mono bs h.1.2 hd⟩, wfFb_mono fb h.2 (by omega)⟩
  | .cons t args =>
    simp only [wf, Bool.and_eq_true] at h ⊢
    exact ⟨allRef_mono h.1 hd, h.2⟩
  | .app f args _ | .dapp _ f args _ =>
    simp only [wf, Bool.and_eq_true] at h ⊢
    exact ⟨okRef_mono h.1 hd, allRef_mono h.2 hd⟩
  | .bif _ args => exact allRef_mono h hd
  | .let_ fs body | .letrec fs body =>
    simp only [wf, Bool.and_eq_true] at h ⊢
    exact ⟨wfForms_mono fs h.1 (by omega), wf_mono body h.2 (by omega)⟩
  | .ann _ body => exact wf_mono body (d := d) h hd
  | .metaOf m b =>
    simp only [wf, Bool.and_eq_true] at h ⊢
    exact ⟨okRef_mono h.1 hd, okRef_mono h.2 hd⟩
  | .demeta scr x o =>
    simp only [wf, Bool.and_eq_true] at h ⊢
    exact ⟨⟨wf_mono scr h.1.1 hd, wf_mono x h.1.2 (by omega)⟩, wf_mono o h.2 (by omega)⟩
  | .seq scr body =>
    simp only [wf, Bool.and_eq_true] at h ⊢
    exact ⟨wf_mono scr h.1 hd, wf_mono body h.2 hd⟩
  | .lookup _ a b c =>
    simp only [wf, Bool.and_eq_true] at h ⊢
    exact ⟨⟨okRef_mono h.1.1 hd, okRef_mono h.1.2 hd⟩, okRef_mono h.2 hd⟩
  | .fused _ l r =>
    simp only [wf, Bool.and_eq_true] at h ⊢
    exact ⟨okRef_mono h.1 hd, okRef_mono h.2 hd⟩
  | .hole => rfl
termination_by structural c
theorem wfBrs_mono {g d d' : Nat} (bs : Brs K) (h : wfBrs g d bs = true) (hd : d ≤ d') : wfBrs g d' bs = true := by
  match bs with
  | .nil => rfl
  | .cons t b rest =>
    simp only [wfBrs, Bool.and_eq_true] at h ⊢
    refine ⟨⟨?_, h.1.2⟩, wfBrs_mono rest h.2 hd⟩
    have h1 := h.1.1
    cases hf : fieldsOf t with
    | none => rw [hf] at h1; cases h1
    | some n => rw [hf] at h1; exact wf_mono b h1 (by omega)
termination_by structural bs
theorem wfFb_mono {g d d' : Nat} (fb : Fb K) (h : wfFb g d fb = true) (hd : d ≤ d') : wfFb g d' fb = true := by
  match fb with
  | .none => rfl
  | .some b => exact wf_mono b (d := d) h hd
termination_by structural fb
theorem wfForms_mono {g d d' : Nat} (fs : Forms K) (h : wfForms g d fs = true) (hd : d ≤ d') : wfForms g d' fs = true := by
  match fs with
  | .nil => rfl
  | .cons x b rest =>
    simp only [wfForms, Bool.and_eq_true] at h ⊢
    exact ⟨wf_mono b h.1 (by omega), wfForms_mono rest h.2 hd⟩
termination_by structural fs
end

/-! ## Contexts -/

/-- How many names a context comes to. -/
def depth : Ctx K → Nat
  | [] => 0
  | f :: rest => f.size + depth rest

/-- The sizes of its scopes. -/
def scopes : Ctx K → List Nat
  | [] => []
  | f :: rest => if f.isScope then f.refs.length :: scopes rest else scopes rest

def CtxOk (g : Nat) : Ctx K → Prop
  | [] => True
  | f :: rest => (∀ r ∈ f.refs, okRef g (f.size + depth rest) r = true) ∧ CtxOk g rest

theorem bump_ok {g d n : Nat} {r : Ref K} (h : okRef g d r = true) : okRef g (n + d) (bump n r) = true := by
  cases r with
  | l i => simp only [okRef, bump, decide_eq_true_eq] at h ⊢; omega
  | g i => exact h
  | v k => rfl

theorem ctxLookup_ok {g : Nat} {c : Ctx K} {s i r} (hc : CtxOk g c) (h : ctxLookup c s i = .ok r) :
    okRef g (depth c) r = true := by
  induction c generalizing s r with
  | nil => cases h
  | cons f rest ih =>
    have hm : ∀ s r, (ctxLookup rest s i).map (bump f.size) = .ok r → okRef g (depth (f :: rest)) r = true := by
      intro s r h
      cases hl : ctxLookup rest s i with
      | error x => rw [hl] at h; cases h
      | ok r' => rw [hl] at h; cases h; exact bump_ok (ih hc.2 hl)
    unfold ctxLookup at h
    split at h
    · split at h
      · split at h
        · rename_i r' hr
          cases h
          exact hc.1 _ (List.mem_of_getElem? hr)
        · cases h
      · exact hm _ _ h
    · exact hm _ _ h

theorem ctxLookup_total {c : Ctx K} {s i n : Nat} (h : (scopes c)[s]? = some n) (hi : i < n) : ∃ r, ctxLookup c s i = .ok r := by
  induction c generalizing s with
  | nil => simp [scopes] at h
  | cons f rest ih =>
    unfold scopes at h
    unfold ctxLookup
    split at h
    · rename_i hf
      rw [if_pos hf]
      cases s with
      | zero =>
        simp only [List.getElem?_cons_zero, Option.some.injEq] at h
        subst h
        dsimp only
        rw [List.getElem?_eq_getElem hi]
        exact ⟨_, rfl⟩
      | succ s =>
        obtain ⟨r, hr⟩ := ih (s := s) (by simpa using h)
        dsimp only
        rw [hr]
        exact ⟨_, rfl⟩
    · rename_i hf
      rw [if_neg hf]
      obtain ⟨r, hr⟩ := ih h
      rw [hr]
      exact ⟨_, rfl⟩

/-! ## What is to hold of the pieces -/

/-- `T`: the program is closed, so that compiling is also to succeed. -/
structure Fok (T : Prop) (Γ : List Nat) (g k : Nat) (f : Ctx K → Except CErr (Form K)) : Prop where
  wf : ∀ c, CtxOk g c → k ≤ depth c → ∀ x, f c = .ok x → wf g (depth c + Sem.arity x.head) x.body = true
  total : T → ∀ c, scopes c = Γ → ∃ x, f c = .ok x

structure Sok (T : Prop) (Γ : List Nat) (g k : Nat) (f : Ctx K → Except CErr (Syn K)) : Prop where
  wf : ∀ c, CtxOk g c → k ≤ depth c → ∀ x, f c = .ok x → wf g (depth c) x = true
  total : T → ∀ c, scopes c = Γ → ∃ x, f c = .ok x

structure Inv (T : Prop) (Γ : List Nat) (g : Nat) (B : Binder K) : Prop where
  scope : B.isScope = true → B.recursive = true
  refs : ∀ r ∈ B.refs, okRef g B.protos.length r = true
  protos : ∀ f ∈ B.protos, Fok T Γ g 0 f ∨ B.recursive = true ∧ Fok T Γ g B.protos.length f

structure Le (B B' : Binder K) : Prop where
  length : B.protos.length ≤ B'.protos.length
  recu : B.recursive = true → B'.recursive = true
  refs : B'.refs = B.refs
  isScope : B'.isScope = B.isScope

theorem Le.refl (B : Binder K) : Le B B := ⟨Nat.le_refl _, id, rfl, rfl⟩
theorem Le.trans {A B D : Binder K} (h : Le A B) (h' : Le B D) : Le A D :=
  ⟨Nat.le_trans h.length h'.length, fun x => h'.recu (h.recu x), h'.refs.trans h.refs, h'.isScope.trans h.isScope⟩

/-- What comes of starting with `B`. -/
structure Safe {α} (T : Prop) (Γ : List Nat) (g : Nat) (B : Binder K) (m : C K α) (post : Binder K → α → Prop) : Prop where
  ok : ∀ B' a, m B = (a, B') → Inv T Γ g B → Inv T Γ g B' ∧ Le B B' ∧ (∀ x, a = .ok x → post B' x) ∧ (T → ∃ x, a = .ok x)

section
variable {T : Prop} {Γ : List Nat} {g : Nat} {B : Binder K} {α β : Type}

theorem Fok.mono {k k' : Nat} {f : Ctx K → Except CErr (Form K)} (h : Fok T Γ g k f) (hk : k ≤ k') : Fok T Γ g k' f :=
  ⟨fun c hc hd => h.wf c hc (Nat.le_trans hk hd), h.total⟩

theorem Sok.mono {k k' : Nat} {f : Ctx K → Except CErr (Syn K)} (h : Sok T Γ g k f) (hk : k ≤ k') : Sok T Γ g k' f :=
  ⟨fun c hc hd => h.wf c hc (Nat.le_trans hk hd), h.total⟩

theorem Safe.pure {a : α} {post : Binder K → α → Prop} (h : post B a) : Safe T Γ g B (C.pure a) post :=
  ⟨fun B' r e hi => by cases e; exact ⟨hi, .refl _, fun x hx => by cases hx; exact h, fun _ => ⟨_, rfl⟩⟩⟩

theorem Safe.fail {x} {post : Binder K → α → Prop} (h : ¬ T) : Safe T Γ g B (C.fail x) post :=
  ⟨fun B' r e hi => by cases e; exact ⟨hi, .refl _, fun x hx => (by cases hx), fun t => (h t).elim⟩⟩

theorem Safe.of {x : Except CErr α} {post : Binder K → α → Prop} (h : ∀ a, x = .ok a → post B a) (ht : T → ∃ a, x = .ok a) :
    Safe T Γ g B (C.of x) post := by
  cases x with
  | error x => exact .fail fun t => by obtain ⟨a, ha⟩ := ht t; cases ha
  | ok a => exact .pure (h a rfl)

theorem Safe.bind {m : C K α} {f : α → C K β} {mid : Binder K → α → Prop} {post : Binder K → β → Prop}
    (hm : Safe T Γ g B m mid) (hf : ∀ a B1, Le B B1 → mid B1 a → Safe T Γ g B1 (f a) post) : Safe T Γ g B (C.bind m f) post := by
  refine ⟨fun B' r h hi => ?_⟩
  unfold C.bind at h
  split at h
  · rename_i a B1 hb
    obtain ⟨i1, l1, p1, _⟩ := hm.ok _ _ hb hi
    obtain ⟨i2, l2, p2, t2⟩ := (hf a B1 l1 (p1 a rfl)).ok _ _ h i1
    exact ⟨i2, l1.trans l2, p2, t2⟩
  · rename_i x B1 hb
    obtain ⟨i1, l1, _, t1⟩ := hm.ok _ _ hb hi
    cases h
    exact ⟨i1, l1, fun y hy => (by cases hy), fun t => by obtain ⟨y, hy⟩ := t1 t; cases hy⟩

theorem Safe.mono {m : C K α} {p q : Binder K → α → Prop} (h : Safe T Γ g B m p) (hi : ∀ B a, p B a → q B a) :
    Safe T Γ g B m q :=
  ⟨fun B' a e i => by obtain ⟨a1, a2, a3, a4⟩ := h.ok B' a e i; exact ⟨a1, a2, fun x hx => hi _ _ (a3 x hx), a4⟩⟩

theorem Safe.run {m : C K α} {post : Binder K → α → Prop} (h : Safe T Γ g B m post) (hi : Inv T Γ g B) :
    ∃ a B', m B = (a, B') ∧ Inv T Γ g B' ∧ Le B B' ∧ (∀ x, a = .ok x → post B' x) ∧ (T → ∃ x, a = .ok x) :=
  ⟨_, _, rfl, h.ok _ _ rfl hi⟩

theorem safe_ensureRec : Safe T Γ g B ensureRec fun B _ => B.recursive = true := by
  refine ⟨fun B' a h hi => ?_⟩
  cases h
  refine ⟨⟨fun _ => rfl, hi.refs, fun f hf => ?_⟩, ⟨Nat.le_refl _, fun _ => rfl, rfl, rfl⟩, fun _ _ => rfl, fun _ => ⟨_, rfl⟩⟩
  rcases hi.protos f hf with h | ⟨_, h⟩
  · exact .inl h
  · exact .inr ⟨rfl, h⟩

theorem safe_markStrict (d : Demand) (r : Ref K) : Safe T Γ g B (markStrict d r) fun _ _ => True := by
  refine ⟨fun B' a h hi => ?_⟩
  unfold markStrict at h
  split at h
  · split at h <;> cases h
    · exact ⟨⟨hi.scope, hi.refs, hi.protos⟩, ⟨Nat.le_refl _, id, rfl, rfl⟩, fun _ _ => trivial, fun _ => ⟨_, rfl⟩⟩
    · exact ⟨hi, .refl _, fun _ _ => trivial, fun _ => ⟨_, rfl⟩⟩
  · cases h
    exact ⟨hi, .refl _, fun _ _ => trivial, fun _ => ⟨_, rfl⟩⟩

/-- A reference to something in the binding in hand. -/
def Rok (g : Nat) (B : Binder K) (r : Ref K) : Prop := okRef g B.protos.length r = true

theorem Rok.le {A : Binder K} {r} (h : Rok g A r) (hl : Le A B) : Rok g B r := okRef_mono h hl.length

theorem safe_addDeferred {f : Ctx K → Except CErr (Form K)}
    (hf : Fok T Γ g 0 f ∨ B.recursive = true ∧ Fok T Γ g (B.protos.length + 1) f) : Safe T Γ g B (addDeferred f) (Rok g) := by
  refine ⟨fun B' a h hi => ?_⟩
  cases h
  refine ⟨⟨hi.scope, fun r hr => okRef_mono (hi.refs r hr) (by simp), fun f' hf' => ?_⟩,
    ⟨by simp, id, rfl, rfl⟩, fun x hx => ?_, fun _ => ⟨_, rfl⟩⟩
  · simp only [List.mem_append, List.mem_singleton] at hf'
    rcases hf' with hf' | rfl
    · rcases hi.protos f' hf' with h | ⟨h1, h⟩
      · exact .inl h
      · exact .inr ⟨h1, h.mono (by simp)⟩
    · rcases hf with h | ⟨h1, h⟩
      · exact .inl h
      · exact .inr ⟨h1, h.mono (by simp)⟩
  · cases hx; simp [Rok, okRef]

theorem arity_formOf (cfg : Config K) (d : Demand) (s : Syn K) : Sem.arity (formOf cfg d s).head = 0 := by
  unfold formOf; split <;> rfl

theorem body_formOf (cfg : Config K) (d : Demand) (s : Syn K) : (formOf cfg d s).body = s := by
  unfold formOf; split <;> rfl

theorem Sok.form {cfg : Config K} {d : Demand} {k : Nat} {s : Ctx K → Except CErr (Syn K)} (h : Sok T Γ g k s) :
    Fok T Γ g k (Proto.ofSyn cfg d s).form := by
  refine ⟨fun c hc hk x hx => ?_, fun t c hc => ?_⟩
  · simp only [Proto.ofSyn] at hx
    cases hs : s c with
    | error e => rw [hs] at hx; cases hx
    | ok y =>
      rw [hs] at hx
      cases hx
      rw [arity_formOf, body_formOf]
      exact h.wf c hc hk y hs
  · obtain ⟨y, hy⟩ := h.total t c hc
    exact ⟨formOf cfg d y, by simp only [Proto.ofSyn, hy]; rfl⟩

theorem holder_ok {cfg : Config K} {s : Syn K} {k : Nat} (h : Opt.wf g k s = true) : Sok T Γ g k (holder cfg s).syn :=
  ⟨fun c _ hk x hx => by cases hx; exact wf_mono s h hk, fun _ c _ => ⟨s, rfl⟩⟩

theorem safe_add {cfg : Config K} {s : Syn K} (hr : B.recursive = true) (h : Opt.wf g B.protos.length s = true) :
    Safe T Γ g B (add cfg s) (Rok g) :=
  safe_addDeferred (.inr ⟨hr, Sok.form (holder_ok (cfg := cfg) (wf_mono s h (Nat.le_succ _)))⟩)

theorem safe_addClosed {cfg : Config K} {s : Syn K} (h : Opt.wf g 0 s = true) : Safe T Γ g B (add cfg s) (Rok g) :=
  safe_addDeferred (.inl (Sok.form (holder_ok (cfg := cfg) h)))

theorem var_ok {s i : Nat} (h : T → ∃ n, Γ[s]? = some n ∧ i < n) (cfg : Config K) : Sok T Γ g 0 (protoVar cfg s i).syn := by
  refine ⟨fun c hc _ x hx => ?_, fun t c hc => ?_⟩
  · simp only [protoVar, Proto.ofSyn] at hx
    cases hl : ctxLookup c s i with
    | error e => rw [hl] at hx; cases hx
    | ok r => rw [hl] at hx; cases hx; exact ctxLookup_ok hc hl
  · obtain ⟨n, hn, hi⟩ := h t
    obtain ⟨r, hr⟩ := ctxLookup_total (c := c) (s := s) (i := i) (by rw [hc]; exact hn) hi
    exact ⟨.atom r, by simp only [protoVar, Proto.ofSyn, hr]; rfl⟩

/-! ## The end of a binding -/

theorem realise_ok {c : Ctx K} (hc : CtxOk g c) (ps : List (Ctx K → Except CErr (Form K)))
    (hp : ∀ f ∈ ps, ∃ k, k ≤ depth c ∧ Fok T Γ g k f) :
    (∀ fs, realise c ps = .ok fs → wfForms g (depth c) fs = true ∧ count fs = ps.length) ∧
    (T → scopes c = Γ → ∃ fs, realise c ps = .ok fs) := by
  induction ps with
  | nil => exact ⟨fun fs h => by cases h; exact ⟨rfl, rfl⟩, fun _ _ => ⟨_, rfl⟩⟩
  | cons p ps ih =>
    obtain ⟨k, hk, hf⟩ := hp p (by simp)
    obtain ⟨i1, i2⟩ := ih fun f hf => hp f (by simp [hf])
    refine ⟨fun fs h => ?_, fun t hs => ?_⟩
    · unfold realise at h
      split at h
      · cases h
      · rename_i f hpf
        split at h
        · cases h
        · rename_i fs' hfs
          cases h
          obtain ⟨a, b⟩ := i1 _ hfs
          simp only [wfForms, Bool.and_eq_true, count, List.length_cons]
          exact ⟨⟨hf.wf c hc hk f hpf, a⟩, by omega⟩
    · obtain ⟨f, hf⟩ := hf.total t c hs
      obtain ⟨fs, hfs⟩ := i2 t hs
      exact ⟨.cons f.head f.body fs, by unfold realise; rw [hf]; simp only [hfs]⟩

theorem isThunk_lt (fs : Forms K) (i : Nat) (h : isThunk fs i = true) : i < count fs := by
  match fs with
  | .nil => cases h
  | .cons hd b rest =>
    cases i with
    | zero => simp [count]
    | succ i =>
      have := isThunk_lt rest i h
      simp only [count]; omega

theorem seqs_ok {d : Nat} {fs : Forms K} {strict : List Nat} {s : Syn K} (h : Opt.wf g (d + count fs) s = true) :
    Opt.wf g (d + count fs) (seqs fs strict s) = true := by
  unfold seqs
  have : ∀ l : List Nat, (∀ i ∈ l, isThunk fs i = true) →
      Opt.wf g (d + count fs) (l.foldr (fun i s => .seq (.atom (.l i)) s) s) = true := by
    intro l hl
    induction l with
    | nil => exact h
    | cons i l ih =>
      simp only [List.foldr_cons, Opt.wf, Bool.and_eq_true, okRef, decide_eq_true_eq]
      have := isThunk_lt fs i (hl i (by simp))
      exact ⟨by omega, ih fun j hj => hl j (by simp [hj])⟩
  exact this _ fun i hi => (List.mem_filter.1 hi).2

theorem frame_ok {outer : Ctx K} (hi : Inv T Γ g B) (ho : CtxOk g outer) : CtxOk g (B.frame :: outer) :=
  ⟨fun r hr => okRef_mono (hi.refs r hr) (Nat.le_add_right _ _), ho⟩

theorem into_ok {outer : Ctx K} {Γ0 : List Nat} {body : Ctx K → Except CErr (Syn K)} (hi : Inv T Γ g B)
    (hΓ : Γ = if B.isScope then B.refs.length :: Γ0 else Γ0) (hb : Sok T Γ g B.protos.length body) :
    (∀ s, CtxOk g outer → intoStg B outer body = .ok s → Opt.wf g (depth outer) s = true) ∧
    (T → scopes outer = Γ0 → ∃ s, intoStg B outer body = .ok s) := by
  have hsc : scopes outer = Γ0 → scopes (B.frame :: outer) = Γ := by
    intro h
    rw [hΓ, ← h]
    rfl
  refine ⟨fun s ho h => ?_, fun t hs => ?_⟩
  · have hc : CtxOk g (if B.recursive then B.frame :: outer else outer) := by
      split
      · exact frame_ok hi ho
      · exact ho
    have hp : ∀ f ∈ B.protos, ∃ k, k ≤ depth (if B.recursive then B.frame :: outer else outer) ∧ Fok T Γ g k f := by
      intro f hf
      rcases hi.protos f hf with h | ⟨h1, h⟩
      · exact ⟨0, Nat.zero_le _, h⟩
      · rw [if_pos h1]
        exact ⟨_, Nat.le_add_right _ _, h⟩
    unfold intoStg at h
    split at h
    · cases h
    · rename_i fs hfs
      obtain ⟨w1, w2⟩ := (realise_ok hc _ hp).1 fs hfs
      split at h
      · cases h
      · rename_i s' hs'
        have w3 := hb.wf _ (frame_ok hi ho) (Nat.le_add_right _ _) s' hs'
        have e : depth (B.frame :: outer) = depth outer + count fs := by rw [w2]; exact Nat.add_comm _ _
        rw [e] at w3
        split at h
        · cases h
          simpa [count] using w3
        · cases h
          split
          · rename_i hr
            rw [if_pos hr, e] at w1
            simp only [Opt.wf, Bool.and_eq_true]
            exact ⟨w1, seqs_ok w3⟩
          · rename_i hr
            rw [if_neg hr] at w1
            simp only [Opt.wf, Bool.and_eq_true]
            exact ⟨w1, seqs_ok w3⟩
  · have hs' : scopes (if B.recursive then B.frame :: outer else outer) = Γ := by
      split
      · exact hsc hs
      · rename_i hr
        rw [hΓ, if_neg (fun h => hr (hi.scope h))]
        exact hs
    have hr : ∀ ps : List (Ctx K → Except CErr (Form K)), (∀ f ∈ ps, ∃ k, Fok T Γ g k f) →
        ∃ fs, realise (if B.recursive then B.frame :: outer else outer) ps = .ok fs := by
      intro ps
      induction ps with
      | nil => exact fun _ => ⟨_, rfl⟩
      | cons p ps ih =>
        intro h
        obtain ⟨k, hk⟩ := h p (by simp)
        obtain ⟨f, hf⟩ := hk.total t _ hs'
        obtain ⟨fs, hfs⟩ := ih fun f hf => h f (by simp [hf])
        exact ⟨.cons f.head f.body fs, by unfold realise; rw [hf]; simp only [hfs]⟩
    obtain ⟨fs, hfs⟩ := hr B.protos fun f hf => by
      rcases hi.protos f hf with h | ⟨_, h⟩
      · exact ⟨_, h⟩
      · exact ⟨_, h⟩
    obtain ⟨s, hs1⟩ := hb.total t _ (hsc hs)
    unfold intoStg
    rw [hfs]
    simp only [hs1]
    split
    · exact ⟨_, rfl⟩
    · exact ⟨_, rfl⟩

/-! ## The pieces -/

/-- What a body is compiled to. -/
def Bok (T : Prop) (Γ : List Nat) (g : Nat) (B : Binder K) (p : Proto K) : Prop := Sok T Γ g B.protos.length p.syn

theorem inv_root : Inv T Γ g (Binder.root : Binder K) :=
  ⟨fun _ => rfl, fun r hr => (by cases hr), fun f hf => (by cases hf)⟩
theorem inv_synthetic : Inv T Γ g (Binder.synthetic : Binder K) :=
  ⟨fun h => (by cases h), fun r hr => (by cases hr), fun f hf => (by cases hf)⟩
theorem inv_forScope : Inv T Γ g (Binder.forScope : Binder K) :=
  ⟨fun _ => rfl, fun r hr => (by cases hr), fun f hf => (by cases hf)⟩

theorem annIf_ok {d : Nat} {b : Bool} {n : Nat} {s : Syn K} (h : Opt.wf g d s = true) : Opt.wf g d (annIf b n s) = true := by
  unfold annIf; split <;> exact h

theorem lam_ok {cfg : Config K} {ann n : Nat} {body : C K (Proto K)} (hn : T → n ≤ 255)
    (hb : Safe T (n :: Γ) g .synthetic body (Bok T (n :: Γ) g)) : Fok T Γ g 0 (lamForm cfg ann n body) := by
  have hl : ∀ c : Ctx K, depth ((⟨true, (List.range n).map .l, n⟩ : Frame K) :: c) = depth c + n :=
    fun c => Nat.add_comm _ _
  refine ⟨fun c hc _ x hx => ?_, fun t c hc => ?_⟩
  · unfold lamForm at hx
    dsimp only at hx
    split at hx
    · cases hx
    · rename_i p B hB
      obtain ⟨i1, l1, p1, _⟩ := hb.ok _ _ hB inv_synthetic
      split at hx
      · cases hx
      · rename_i s hs
        have ho : CtxOk g ((⟨true, (List.range n).map .l, n⟩ : Frame K) :: c) := by
          refine ⟨fun r hr => ?_, hc⟩
          obtain ⟨i, hi, rfl⟩ := List.mem_map.1 hr
          have := List.mem_range.1 hi
          simp only [okRef, decide_eq_true_eq]
          omega
        have := (into_ok (Γ0 := n :: Γ) i1 (by rw [l1.isScope]; rfl) (p1 p rfl)).1 s ho hs
        split at hx
        · cases hx
          rw [hl] at this
          exact annIf_ok this
        · cases hx
  · unfold lamForm
    dsimp only
    obtain ⟨a, B, hB, i1, l1, p1, t1⟩ := hb.run inv_synthetic
    obtain ⟨p, rfl⟩ := t1 t
    · rw [hB]
      dsimp only
      obtain ⟨s, hs⟩ := (into_ok (outer := ⟨true, (List.range n).map .l, n⟩ :: c) (Γ0 := n :: Γ) i1 (by rw [l1.isScope]; rfl) (p1 p rfl)).2 t
        (by simp [scopes, hc])
      rw [hs]
      dsimp only
      rw [if_pos (hn t)]
      exact ⟨_, rfl⟩

/-- Function or argument of a call. -/
def Pok (T : Prop) (Γ : List Nat) (g : Nat) (B : Binder K) : PRef K → Prop
  | .var s i => T → ∃ n, Γ[s]? = some n ∧ i < n
  | .ref r => Rok g B r

theorem Pok.le {A : Binder K} {p} (h : Pok T Γ g A p) (hl : Le A B) : Pok T Γ g B p := by
  cases p with
  | var s i => exact h
  | ref r => exact Rok.le h hl

theorem Pok.take {p : PRef K} (h : Pok T Γ g B p) : (∀ c r, CtxOk g c → B.protos.length ≤ depth c → p.take c = .ok r →
    okRef g (depth c) r = true) ∧ (T → ∀ c, scopes c = Γ → ∃ r, p.take c = .ok r) := by
  cases p with
  | var s i =>
    refine ⟨fun c r hc _ hr => ctxLookup_ok hc hr, fun t c hc => ?_⟩
    obtain ⟨n, hn, hi⟩ := h t
    exact ctxLookup_total (by rw [hc]; exact hn) hi
  | ref r => exact ⟨fun c r' hc hk hr => by cases hr; exact okRef_mono h hk, fun _ _ _ => ⟨r, rfl⟩⟩

theorem takeAll_ok {ps : List (PRef K)} (h : ∀ p ∈ ps, Pok T Γ g B p) :
    (∀ c rs, CtxOk g c → B.protos.length ≤ depth c → takeAll c ps = .ok rs → rs.all (okRef g (depth c)) = true) ∧
    (T → ∀ c, scopes c = Γ → ∃ rs, takeAll c ps = .ok rs) := by
  induction ps with
  | nil => exact ⟨fun c rs _ _ h => by cases h; rfl, fun _ _ _ => ⟨_, rfl⟩⟩
  | cons p ps ih =>
    obtain ⟨a1, a2⟩ := Pok.take (h p (by simp))
    obtain ⟨b1, b2⟩ := ih fun q hq => h q (by simp [hq])
    refine ⟨fun c rs hc hk hr => ?_, fun t c hc => ?_⟩
    · unfold takeAll at hr
      split at hr
      · cases hr
      · rename_i r hp
        split at hr
        · cases hr
        · rename_i rs' hps
          cases hr
          simp only [List.all_cons, Bool.and_eq_true]
          exact ⟨a1 c r hc hk hp, b1 c rs' hc hk hps⟩
    · obtain ⟨r, hr⟩ := a2 t c hc
      obtain ⟨rs, hrs⟩ := b2 t c hc
      exact ⟨r :: rs, by unfold takeAll; rw [hr]; simp only [hrs]⟩

theorem atoms_ok {d : Nat} {rs : List (Ref K)} (h : rs.all (okRef g d) = true) :
    wfForms g d (atoms rs) = true ∧ count (atoms rs) = rs.length := by
  induction rs with
  | nil => exact ⟨rfl, rfl⟩
  | cons r rs ih =>
    simp only [List.all_cons, Bool.and_eq_true] at h
    obtain ⟨a, b⟩ := ih h.2
    simp only [atoms, wfForms, Opt.wf, Bool.and_eq_true, count, List.length_cons]
    exact ⟨⟨h.1, a⟩, by omega⟩

theorem callSyn_ok {cfg : Config K} (ht : Tables cfg g) {smid f self r} {rs : List (Ref K)} {d : Nat} (hr : okRef g d r = true)
    (hrs : rs.all (okRef g d) = true) : Opt.wf g d (callSyn cfg smid f self r rs) = true := by
  have hcall : ∀ (c : Bool) (e : Bool), Opt.wf g d (if c = true then Syn.dapp smid r rs e else .app r rs e) = true := by
    intro c e
    split <;> simp only [Opt.wf, Bool.and_eq_true] <;> exact ⟨hr, hrs⟩
  unfold callSyn
  dsimp only
  split
  · exact hcall _ _
  · split
    · exact hcall _ _
    · rename_i w hw
      split
      · rename_i hc
        simp only [Bool.and_eq_true, beq_iff_eq] at hc
        have hlet : Opt.wf g d (.let_ (atoms rs) w.body) = true := by
          obtain ⟨a, b⟩ := atoms_ok hrs
          simp only [Opt.wf, Bool.and_eq_true]
          exact ⟨a, wf_mono _ (ht.wrapper _ w hw hc.1.2) (by omega)⟩
        split
        · split
          · simp only [List.all_cons, List.all_nil, Bool.and_eq_true] at hrs
            simp only [Opt.wf, Bool.and_eq_true]
            exact ⟨hrs.1, hrs.2.1⟩
          · exact hlet
        · exact hlet
      · exact hcall _ _

theorem app_ok {cfg : Config K} (ht : Tables cfg g) {smid f self} {fn : C K (PRef K)} {args : C K (List (PRef K))}
    (hf : ∀ B, Safe T Γ g B fn (Pok T Γ g)) (ha : ∀ B, Safe T Γ g B args fun B ps => ∀ p ∈ ps, Pok T Γ g B p) :
    Sok T Γ g 0 (appSyn cfg smid f self fn args) := by
  have hs : Safe T Γ g .synthetic (fn.bind fun pf => args.bind fun ps => C.pure (pf, ps))
      fun B (p : PRef K × List (PRef K)) => Pok T Γ g B p.1 ∧ ∀ q ∈ p.2, Pok T Γ g B q :=
    .bind (hf _) fun pf B1 _ h1 => .bind (ha _) fun ps B2 l2 h2 => .pure ⟨h1.le l2, h2⟩
  have hb : ∀ B pf ps, (Pok T Γ g B pf ∧ ∀ q ∈ ps, Pok T Γ g B q) → Sok T Γ g B.protos.length (callBody cfg smid f self pf ps) := by
    intro B pf ps ⟨h1, h2⟩
    obtain ⟨a1, a2⟩ := h1.take
    obtain ⟨b1, b2⟩ := takeAll_ok h2
    refine ⟨fun c hc hk x hx => ?_, fun t c hc => ?_⟩
    · unfold callBody at hx
      split at hx
      · cases hx
      · rename_i r hr
        split at hx
        · cases hx
        · rename_i rs hrs
          cases hx
          exact callSyn_ok ht (a1 c r hc hk hr) (b1 c rs hc hk hrs)
    · obtain ⟨r, hr⟩ := a2 t c hc
      obtain ⟨rs, hrs⟩ := b2 t c hc
      exact ⟨callSyn cfg smid f self r rs, by unfold callBody; rw [hr]; simp only [hrs]⟩
  obtain ⟨a, B, hB, i1, l1, p1, t1⟩ := hs.run inv_synthetic
  refine ⟨fun c hc _ x hx => ?_, fun t c hc => ?_⟩
  · unfold appSyn at hx
    rw [hB] at hx
    cases a with
    | error e => cases hx
    | ok pp =>
      obtain ⟨pf, ps⟩ := pp
      dsimp only at hx
      cases hi : intoStg B c (callBody cfg smid f self pf ps) with
      | error e => rw [hi] at hx; cases hx
      | ok s =>
        rw [hi] at hx
        cases hx
        exact annIf_ok ((into_ok (Γ0 := Γ) i1 (by rw [l1.isScope]; rfl) (hb B pf ps (p1 _ rfl))).1 s hc hi)
  · unfold appSyn
    obtain ⟨⟨pf, ps⟩, rfl⟩ := t1 t
    · rw [hB]
      dsimp only
      obtain ⟨s, hs⟩ := (into_ok (outer := c) (Γ0 := Γ) i1 (by rw [l1.isScope]; rfl) (hb B pf ps (p1 _ rfl))).2 t hc
      rw [hs]
      exact ⟨_, rfl⟩

theorem safe_freeVar {cfg : Config K} (ht : Tables cfg g) {name} (h : T → (cfg.prelude name).isSome = true) :
    Safe T Γ g B (C.of (freeVar cfg name)) (Rok g) := by
  refine .of (fun r hr => ?_) fun t => ?_
  · unfold freeVar at hr
    split at hr
    · rename_i i hi
      cases hr
      simp only [Rok, okRef, decide_eq_true_eq]
      exact ht.prelude name i hi
    · cases hr
  · obtain ⟨i, hi⟩ := Option.isSome_iff_exists.1 (h t)
    exact ⟨.g (cfg.base + i), by unfold freeVar; rw [hi]⟩

theorem safe_intrinsicRef {cfg : Config K} (ht : Tables cfg g) {name} (h : T → (cfg.index name).isSome = true) :
    Safe T Γ g B (C.of (intrinsicRef cfg name)) (Rok g) := by
  refine .of (fun r hr => ?_) fun t => ?_
  · unfold intrinsicRef at hr
    split at hr
    · rename_i i hi
      cases hr
      simp only [Rok, okRef, decide_eq_true_eq]
      exact ht.index name i hi
    · cases hr
  · obtain ⟨i, hi⟩ := Option.isSome_iff_exists.1 (h t)
    exact ⟨.g i, by unfold intrinsicRef; rw [hi]⟩

theorem closed_var {cfg : Config K} {s i : Nat} {name} (h : T → closed cfg Γ (.var s i name) = true) :
    T → ∃ n, Γ[s]? = some n ∧ i < n := by
  intro t
  have := h t
  unfold closed at this
  split at this
  · rename_i n hn
    exact ⟨n, hn, by simpa using this⟩
  · cases this

theorem safe_direct {cfg : Config K} (ht : Tables cfg g) {x : Exp K} {m : C K (PRef K)} (hx : T → closed cfg Γ x = true)
    (h : Safe T Γ g B m (Pok T Γ g)) : Safe T Γ g B (direct cfg x m) (Pok T Γ g) := by
  unfold direct
  split
  · exact .pure (closed_var hx)
  · exact .bind (safe_freeVar ht hx) fun r B1 _ h1 => .pure h1
  · exact .bind (safe_intrinsicRef ht hx) fun r B1 _ h1 => .pure h1
  · exact h

theorem literal_ok (p : Prim K) : Opt.wf g 0 (boxedLiteral p) = true := by
  match p with
  | .num _ | .str _ | .sym _ | .bool true | .bool false | .null | .typeData _ => rfl

theorem okRef_v {d : Nat} {k : K} : okRef g d (.v k) = true := rfl

theorem lookupFail_ok {cfg : Config K} (ht : Tables cfg g) {smid key} {o : Ref K} {d : Nat} (h : okRef g d o = true) :
    Opt.wf g d (lookupFail cfg smid key o) = true := by
  refine annIf_ok ?_
  have := ht.lookupFail
  simp [Opt.wf, okRef, this]
  exact h

theorem safe_lookupEnd {cfg : Config K} (ht : Tables cfg g) {smid key} {o d : Ref K} (hr : B.recursive = true) (ho : Rok g B o)
    (hd : Rok g B d) : Safe T Γ g B (lookupEnd cfg smid key o d) fun B s => B.recursive = true ∧ Opt.wf g B.protos.length s = true := by
  refine .bind (safe_add hr (annIf_ok ?_)) fun r B1 l1 h1 => .pure ⟨l1.recu hr, ?_⟩
  · have := ht.lookupOr
    simp only [Opt.wf, Bool.and_eq_true, List.all_cons, List.all_nil]
    exact ⟨by simpa [okRef] using this, rfl, hd, ho, trivial⟩
  · simp only [Opt.wf, Bool.and_eq_true]
    exact ⟨⟨rfl, ho.le l1⟩, h1⟩

theorem safe_lookupSyn {cfg : Config K} (ht : Tables cfg g) {smid key} {obj : C K (Ref K)} {dft : Option (C K (Ref K))}
    (ho : ∀ B, Safe T Γ g B obj (Rok g)) (hd : ∀ m, dft = some m → ∀ B, Safe T Γ g B m (Rok g)) :
    Safe T Γ g B (lookupSyn cfg smid key obj dft) fun B s => B.recursive = true ∧ Opt.wf g B.protos.length s = true := by
  refine .bind safe_ensureRec fun _ B1 _ r1 => .bind (ho B1) fun o B2 l2 o2 => ?_
  have r2 := l2.recu r1
  cases dft with
  | none =>
    exact .bind (safe_add r2 (lookupFail_ok ht o2)) fun d B3 l3 d3 => safe_lookupEnd ht (l3.recu r2) (o2.le l3) d3
  | some m =>
    refine ⟨fun B' a h hi => ?_⟩
    have hm := (hd m rfl B2).ok _ _ rfl hi
    dsimp only at h
    split at h
    · rename_i d B3 hb
      rw [hb] at hm
      obtain ⟨i3, l3, p3, _⟩ := hm
      obtain ⟨a1, a2, a3, a4⟩ := (safe_lookupEnd ht (l3.recu r2) (o2.le l3) (p3 d rfl)).ok _ _ h i3
      exact ⟨a1, l3.trans a2, a3, a4⟩
    · rename_i e B3 hb
      rw [hb] at hm
      obtain ⟨i3, l3, _, t3⟩ := hm
      have hk : Safe T Γ g B3 ((add cfg (lookupFail cfg smid key o)).bind fun d => lookupEnd cfg smid key o d)
          fun B s => B.recursive = true ∧ Opt.wf g B.protos.length s = true :=
        .bind (safe_add (l3.recu r2) (lookupFail_ok ht (o2.le l3))) fun d B4 l4 d4 =>
          safe_lookupEnd ht (l4.recu (l3.recu r2)) ((o2.le l3).le l4) d4
      obtain ⟨a1, a2, a3, a4⟩ := hk.ok _ _ h i3
      exact ⟨a1, l3.trans a2, a3, a4⟩
    · rename_i e B3 _ hb
      rw [hb] at hm
      obtain ⟨i3, l3, _, t3⟩ := hm
      cases h
      refine ⟨i3, l3, fun x hx => (by cases hx), fun t => ?_⟩
      obtain ⟨y, hy⟩ := t3 t
      cases hy

end

/-! ## The compiler -/

/-- What binding the names of a let does. -/
structure LetsOk (T : Prop) (Γ : List Nat) (g n : Nat) (m : C K Unit) : Prop where
  ok : ∀ B B' a, m B = (a, B') → Inv T Γ g B → Inv T Γ g B' ∧ B'.isScope = B.isScope ∧
    (a = .ok () → B'.refs.length = B.refs.length + n) ∧ (T → a = .ok ())

theorem let_ok {T : Prop} {Γ : List Nat} {g n : Nat} {binds : C K Unit} {body : C K (Proto K)}
    (hl : LetsOk T (n :: Γ) g n binds) (hb : ∀ B, Safe T (n :: Γ) g B body (Bok T (n :: Γ) g)) : Sok T Γ g 0 (letSyn binds body) := by
  have key : ∀ c, (∀ s, CtxOk g c → letSyn binds body c = .ok s → Opt.wf g (depth c) s = true) ∧
      (T → scopes c = Γ → ∃ s, letSyn binds body c = .ok s) := by
    intro c
    unfold letSyn
    unfold C.bind
    obtain ⟨a, B1, hB1, i1, s1, r1, t1⟩ : ∃ a B1, binds .forScope = (a, B1) ∧ Inv T (n :: Γ) g B1 ∧ B1.isScope = true ∧
        (a = .ok () → B1.refs.length = 0 + n) ∧ (T → a = .ok ()) := ⟨_, _, rfl, hl.ok .forScope _ _ rfl inv_forScope⟩
    rw [hB1]
    cases a with
    | error e => exact ⟨fun s _ h => (by cases h), fun t => (by cases t1 t)⟩
    | ok u =>
      obtain ⟨a2, B2, hB2, i2, l2, p2, t2⟩ := (hb B1).run i1
      dsimp only
      rw [hB2]
      cases a2 with
      | error e => exact ⟨fun s _ h => (by cases h), fun t => (by obtain ⟨y, hy⟩ := t2 t; cases hy)⟩
      | ok p =>
        have := into_ok (outer := c) (Γ0 := Γ) i2 (by
          rw [l2.isScope, s1, l2.refs, r1 rfl]
          simp) (p2 p rfl)
        exact ⟨fun s hc h => this.1 s hc h, this.2⟩
  exact ⟨fun c hc _ x hx => (key c).1 x hc hx, fun t c hc => (key c).2 t hc⟩

section
variable {cfg : Config K} {g : Nat} (ht : Tables cfg g) (T : Prop)

theorem and_left {a b : Bool} (h : T → (a && b) = true) : T → a = true := fun t => ((Bool.and_eq_true _ _).mp (h t)).1
theorem and_right {a b : Bool} (h : T → (a && b) = true) : T → b = true := fun t => ((Bool.and_eq_true _ _).mp (h t)).2

include ht
mutual
theorem safe_bodyE (x : Exp K) (Γ : List Nat) (self : Option String) (hx : T → closed cfg Γ x = true) (B : Binder K) :
    Safe T Γ g B (bodyE cfg x self) (Bok T Γ g) := by
  match x with
  | .let_ bs body =>
    unfold bodyE
    exact .pure ((let_ok (safe_bindLets bs _ self (and_left T hx)) fun B => safe_bodyE body _ self (and_right T hx) B).mono
      (Nat.zero_le _))
  | .var s i n =>
    unfold bodyE
    exact .pure ((var_ok (closed_var hx) cfg).mono (Nat.zero_le _))
  | .free name =>
    unfold bodyE
    exact .bind (safe_freeVar ht hx) fun r B1 _ h1 => .pure (holder_ok h1)
  | .app smid f args =>
    unfold bodyE
    exact .pure ((app_ok ht (fun B => safe_direct ht (and_left T hx)
      (.bind (safe_bindE f Γ _ _ _ (and_left T hx) B) fun r B1 _ h1 => .pure (show Pok T Γ g B1 (.ref r) from h1)))
      fun B => safe_bindArgs args Γ smid _ 0 self (and_right T hx) B).mono (Nat.zero_le _))
  | .lit p => unfold bodyE; exact .pure (holder_ok (wf_mono _ (literal_ok p) (Nat.zero_le _)))
  | .lam smid n body =>
    unfold bodyE
    have hf : Fok T Γ g 0 (lamForm cfg smid n (bodyE cfg body self)) :=
      lam_ok (fun t => by simpa using and_left T hx t) (safe_bodyE body (n :: Γ) self (and_right T hx) _)
    refine .pure ⟨fun c hc _ x hx => ?_, fun t c hc => ?_⟩
    · simp only [Proto.ofForm] at hx
      cases hs : lamForm cfg smid n (bodyE cfg body self) c with
      | error e => rw [hs] at hx; cases hx
      | ok f =>
        rw [hs] at hx
        cases hx
        simp only [wf, wfForms, Bool.and_eq_true, count, okRef]
        exact ⟨⟨hf.wf c hc (Nat.zero_le _) f hs, trivial⟩, by simp⟩
    · obtain ⟨f, hf⟩ := hf.total t c hc
      exact ⟨_, by simp only [Proto.ofForm, hf]; rfl⟩
  | .list smid xs =>
    unfold bodyE
    refine .bind safe_ensureRec fun _ B1 _ r1 => .bind (safe_bindItems xs Γ smid hx B1 r1) fun last B2 _ h2 => .pure (holder_ok ?_)
    cases last with
    | some d => exact h2.2 d rfl
    | none => have := ht.empty; simpa [wf, okRef] using this
  | .block smid kvs =>
    unfold bodyE
    refine .bind safe_ensureRec fun _ B1 _ r1 => .bind (safe_bindKvs kvs Γ smid hx B1 r1) fun r B2 _ h2 => .pure (holder_ok ?_)
    simp only [wf, Bool.and_eq_true, List.all_cons, List.all_nil]
    exact ⟨⟨h2.2, rfl, trivial⟩, rfl⟩
  | .intrinsic name =>
    unfold bodyE
    exact .bind (safe_intrinsicRef ht hx) fun r B1 _ h1 => .pure (holder_ok h1)
  | .lookup smid obj key =>
    unfold bodyE
    exact .bind (safe_lookupSyn ht (safe_bindE obj Γ _ _ _ hx) fun m h => (by cases h)) fun s B1 _ h1 => .pure (holder_ok h1.2)
  | .lookupOr smid obj key dft =>
    unfold bodyE
    exact .bind (safe_lookupSyn ht (safe_bindE obj Γ _ _ _ (and_left T hx)) fun m h => by
      cases h; exact safe_bindE dft Γ _ _ _ (and_right T hx)) fun s B1 _ h1 => .pure (holder_ok h1.2)
  | .metaOf smid body m =>
    unfold bodyE
    refine .bind (safe_bindE m Γ _ _ _ (and_right T hx) B) fun r B1 _ h1 =>
      .bind (safe_bindE body Γ _ _ _ (and_left T hx) B1) fun b B2 l2 h2 => .pure (holder_ok ?_)
    simp only [wf, Bool.and_eq_true]
    exact ⟨h1.le l2, h2⟩
  | .operator _ body => unfold bodyE; exact safe_bodyE body Γ self hx B
  | .other => unfold bodyE; exact .fail fun t => by cases hx t
termination_by structural x

theorem safe_bindE (x : Exp K) (Γ : List Nat) (ann : Nat) (d : Demand) (self : Option String) (hx : T → closed cfg Γ x = true)
    (B : Binder K) : Safe T Γ g B (bindE cfg x ann d self) (Rok g) := by
  match x with
  | .var s i n =>
    unfold bindE
    have hv : Safe T Γ g B (addDeferred (protoVar cfg s i).form) (Rok g) :=
      safe_addDeferred (.inl (var_ok (closed_var hx) cfg).form)
    refine ⟨fun B' a h hi => ?_⟩
    split at h
    · split at h
      · rename_i r hr
        cases h
        refine ⟨hi, .refl _, fun x hx => ?_, fun _ => ⟨_, rfl⟩⟩
        cases hx
        unfold Binder.running at hr
        split at hr
        · exact hi.refs r (List.mem_of_getElem? hr)
        · cases hr
      · exact hv.ok _ _ h hi
    · exact hv.ok _ _ h hi
  | .free name => unfold bindE; exact safe_freeVar ht hx
  | .intrinsic name => unfold bindE; exact safe_intrinsicRef ht hx
  | .let_ bs body =>
    unfold bindE
    exact safe_addDeferred (.inl (Sok.form (let_ok (safe_bindLets bs _ self (and_left T hx)) fun B =>
      safe_bodyE body _ self (and_right T hx) B)))
  | .lam _ n body =>
    unfold bindE
    exact safe_addDeferred (.inl (lam_ok (fun t => by simpa using and_left T hx t)
      (safe_bodyE body (n :: Γ) self (and_right T hx) _)))
  | .app smid f args =>
    unfold bindE
    exact safe_addDeferred (.inl (Sok.form (app_ok ht (fun B => safe_direct ht (and_left T hx)
      (.bind (safe_bindE f Γ _ _ _ (and_left T hx) B) fun r B1 _ h1 => .pure (show Pok T Γ g B1 (.ref r) from h1)))
      fun B => safe_bindArgs args Γ smid _ 0 self (and_right T hx) B)))
  | .lit p => unfold bindE; exact safe_addClosed (literal_ok p)
  | .list smid xs =>
    unfold bindE
    refine .bind safe_ensureRec fun _ B1 _ r1 => .bind (safe_bindItems xs Γ smid hx B1 r1) fun last B2 l2 h2 => ?_
    cases last with
    | some d => exact safe_add (l2.recu r1) (h2.2 d rfl)
    | none => exact .pure (by have := ht.empty; simpa [Rok, okRef] using this)
  | .block smid kvs =>
    unfold bindE
    refine .bind safe_ensureRec fun _ B1 _ r1 => .bind (safe_bindKvs kvs Γ smid hx B1 r1) fun r B2 l2 h2 =>
      safe_add (l2.recu r1) ?_
    simp only [wf, Bool.and_eq_true, List.all_cons, List.all_nil]
    exact ⟨⟨h2.2, rfl, trivial⟩, rfl⟩
  | .lookup smid obj key =>
    unfold bindE
    exact .bind (safe_lookupSyn ht (safe_bindE obj Γ _ _ _ hx) fun m h => (by cases h)) fun s B1 _ h1 => safe_add h1.1 h1.2
  | .lookupOr smid obj key dft =>
    unfold bindE
    exact .bind (safe_lookupSyn ht (safe_bindE obj Γ _ _ _ (and_left T hx)) fun m h => by
      cases h; exact safe_bindE dft Γ _ _ _ (and_right T hx)) fun s B1 _ h1 => safe_add h1.1 h1.2
  | .metaOf smid body m =>
    unfold bindE
    refine .bind safe_ensureRec fun _ B0 _ r0 => .bind (safe_bindE m Γ _ _ _ (and_right T hx) B0) fun r B1 l1 h1 =>
      .bind (safe_bindE body Γ _ _ _ (and_left T hx) B1) fun b B2 l2 h2 => safe_add (l2.recu (l1.recu r0)) ?_
    simp only [wf, Bool.and_eq_true]
    exact ⟨h1.le l2, h2⟩
  | .operator _ body => unfold bindE; exact safe_bindE body Γ _ _ _ hx B
  | .other => unfold bindE; exact .fail fun t => by cases hx t
termination_by structural x

theorem safe_bindArgs (xs : Exps K) (Γ : List Nat) (smid : Nat) (sig : Option Sig) (i : Nat) (self : Option String)
    (hx : T → closedAll cfg Γ xs = true) (B : Binder K) :
    Safe T Γ g B (bindArgs cfg xs smid sig i self) fun B ps => ∀ p ∈ ps, Pok T Γ g B p := by
  match xs with
  | .nil => unfold bindArgs; exact .pure fun p hp => by cases hp
  | .cons x xs =>
    unfold bindArgs
    refine .bind (safe_direct ht (and_left T hx) (.bind (safe_bindE x Γ _ _ _ (and_left T hx) B) fun r B1 l1 h1 =>
      .bind (safe_markStrict _ _) fun _ B2 l2 _ => .pure (show Pok T Γ g B2 (.ref r) from Rok.le h1 l2))) fun p B3 _ h3 =>
      .bind (safe_bindArgs xs Γ smid sig (i + 1) self (and_right T hx) B3) fun ps B4 l4 h4 => .pure fun q hq => ?_
    simp only [List.mem_cons] at hq
    rcases hq with rfl | hq
    · exact h3.le l4
    · exact h4 q hq
termination_by structural xs

theorem safe_bindLets (bs : Binds K) (Γ : List Nat) (self : Option String) (hx : T → closedBinds cfg Γ bs = true) :
    LetsOk T Γ g (bindings bs).length (bindLets cfg bs self) := by
  match bs with
  | .nil =>
    unfold bindLets
    exact ⟨fun B B' a h hi => by cases h; exact ⟨hi, rfl, fun _ => rfl, fun _ => rfl⟩⟩
  | .cons name d x rest =>
    refine ⟨fun B B' a h hi => ?_⟩
    have hrest := safe_bindLets rest Γ self (and_right T hx)
    unfold bindLets at h
    unfold C.bind at h
    obtain ⟨a1, B1, hB1, i1, l1, p1, t1⟩ :=
      (safe_bindE x Γ x.smid d (if d.recursive then some name else self) (and_left T hx) B).run hi
    rw [hB1] at h
    cases a1 with
    | error e =>
      cases h
      exact ⟨i1, l1.isScope, fun h => (by cases h), fun t => by obtain ⟨y, hy⟩ := t1 t; cases hy⟩
    | ok r =>
      dsimp only at h
      obtain ⟨a2, B2, hB2, i2, l2, _, t2⟩ := (safe_markStrict (T := T) (Γ := Γ) (g := g) (B := B1) d r).run i1
      rw [hB2] at h
      cases a2 with
      | error e =>
        cases h
        exact ⟨i2, l2.isScope.trans l1.isScope, fun h => (by cases h), fun t => by obtain ⟨y, hy⟩ := t2 t; cases hy⟩
      | ok u =>
        simp only [addVar] at h
        have i3 : Inv T Γ g { B2 with refs := B2.refs ++ [r] } := by
          refine ⟨i2.scope, fun r' hr' => ?_, i2.protos⟩
          simp only [List.mem_append, List.mem_singleton] at hr'
          rcases hr' with hr' | rfl
          · exact i2.refs _ hr'
          · exact okRef_mono (p1 _ rfl) l2.length
        obtain ⟨a1, a2, a3, a4⟩ := hrest.ok _ _ _ h i3
        refine ⟨a1, a2.trans (l2.isScope.trans l1.isScope), fun ha => ?_, a4⟩
        rw [a3 ha]
        simp only [List.length_append, l2.refs, l1.refs, bindings, List.length_cons, List.length_nil]
        omega
termination_by structural bs

theorem safe_bindItems (xs : Exps K) (Γ : List Nat) (smid : Nat) (hx : T → closedAll cfg Γ xs = true) (B : Binder K)
    (hr : B.recursive = true) : Safe T Γ g B (bindItems cfg xs smid)
      fun B last => B.recursive = true ∧ ∀ d, last = some d → wf g B.protos.length d = true := by
  match xs with
  | .nil => unfold bindItems; exact .pure ⟨hr, fun d hd => by cases hd⟩
  | .cons x xs =>
    unfold bindItems
    refine .bind (safe_bindItems xs Γ smid (and_right T hx) B hr) fun last B1 l1 h1 => .bind (mid := Rok g) ?_ fun t B2 l2 h2 =>
      .bind (safe_bindE x Γ _ _ _ (and_left T hx) B2) fun h B3 l3 h3 => .pure ⟨l3.recu (l2.recu h1.1), fun d hd => ?_⟩
    · cases last with
      | some d => exact safe_add h1.1 (h1.2 d rfl)
      | none => exact .pure (by have := ht.empty; simpa [Rok, okRef] using this)
    · cases hd
      simp only [wf, Bool.and_eq_true, List.all_cons, List.all_nil]
      exact ⟨⟨h3, h2.le l3, trivial⟩, rfl⟩
termination_by structural xs

theorem safe_bindKvs (kvs : Kvs K) (Γ : List Nat) (smid : Nat) (hx : T → closedKvs cfg Γ kvs = true) (B : Binder K)
    (hr : B.recursive = true) : Safe T Γ g B (bindKvs cfg kvs smid) fun B r => B.recursive = true ∧ Rok g B r := by
  match kvs with
  | .nil => unfold bindKvs; exact .pure ⟨hr, by have := ht.empty; simpa [Rok, okRef] using this⟩
  | .cons k x rest =>
    unfold bindKvs
    refine .bind (safe_bindKvs rest Γ smid (and_right T hx) B hr) fun t B1 l1 h1 =>
      .bind (safe_bindE x Γ _ _ _ (and_left T hx) B1) fun v B2 l2 h2 =>
      .bind (safe_add (l2.recu h1.1) ?_) fun kv B3 l3 h3 => ⟨fun B' a h hi => ?_⟩
    · simp only [wf, Bool.and_eq_true, List.all_cons, List.all_nil]
      exact ⟨⟨rfl, h2, trivial⟩, rfl⟩
    · have r3 := l3.recu (l2.recu h1.1)
      obtain ⟨a1, a2, a3, a4⟩ := (safe_add (T := T) (Γ := Γ) (cfg := cfg) (s := .cons 7 [kv, t]) r3 (by
        simp only [wf, Bool.and_eq_true, List.all_cons, List.all_nil]
        exact ⟨⟨h3, (h1.2.le l2).le l3, trivial⟩, rfl⟩)).ok _ _ h hi
      exact ⟨a1, a2, fun x hx => ⟨a2.recu r3, a3 x hx⟩, a4⟩
termination_by structural kvs
end
end

theorem compile_ok (cfg : Config K) (g : Nat) (ht : Tables cfg g) (x : Exp K) :
    (∀ c, compile cfg x = .ok c → wf g 0 c = true) ∧ (closed cfg [] x = true → ∃ c, compile cfg x = .ok c) := by
  have hcall : ∀ (i : Nat) (r : Ref K) (B : Binder K), i < g → Rok g B r →
      Sok (closed cfg [] x = true) [] g B.protos.length (fun _ => .ok (.app (.g i) [r] false)) := by
    intro i r B hi hr
    refine ⟨fun c _ hk y hy => ?_, fun _ _ _ => ⟨_, rfl⟩⟩
    cases hy
    simp only [wf, Bool.and_eq_true, List.all_cons, List.all_nil]
    exact ⟨by simpa [okRef] using hi, okRef_mono hr hk, trivial⟩
  have hdoc : ∀ i, i < g → (∀ c, (match bindE cfg x x.smid {} none .root with
        | (.error e, _) => .error e
        | (.ok r, b) => intoStg b [] fun _ => .ok (.app (.g i) [r] false)) = Except.ok c → wf g 0 c = true) ∧
      (closed cfg [] x = true → ∃ c, (match bindE cfg x x.smid {} none .root with
        | (.error e, _) => .error e
        | (.ok r, b) => intoStg b [] fun _ => .ok (.app (.g i) [r] false)) = Except.ok c) := by
    intro i hi
    obtain ⟨a, B, hB, i1, l1, p1, t1⟩ := (safe_bindE ht (closed cfg [] x = true) x [] x.smid {} none id .root).run inv_root
    rw [hB]
    cases a with
    | error e => exact ⟨fun c h => (by cases h), fun t => (by obtain ⟨y, hy⟩ := t1 t; cases hy)⟩
    | ok r =>
      have := into_ok (outer := []) (Γ0 := []) i1 (by rw [l1.isScope]; rfl) (hcall i r B hi (p1 r rfl))
      exact ⟨fun c h => this.1 c trivial h, fun t => this.2 t rfl⟩
  unfold compile
  split
  · obtain ⟨a, B, hB, i1, l1, p1, t1⟩ := (safe_bodyE ht (closed cfg [] x = true) x [] none id .root).run inv_root
    rw [hB]
    cases a with
    | error e => exact ⟨fun c h => (by cases h), fun t => (by obtain ⟨y, hy⟩ := t1 t; cases hy)⟩
    | ok p =>
      have := into_ok (outer := []) (Γ0 := []) i1 (by rw [l1.isScope]; rfl) (p1 p rfl)
      exact ⟨fun c h => this.1 c trivial h, fun t => this.2 t rfl⟩
  · exact hdoc _ ht.doc
  · exact hdoc _ ht.fragment

end Verif.Comp.Scope
