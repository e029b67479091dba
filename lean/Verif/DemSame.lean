import Verif.DemWalk

/-!
# Demands play no part in what an expression means

Proofs only.
-/

namespace Verif.Dem
open Verif.Comp Verif.Bc
variable {K : Type}

/-- Lists of the same length with related items. -/
inductive Pairs {A : Type} (R : A → A → Prop) : List A → List A → Prop where
  | nil : Pairs R [] []
  | cons {a b l m} : R a b → Pairs R l m → Pairs R (a :: l) (b :: m)

mutual
/-- The same value, apart from demands. -/
inductive VS : Val K → Val K → Prop where
  | nat {k} : VS (.nat k) (.nat k)
  | clo {a c e e'} : ES e e' → VS (.clo a c e) (.clo a c e')
  | exp {x y ρ ρ'} : bare x = bare y → SS ρ ρ' → VS (.exp x ρ) (.exp y ρ')
  | con {t vs vs'} : Pairs VS vs vs' → VS (.con t vs) (.con t vs')
  | note {m m' b b'} : VS m m' → VS b b' → VS (.note m b) (.note m' b')
inductive ES : Env K → Env K → Prop where
  | nil : ES .nil .nil
  | cons {v v' e e'} : VS v v' → ES e e' → ES (.cons v e) (.cons v' e')
  | recs {fs e e'} : ES e e' → ES (.recs fs e) (.recs fs e')
inductive SS : Scopes K → Scopes K → Prop where
  | nil : SS .nil .nil
  | args {vs vs' ρ ρ'} : Pairs VS vs vs' → SS ρ ρ' → SS (.args vs ρ) (.args vs' ρ')
  | recs {bs bs' ρ ρ'} : bareBinds bs = bareBinds bs' → SS ρ ρ' → SS (.recs bs ρ) (.recs bs' ρ')
end

/-- Related, or the same error. -/
inductive XS {A : Type} (R : A → A → Prop) : Except Sem.Err A → Except Sem.Err A → Prop where
  | ok {a b} : R a b → XS R (.ok a) (.ok b)
  | error {x} : XS R (.error x) (.error x)

inductive OS {A : Type} (R : A → A → Prop) : Option A → Option A → Prop where
  | none : OS R .none .none
  | some {a b} : R a b → OS R (.some a) (.some b)

section
variable {A : Type} {R : A → A → Prop}
theorem Pairs.length {l m : List A} (h : Pairs R l m) : l.length = m.length := by
  induction h with
  | nil => rfl
  | cons _ _ ih => simp [ih]

theorem Pairs.get {l m : List A} (h : Pairs R l m) (i : Nat) : OS R l[i]? m[i]? := by
  induction h generalizing i with
  | nil => exact .none
  | cons h _ ih =>
    cases i with
    | zero => exact .some h
    | succ i => simpa using ih i

theorem Pairs.append {a b c d : List A} (h : Pairs R a b) (h' : Pairs R c d) : Pairs R (a ++ c) (b ++ d) := by
  induction h with
  | nil => exact h'
  | cons h _ ih => exact .cons h ih

theorem Pairs.take {a b : List A} (h : Pairs R a b) (n : Nat) : Pairs R (a.take n) (b.take n) := by
  induction h generalizing n with
  | nil => simp; exact .nil
  | cons h _ ih =>
    cases n with
    | zero => exact .nil
    | succ n => exact .cons h (ih n)

theorem Pairs.drop {a b : List A} (h : Pairs R a b) (n : Nat) : Pairs R (a.drop n) (b.drop n) := by
  induction h generalizing n with
  | nil => simp; exact .nil
  | cons h h' ih =>
    cases n with
    | zero => exact .cons h h'
    | succ n => exact ih n

theorem Pairs.map {B : Type} {f g : B → A} (l : List B) (h : ∀ b, R (f b) (g b)) : Pairs R (l.map f) (l.map g) := by
  induction l with
  | nil => exact .nil
  | cons b l ih => exact .cons (h b) ih
end

/-! ## Environments -/

theorem ES.consAll {vs vs' : List (Val K)} {e e' : Env K} (hv : Pairs VS vs vs') (he : ES e e') :
    ES (consAll vs e) (consAll vs' e') := by
  induction hv with
  | nil => exact he
  | cons h _ ih => exact .cons h ih

theorem close_same {f : Form K} {e e' : Env K} (he : ES e e') : VS (close f e) (close f e') := .clo he

theorem lookup_same {e e' : Env K} (h : ES e e') (i : Nat) : OS VS (lookup e i) (lookup e' i) := by
  match e, e', h with
  | _, _, .nil => exact .none
  | _, _, .cons hv he =>
    unfold lookup
    split
    · exact .some hv
    · exact lookup_same he _
  | _, _, .recs he =>
    unfold lookup
    split
    · exact .some (close_same (.recs he))
    · exact lookup_same he _

theorem bindings_bare (bs : Binds K) : bindings (bareBinds bs) = (bindings bs).map bare := by
  match bs with
  | .nil => rfl
  | .cons _ _ _ rest => simp only [bareBinds, bindings, List.map_cons, bindings_bare rest]
termination_by structural bs

theorem exps_bare (xs : Exps K) : exps (bareAll xs) = (exps xs).map bare := by
  match xs with
  | .nil => rfl
  | .cons _ rest => simp only [bareAll, exps, List.map_cons, exps_bare rest]
termination_by structural xs

theorem exps_same {xs ys : Exps K} {ρ ρ' : Scopes K} (h : bareAll xs = bareAll ys) (hρ : SS ρ ρ') :
    Pairs VS ((exps xs).map (.exp · ρ)) ((exps ys).map (.exp · ρ')) := by
  have h' : (exps xs).map bare = (exps ys).map bare := by rw [← exps_bare, ← exps_bare, h]
  clear h
  generalize exps xs = l at h'
  generalize exps ys = m at h'
  induction l generalizing m with
  | nil => cases m with
    | nil => exact .nil
    | cons _ _ => cases h'
  | cons x l ih => cases m with
    | nil => cases h'
    | cons y m =>
      simp only [List.map_cons, List.cons.injEq] at h'
      exact .cons (.exp h'.1 hρ) (ih m h'.2)

theorem entries_same {xs ys : Kvs K} {ρ ρ' : Scopes K} (h : bareKvs xs = bareKvs ys) (hρ : SS ρ ρ') :
    Pairs VS (entries ρ xs) (entries ρ' ys) := by
  match xs, ys with
  | .nil, .nil => exact .nil
  | .nil, .cons _ _ _ => simp [bareKvs] at h
  | .cons _ _ _, .nil => simp [bareKvs] at h
  | .cons k x xs, .cons k' y ys =>
    simp only [bareKvs, Kvs.cons.injEq] at h
    obtain ⟨rfl, h1, h2⟩ := h
    exact .cons (.con (.cons .nat (.cons (.exp h1 hρ) .nil))) (entries_same h2 hρ)
termination_by structural xs

theorem find_same {ρ ρ' : Scopes K} (h : SS ρ ρ') (s i : Nat) : OS VS (find ρ s i) (find ρ' s i) := by
  match ρ, ρ', h with
  | _, _, .nil => exact .none
  | _, _, .args hv h =>
    unfold find
    split
    · exact hv.get i
    · exact find_same h _ _
  | _, _, .recs (bs := bs) (bs' := bs') hb h =>
    unfold find
    split
    · have : (bindings bs).map bare = (bindings bs').map bare := by rw [← bindings_bare, ← bindings_bare, hb]
      have h' : ((bindings bs).map bare)[i]? = ((bindings bs').map bare)[i]? := by rw [this]
      simp only [List.getElem?_map] at h'
      cases h1 : (bindings bs)[i]? <;> cases h2 : (bindings bs')[i]? <;> rw [h1, h2] at h' <;> simp at h'
      · exact .none
      · exact .some (.exp h' (.recs hb h))
    · exact find_same h _ _

theorem listOf_same {vs vs' : List (Val K)} (h : Pairs VS vs vs') : VS (listOf vs) (listOf vs') := by
  induction h with
  | nil => exact .con .nil
  | cons h _ ih => exact .con (.cons h (.cons ih .nil))

mutual
theorem VS.refl (v : Val K) : VS v v := by
  match v with
  | .nat k => exact .nat
  | .clo a c e => exact .clo (ES.refl e)
  | .exp x ρ => exact .exp rfl (SS.refl ρ)
  | .con t vs => exact .con (PS.refl vs)
  | .note m b => exact .note (VS.refl m) (VS.refl b)
theorem PS.refl (vs : List (Val K)) : Pairs VS vs vs := by
  match vs with
  | [] => exact .nil
  | v :: vs => exact .cons (VS.refl v) (PS.refl vs)
theorem ES.refl (e : Env K) : ES e e := by
  match e with
  | .nil => exact .nil
  | .cons v e => exact .cons (VS.refl v) (ES.refl e)
  | .recs fs e => exact .recs (ES.refl e)
theorem SS.refl (ρ : Scopes K) : SS ρ ρ := by
  match ρ with
  | .nil => exact .nil
  | .args vs ρ => exact .args (PS.refl vs) (SS.refl ρ)
  | .recs bs ρ => exact .recs rfl (SS.refl ρ)
end

theorem literal_same (p : Prim K) : VS (literal p) (literal p) := .refl _

/-! ## Steps -/

section
variable {P : World K}

theorem global_same (i : Nat) : XS VS (global P i) (global P i) := by
  cases h : global P i with
  | ok v => exact .ok (.refl v)
  | error x => exact .error

theorem resolve_same {e e' : Env K} (h : ES e e') (r : Ref K) : XS VS (resolve P e r) (resolve P e' r) := by
  cases r with
  | l i =>
    unfold resolve
    have := lookup_same h i
    simp only
    generalize lookup e i = a, lookup e' i = b at this
    cases this with
    | none => exact .error
    | some h => exact .ok h
  | g i => exact global_same i
  | v k => exact .ok .nat

theorem resolveAll_same {e e' : Env K} (h : ES e e') (rs : List (Ref K)) :
    XS (Pairs VS) (resolveAll P e rs) (resolveAll P e' rs) := by
  induction rs with
  | nil => exact .ok .nil
  | cons r rs ih =>
    unfold resolveAll
    have h1 := resolve_same (P := P) h r
    generalize resolve P e r = a, resolve P e' r = b at h1
    cases h1 with
    | error => exact .error
    | ok hv =>
      simp only
      generalize resolveAll P e rs = a, resolveAll P e' rs = b at ih
      cases ih with
      | error => exact .error
      | ok hvs => exact .ok (.cons hv hvs)

/-- Pairs of related values. -/
def TwoS (a b : Val K × Val K) : Prop := VS a.1 b.1 ∧ VS a.2 b.2

inductive ShS : Shape K → Shape K → Prop where
  | nat {k} : ShS (.nat k) (.nat k)
  | fn {a f g} : (∀ vs vs', Pairs VS vs vs' → VS (f vs) (g vs')) → ShS (.fn a f) (.fn a g)
  | data {t r r'} : XS (Pairs VS) r r' → ShS (.data t r) (.data t r')
  | annotated {mb mb' b b'} : XS TwoS mb mb' → XS VS b b' → ShS (.annotated mb b) (.annotated mb' b')
  | busy : ShS .busy .busy

theorem pairOf_same {a b : Except Sem.Err (List (Val K))} (h : XS (Pairs VS) a b) : XS TwoS (pairOf a) (pairOf b) := by
  cases h with
  | error => exact .error
  | ok h =>
    cases h with
    | nil => exact .error
    | cons h1 h =>
      cases h with
      | nil => exact .error
      | cons h2 h =>
        cases h with
        | nil => exact .ok ⟨h1, h2⟩
        | cons _ _ => exact .error

theorem shape_same {v v' : Val K} (h : VS v v') : ShS (shape P v) (shape P v') := by
  cases h with
  | nat => exact .nat
  | con h => exact .data (.ok h)
  | note h h' => exact .annotated (.ok ⟨h, h'⟩) (.ok h')
  | clo he =>
    rename_i a c e e'
    cases a with
    | succ a => exact .fn fun vs vs' hv => .clo (.consAll hv he)
    | zero =>
      cases c with
      | cons t as => exact .data (resolveAll_same he as)
      | metaOf m b => exact .annotated (pairOf_same (resolveAll_same he _)) (resolve_same he b)
      | _ => exact .busy
  | exp hx hρ =>
    rename_i x y ρ ρ'
    cases x with
    | lam s n b =>
      cases y <;> simp only [bare] at hx <;> first | cases hx | skip
      simp only [Exp.lam.injEq] at hx
      obtain ⟨rfl, rfl, hb⟩ := hx
      cases n with
      | zero => exact .busy
      | succ n => exact .fn fun vs vs' hv => .exp hb (.args hv hρ)
    | _ => cases y <;> simp only [bare] at hx <;> first | exact .busy | cases hx

inductive FS : Fr K → Fr K → Prop where
  | case {bs fb e e'} : ES e e' → FS (.case bs fb e) (.case bs fb e')
  | apply {as as'} : Pairs VS as as' → FS (.apply as) (.apply as')
  | demeta {h o e e'} : ES e e' → FS (.demeta h o e) (.demeta h o e')
  | seq {b e e'} : ES e e' → FS (.seq b e) (.seq b e')
  | fusedL {i r e e'} : ES e e' → FS (.fusedL i r e) (.fusedL i r e')
  | fusedR {i l l'} : VS l l' → FS (.fusedR i l) (.fusedR i l')
  | prim {i d d' r r'} : Pairs VS d d' → Pairs VS r r' → FS (.prim i d r) (.prim i d' r')
  | top : FS .top .top

def CS (c c' : Cfg K) : Prop := VS c.1 c'.1 ∧ Pairs FS c.2 c'.2

inductive RS : SRes K → SRes K → Prop where
  | next {c c'} : CS c c' → RS (.next c) (.next c')
  | done {v v'} : VS v v' → RS (.done v) (.done v')
  | err {x} : RS (.err x) (.err x)

theorem of_same {r r' : R K} {S S' : List (Fr K)} (h : XS VS r r') (hS : Pairs FS S S') : RS (.of r S) (.of r' S') := by
  cases h with
  | ok h => exact .next ⟨h, hS⟩
  | error => exact .err

theorem execE_same {x y : Exp K} {ρ ρ' : Scopes K} {S S' : List (Fr K)} (hx : bare x = bare y) (hρ : SS ρ ρ')
    (hS : Pairs FS S S') : RS (execE P x ρ S) (execE P y ρ' S') := by
  cases x <;> cases y <;> simp only [bare] at hx <;> first | cases hx; done | skip
  case var.var s i n s' i' n' =>
    cases hx
    unfold execE
    have := find_same hρ s i
    simp only
    generalize find ρ s i = a, find ρ' s i = b at this
    cases this with
    | none => exact .err
    | some h => exact .next ⟨h, hS⟩
  case free.free n n' =>
    cases hx
    unfold execE
    simp only
    cases P.prelude n with
    | none => exact .err
    | some i => exact of_same (global_same i) hS
  case let_.let_ bs body bs' body' =>
    simp only [Exp.let_.injEq] at hx
    exact .next ⟨.exp hx.2 (.recs hx.1 hρ), hS⟩
  case lam.lam s n b s' n' b' =>
    simp only [Exp.lam.injEq] at hx
    exact .next ⟨.exp hx.2.2 (.args .nil hρ), hS⟩
  case app.app s f as s' f' as' =>
    simp only [Exp.app.injEq] at hx
    exact .next ⟨.exp hx.2.1 hρ, .cons (.apply (exps_same hx.2.2 hρ)) hS⟩
  case lit.lit p p' =>
    cases hx
    exact .next ⟨.refl _, hS⟩
  case list.list s xs s' ys =>
    simp only [Exp.list.injEq] at hx
    exact .next ⟨listOf_same (exps_same hx.2 hρ), hS⟩
  case block.block s xs s' ys =>
    simp only [Exp.block.injEq] at hx
    exact .next ⟨.con (.cons (listOf_same (entries_same hx.2 hρ)) (.cons .nat .nil)), hS⟩
  case intrinsic.intrinsic n n' =>
    cases hx
    unfold execE
    simp only
    cases P.index n with
    | none => exact .err
    | some i => exact of_same (global_same i) hS
  case metaOf.metaOf =>
    simp only [Exp.metaOf.injEq] at hx
    exact .next ⟨.note (.exp hx.2.2 hρ) (.exp hx.2.1 hρ), hS⟩
  case operator.operator =>
    simp only [Exp.operator.injEq] at hx
    exact .next ⟨.exp hx.2 hρ, hS⟩
  all_goals exact .err

theorem fallback_same {v v' : Val K} {fb : Fb K} {e e' : Env K} {x} (hv : VS v v') (he : ES e e') :
    XS VS (fallback v fb e x) (fallback v' fb e' x) := by
  cases fb with
  | none => exact .error
  | some b => exact .ok (.clo (.cons hv he))

theorem onCase_same {v v' : Val K} {bs : Brs K} {fb : Fb K} {e e' : Env K} (hv : VS v v') (he : ES e e') :
    XS VS (onCase P v bs fb e) (onCase P v' bs fb e') := by
  unfold onCase
  have := shape_same (P := P) hv
  generalize shape P v = a, shape P v' = b at this
  cases this with
  | nat => exact fallback_same hv he
  | fn _ => exact fallback_same hv he
  | busy => exact .error
  | annotated _ _ => exact .error
  | data h =>
    rename_i t r r'
    simp only
    cases Sem.branch bs t with
    | none => exact fallback_same hv he
    | some body =>
      cases h with
      | error => exact .error
      | ok h => exact .ok (.clo (.consAll h he))

def ApS (a b : Val K × Option (List (Val K))) : Prop := VS a.1 b.1 ∧ OS (Pairs VS) a.2 b.2

theorem onApply_same {v v' : Val K} {as as' : List (Val K)} (hv : VS v v') (ha : Pairs VS as as') :
    XS ApS (onApply P v as) (onApply P v' as') := by
  unfold onApply
  have := shape_same (P := P) hv
  have hl := ha.length
  generalize shape P v = a, shape P v' = b at this
  cases this with
  | nat => exact .error
  | busy => exact .error
  | annotated _ _ => exact .error
  | fn h =>
    simp only [hl]
    split
    · exact .ok ⟨h _ _ ha, .none⟩
    · split
      · exact .ok ⟨.clo (.consAll (.cons hv ha) .nil), .none⟩
      · exact .ok ⟨h _ _ (ha.take _), .some (ha.drop _)⟩
  | data h =>
    simp only
    split
    · have := global_same (P := P) P.sem.merge
      cases hg : global P P.sem.merge with
      | error => exact .error
      | ok m => exact .ok ⟨.refl m, .some (ha.append (.cons hv .nil))⟩
    · exact .error

theorem callee_same {e e' : Env K} (he : ES e e') (r : Ref K) : XS VS (callee P e r) (callee P e' r) := by
  cases r with
  | v k => exact .error
  | l i => exact resolve_same (P := P) he (.l i)
  | g i => exact resolve_same (P := P) he (.g i)

theorem eagerBad_same {e e' : Env K} (he : ES e e') (rs : List (Ref K)) : eagerBad e rs = eagerBad e' rs := by
  induction rs with
  | nil => rfl
  | cons r rs ih =>
    cases r with
    | l i =>
      unfold eagerBad
      have := lookup_same he i
      generalize lookup e i = a, lookup e' i = b at this
      cases this with
      | none => rfl
      | some _ => exact ih
    | g i => exact ih
    | v k => exact ih

theorem app_same {e e' : Env K} (he : ES e e') (f : Ref K) (as : List (Ref K)) (eager : Bool) :
    XS (fun a b => VS a.1 b.1 ∧ Pairs VS a.2 b.2) (app P e f as eager) (app P e' f as eager) := by
  unfold app
  rw [eagerBad_same he]
  cases (if eager = true then eagerBad e' as else none) with
  | some i => exact .error
  | none =>
    have := callee_same (P := P) he f
    generalize callee P e f = a, callee P e' f = b at this
    cases this with
    | error => exact .error
    | ok h => exact .ok ⟨h, .map as fun r => .clo he⟩

theorem unbox_same {v v' : Val K} (hv : VS v v') : XS (OS VS) (unbox P v) (unbox P v') := by
  unfold unbox
  have := shape_same (P := P) hv
  generalize shape P v = a, shape P v' = b at this
  cases this with
  | nat => exact .ok .none
  | fn _ => exact .ok .none
  | busy => exact .ok .none
  | annotated _ _ => exact .ok .none
  | data h =>
    simp only
    split
    · cases h with
      | error => exact .error
      | ok h =>
        cases h with
        | nil => exact .error
        | cons h _ => exact .ok (.some h)
    · exact .ok .none

theorem natives_same {vs vs' : List (Val K)} (h : Pairs VS vs vs') : natives vs = natives vs' := by
  induction h with
  | nil => rfl
  | cons h _ ih => cases h <;> simp [natives, ih]

theorem intrinsic_same {id : Nat} {vs vs' : List (Val K)} (h : Pairs VS vs vs') : XS VS (intrinsic P id vs) (intrinsic P id vs') := by
  unfold intrinsic
  rw [natives_same h]
  split
  · exact .error
  · split
    · exact .ok (.refl _)
    · exact .error

theorem exec_same {c : Syn K} {e e' : Env K} {S S' : List (Fr K)} (he : ES e e') (hS : Pairs FS S S') :
    RS (exec P c e S) (exec P c e' S') := by
  cases c with
  | atom r => exact of_same (resolve_same he r) hS
  | case scr bs fb => exact .next ⟨.clo he, .cons (.case he) hS⟩
  | app f args eager =>
    unfold exec
    have := app_same (P := P) he f args eager
    simp only
    generalize app P e f args eager = a, app P e' f args eager = b at this
    cases this with
    | error => exact .err
    | ok h => exact .next ⟨h.1, .cons (.apply h.2) hS⟩
  | dapp s f args eager =>
    unfold exec
    have := app_same (P := P) he f args eager
    simp only
    generalize app P e f args eager = a, app P e' f args eager = b at this
    cases this with
    | error => exact .err
    | ok h => exact .next ⟨h.1, .cons (.apply h.2) hS⟩
  | «bif» id args =>
    unfold exec
    have := resolveAll_same (P := P) he args
    simp only
    generalize resolveAll P e args = a, resolveAll P e' args = b at this
    cases this with
    | error => exact .err
    | ok h =>
      cases h with
      | nil => exact of_same (intrinsic_same .nil) hS
      | cons h h' => exact .next ⟨h, .cons (.prim .nil h') hS⟩
  | let_ fs body => exact .next ⟨.clo (.consAll (.map _ fun f => close_same he) he), hS⟩
  | letrec fs body => exact .next ⟨.clo (.recs he), hS⟩
  | ann s body => exact .next ⟨.clo he, hS⟩
  | demeta scr h o => exact .next ⟨.clo he, .cons (.demeta he) hS⟩
  | seq scr body => exact .next ⟨.clo he, .cons (.seq he) hS⟩
  | fused id l r => exact .next ⟨.clo he, .cons (.fusedL he) hS⟩
  | _ => exact .err

theorem give_same {w w' : Val K} {S S' : List (Fr K)} {fr fr' : Fr K} (hw : VS w w') (hS : Pairs FS S S') (hf : FS fr fr') :
    RS (give P w S fr) (give P w' S' fr') := by
  cases hf with
  | case he => exact of_same (onCase_same hw he) hS
  | apply ha =>
    unfold give
    have := onApply_same (P := P) hw ha
    simp only
    generalize onApply P w _ = a, onApply P w' _ = b at this
    cases this with
    | error => exact .err
    | ok h =>
      rename_i p q
      obtain ⟨u, r⟩ := p
      obtain ⟨u', r'⟩ := q
      obtain ⟨h1, h2⟩ := h
      simp only at h1 h2
      cases h2 with
      | none => exact .next ⟨h1, hS⟩
      | some h2 => exact .next ⟨h1, .cons (.apply h2) hS⟩
  | demeta he => exact .next ⟨.clo (.cons hw he), hS⟩
  | seq he => exact .next ⟨.clo he, hS⟩
  | fusedL he =>
    unfold give
    have := unbox_same (P := P) hw
    simp only
    generalize unbox P w = a, unbox P w' = b at this
    cases this with
    | error => exact .err
    | ok h =>
      cases h with
      | none => exact .next ⟨.clo he, .cons (.fusedR hw) hS⟩
      | some h => exact .next ⟨h, .cons (.fusedL he) hS⟩
  | fusedR hl =>
    unfold give
    have := unbox_same (P := P) hw
    simp only
    generalize unbox P w = a, unbox P w' = b at this
    cases this with
    | error => exact .err
    | ok h =>
      cases h with
      | none => exact of_same (intrinsic_same (.cons hl (.cons hw .nil))) hS
      | some h => exact .next ⟨h, .cons (.fusedR hl) hS⟩
  | prim hd hr =>
    cases hr with
    | nil => exact of_same (intrinsic_same (hd.append (.cons hw .nil))) hS
    | cons h h' => exact .next ⟨h, .cons (.prim (hd.append (.cons hw .nil)) h') hS⟩
  | top => exact .next ⟨hw, hS⟩

theorem giveMeta_same {mb mb' : Except Sem.Err (Val K × Val K)} {b b' : R K} {S S' : List (Fr K)} {fr fr' : Fr K}
    (hm : XS TwoS mb mb') (hb : XS VS b b') (hS : Pairs FS S S') (hf : FS fr fr') :
    RS (giveMeta mb b S fr) (giveMeta mb' b' S' fr') := by
  have hf' := hf
  cases hf with
  | demeta he =>
    cases hm with
    | error => exact .err
    | ok h => exact .next ⟨.clo (.cons h.1 (.cons h.2 he)), hS⟩
  | top =>
    cases hm with
    | error => exact .err
    | ok h => exact .next ⟨h.2, .cons .top hS⟩
  | _ => exact of_same hb (.cons hf' hS)

theorem step_same {c c' : Cfg K} (h : CS c c') : RS (step P c) (step P c') := by
  obtain ⟨v, S⟩ := c
  obtain ⟨v', S'⟩ := c'
  obtain ⟨hv, hS⟩ := h
  simp only at hv hS
  unfold step
  have hs := shape_same (P := P) hv
  have plain : ∀ S S' : List (Fr K), Pairs FS S S' → RS (match S with | [] => SRes.done v | fr :: S => give P v S fr)
      (match S' with | [] => SRes.done v' | fr :: S => give P v' S fr) := by
    intro S S' hS
    cases hS with
    | nil => exact .done hv
    | cons hf hS => exact give_same hv hS hf
  simp only
  generalize shape P v = a, shape P v' = b at hs
  cases hs with
  | nat => exact plain _ _ hS
  | fn _ => exact plain _ _ hS
  | data _ => exact plain _ _ hS
  | annotated hm hb =>
    simp only
    cases hS with
    | nil => exact .done hv
    | cons hf hS => exact giveMeta_same hm hb hS hf
  | busy =>
    cases hv with
    | clo he => exact exec_same he hS
    | exp hx hρ => exact execE_same hx hρ hS
    | _ => exact .err

theorem ends_same {n : Nat} {c c' : Cfg K} {r : R K} (h : CS c c') (he : Ends P n c r) : ∃ r', Ends P n c' r' ∧ XS VS r r' := by
  induction he generalizing c' with
  | done hd =>
    have := step_same (P := P) h
    rw [hd] at this
    generalize hs : step P c' = r' at this
    cases this with
    | done h => exact ⟨_, .done hs, .ok h⟩
  | err hd =>
    have := step_same (P := P) h
    rw [hd] at this
    generalize hs : step P c' = r' at this
    cases this
    exact ⟨_, .err hs, .error⟩
  | next hd _ ih =>
    have := step_same (P := P) h
    rw [hd] at this
    generalize hs : step P c' = r' at this
    cases this with
    | next h =>
      obtain ⟨r', h1, h2⟩ := ih h
      exact ⟨r', .next hs h1, h2⟩

theorem seen_same {r r' : R K} (h : XS VS r r') : seen P r = seen P r' := by
  cases h with
  | error => rfl
  | ok h =>
    rename_i v v'
    unfold seen
    have := shape_same (P := P) h
    simp only
    generalize shape P v = a, shape P v' = b at this
    cases this with
    | nat => rfl
    | fn _ => rfl
    | busy => rfl
    | annotated _ _ => rfl
    | data h => cases h with
      | error => rfl
      | ok h => simp only [h.length]

theorem finds_same {p : List Nat} {v v' : Val K} {s : Sem.Seen K} (h : VS v v') (hf : Finds P p v s) : Finds P p v' s := by
  induction p generalizing v v' with
  | nil =>
    obtain ⟨n, r, h1, h2⟩ := hf
    obtain ⟨r', h3, h4⟩ := ends_same (c' := (v', [.top])) ⟨h, .cons .top .nil⟩ h1
    exact ⟨n, r', h3, by rw [← seen_same h4]; exact h2⟩
  | cons i p ih =>
    obtain ⟨n, w, t, vs, u, h1, h2, h3, h4⟩ := hf
    obtain ⟨r', h5, h6⟩ := ends_same (c' := (v', [.top])) ⟨h, .cons .top .nil⟩ h1
    cases h6 with
    | ok hw =>
      rename_i w'
      have := shape_same (P := P) hw
      rw [h2] at this
      generalize hs : shape P w' = b at this
      cases this with
      | data hd =>
        cases hd with
        | ok hd =>
          rename_i vs'
          have hg := hd.get i
          rw [h3] at hg
          generalize hu : vs'[i]? = o at hg
          cases hg with
          | some hg => exact ⟨n, w', t, _, _, h5, hs, hu, ih hg h4⟩

theorem shows_bare {x y : Exp K} (h : bare x = bare y) (p : List Nat) (s : Sem.Seen K) : Shows P x p s ↔ Shows P y p s :=
  ⟨finds_same (.exp h .nil), finds_same (.exp h.symm .nil)⟩
end

end Verif.Dem
