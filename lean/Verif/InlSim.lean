import Verif.DemSame

/-!
# Unfolding names and applying functions early keeps what an expression shows

Two expressions are related if the second comes from the first by putting in what names stand for and by putting arguments
in for parameters, or binding them once instead.  The frames of the context say what is in scope on either side.  Related
expressions show the same.

Proofs only.
-/

namespace Verif.Inl
open Verif.Comp Verif.Bc Verif.Dem
variable {K : Type}

/-- What is in scope: the parameters of a function on both sides, a let on both sides, arguments on the left that have been put
in on the right, and parameters or a let on the right alone. -/
inductive Frame (K : Type) where
  | lam
  | both (bs bs' : Binds K)
  | leftArgs (xs : List (Exp K))
  | rightArgs
  | rightLet (bs' : Binds K)

abbrev Ctx (K : Type) := List (Frame K)

/-- The scope `s` on the left is the scope `s'` on the right. -/
inductive Same : Ctx K → Nat → Nat → Prop where
  | hereLam {Φ} : Same (.lam :: Φ) 0 0
  | hereBoth {bs bs' Φ} : Same (.both bs bs' :: Φ) 0 0
  | lam {Φ s s'} : Same Φ s s' → Same (.lam :: Φ) (s + 1) (s' + 1)
  | both {bs bs' Φ s s'} : Same Φ s s' → Same (.both bs bs' :: Φ) (s + 1) (s' + 1)
  | leftArgs {xs Φ s s'} : Same Φ s s' → Same (.leftArgs xs :: Φ) (s + 1) s'
  | rightArgs {Φ s s'} : Same Φ s s' → Same (.rightArgs :: Φ) s (s' + 1)
  | rightLet {bs' Φ s s'} : Same Φ s s' → Same (.rightLet bs' :: Φ) s (s' + 1)

/-- The name `i` of the scope `s` on the left stands for `e` in the context `Ψ`, which has all of the scopes of the right. -/
inductive Opens : Ctx K → Nat → Nat → Exp K → Ctx K → Prop where
  | hereLet {bs bs' Φ i e} : (bindings bs)[i]? = some e → Opens (.both bs bs' :: Φ) 0 i e (.both bs bs' :: Φ)
  | hereArgs {xs Φ i e} : xs[i]? = some e → Opens (.leftArgs xs :: Φ) 0 i e Φ
  | lam {Φ s i e Ψ} : Opens Φ s i e Ψ → Opens (.lam :: Φ) (s + 1) i e (.rightArgs :: Ψ)
  | both {bs bs' Φ s i e Ψ} : Opens Φ s i e Ψ → Opens (.both bs bs' :: Φ) (s + 1) i e (.rightLet bs' :: Ψ)
  | leftArgs {xs Φ s i e Ψ} : Opens Φ s i e Ψ → Opens (.leftArgs xs :: Φ) (s + 1) i e Ψ
  | rightArgs {Φ s i e Ψ} : Opens Φ s i e Ψ → Opens (.rightArgs :: Φ) s i e (.rightArgs :: Ψ)
  | rightLet {bs' Φ s i e Ψ} : Opens Φ s i e Ψ → Opens (.rightLet bs' :: Φ) s i e (.rightLet bs' :: Ψ)

/-- The name `j` of the scope `s` on the right stands for `y` in the context `Ψ`, which has all of the scopes of the left. -/
inductive Shares : Ctx K → Nat → Nat → Exp K → Ctx K → Prop where
  | here {bs' Φ j y} : (bindings bs')[j]? = some y → Shares (.rightLet bs' :: Φ) 0 j y (.rightLet bs' :: Φ)
  | rightArgs {Φ s j y Ψ} : Shares Φ s j y Ψ → Shares (.rightArgs :: Φ) (s + 1) j y Ψ
  | rightLet {bs' Φ s j y Ψ} : Shares Φ s j y Ψ → Shares (.rightLet bs' :: Φ) (s + 1) j y Ψ

mutual
/-- The same at the head. -/
inductive H : Ctx K → Exp K → Exp K → Prop where
  | var {Φ s s' i n n'} : Same Φ s s' → H Φ (.var s i n) (.var s' i n')
  | free {Φ x} : H Φ (.free x) (.free x)
  | let_ {Φ bs bs' b b'} : Tb (.both bs bs' :: Φ) bs bs' → T (.both bs bs' :: Φ) b b' → H Φ (.let_ bs b) (.let_ bs' b')
  | lam {Φ s s' n b b'} : T (.lam :: Φ) b b' → H Φ (.lam s n b) (.lam s' n b')
  | app {Φ s s' f f' xs xs'} : T Φ f f' → Ts Φ xs xs' → H Φ (.app s f xs) (.app s' f' xs')
  | lit {Φ p} : H Φ (.lit p) (.lit p)
  | list {Φ s s' xs xs'} : Ts Φ xs xs' → H Φ (.list s xs) (.list s' xs')
  | block {Φ s s' xs xs'} : Tk Φ xs xs' → H Φ (.block s xs) (.block s' xs')
  | intrinsic {Φ x} : H Φ (.intrinsic x) (.intrinsic x)
  | lookup {Φ s s' x x' k} : T Φ x x' → H Φ (.lookup s x k) (.lookup s' x' k)
  | lookupOr {Φ s s' x x' k d d'} : T Φ x x' → T Φ d d' → H Φ (.lookupOr s x k d) (.lookupOr s' x' k d')
  | metaOf {Φ s s' x x' m m'} : T Φ x x' → T Φ m m' → H Φ (.metaOf s x m) (.metaOf s' x' m')
  | operator {Φ s s' x x'} : T Φ x x' → H Φ (.operator s x) (.operator s' x')
  | other {Φ} : H Φ .other .other
/-- The same, but for names and applications dealt with early. -/
inductive T : Ctx K → Exp K → Exp K → Prop where
  | head {Φ x y} : H Φ x y → T Φ x y
  /-- A name has been replaced by what it stands for. -/
  | unfold {Φ Ψ s i n e y} : Opens Φ s i e Ψ → T Ψ e y → T Φ (.var s i n) y
  /-- A function has been applied. -/
  | beta {Φ s s' n b xs y} : (exps xs).length = n + 1 → T (.leftArgs (exps xs) :: Φ) b y →
      T Φ (.app s (.lam s' (n + 1) b) xs) y
  /-- Something has been given a name. -/
  | share {Φ bs' x y} : T (.rightLet bs' :: Φ) x y → T Φ x (.let_ bs' y)
  | shared {Φ Ψ s j n x y} : Shares Φ s j y Ψ → T Ψ x y → T Φ x (.var s j n)
inductive Ts : Ctx K → Exps K → Exps K → Prop where
  | nil {Φ} : Ts Φ .nil .nil
  | cons {Φ x y xs ys} : T Φ x y → Ts Φ xs ys → Ts Φ (.cons x xs) (.cons y ys)
inductive Tb : Ctx K → Binds K → Binds K → Prop where
  | nil {Φ} : Tb Φ .nil .nil
  | cons {Φ n n' d d' x y xs ys} : T Φ x y → Tb Φ xs ys → Tb Φ (.cons n d x xs) (.cons n' d' y ys)
inductive Tk : Ctx K → Kvs K → Kvs K → Prop where
  | nil {Φ} : Tk Φ .nil .nil
  | cons {Φ k x y xs ys} : T Φ x y → Tk Φ xs ys → Tk Φ (.cons k x xs) (.cons k y ys)
end

mutual
/-- Related values. -/
inductive VS : Val K → Val K → Prop where
  | nat {k} : VS (.nat k) (.nat k)
  | clo {a c e e'} : ES e e' → VS (.clo a c e) (.clo a c e')
  | exp {Φ x y ρ ρ'} : T Φ x y → SS Φ ρ ρ' → VS (.exp x ρ) (.exp y ρ')
  | con {t vs vs'} : Pairs VS vs vs' → VS (.con t vs) (.con t vs')
  | note {m m' b b'} : VS m m' → VS b b' → VS (.note m b) (.note m' b')
inductive ES : Env K → Env K → Prop where
  | nil : ES .nil .nil
  | cons {v v' e e'} : VS v v' → ES e e' → ES (.cons v e) (.cons v' e')
  | recs {fs e e'} : ES e e' → ES (.recs fs e) (.recs fs e')
/-- What names stand for, in a context. -/
inductive SS : Ctx K → Scopes K → Scopes K → Prop where
  | nil : SS [] .nil .nil
  | lam {Φ vs vs' ρ ρ'} : Pairs VS vs vs' → SS Φ ρ ρ' → SS (.lam :: Φ) (.args vs ρ) (.args vs' ρ')
  | both {Φ bs bs' ρ ρ'} : Tb (.both bs bs' :: Φ) bs bs' → SS Φ ρ ρ' → SS (.both bs bs' :: Φ) (.recs bs ρ) (.recs bs' ρ')
  | leftArgs {Φ xs ρ ρ'} : SS Φ ρ ρ' → SS (.leftArgs xs :: Φ) (.args (xs.map (.exp · ρ)) ρ) ρ'
  | rightArgs {Φ vs ρ ρ'} : SS Φ ρ ρ' → SS (.rightArgs :: Φ) ρ (.args vs ρ')
  | rightLet {Φ bs' ρ ρ'} : SS Φ ρ ρ' → SS (.rightLet bs' :: Φ) ρ (.recs bs' ρ')
end

/-- Related values that are alike as they stand. -/
inductive HS : Val K → Val K → Prop where
  | nat {k} : HS (.nat k) (.nat k)
  | clo {a c e e'} : ES e e' → HS (.clo a c e) (.clo a c e')
  | exp {Φ x y ρ ρ'} : H Φ x y → SS Φ ρ ρ' → HS (.exp x ρ) (.exp y ρ')
  | con {t vs vs'} : Pairs VS vs vs' → HS (.con t vs) (.con t vs')
  | note {m m' b b'} : VS m m' → VS b b' → HS (.note m b) (.note m' b')

theorem HS.vs {v w : Val K} (h : HS v w) : VS v w := by
  cases h with
  | nat => exact .nat
  | clo h => exact .clo h
  | exp h h' => exact .exp (.head h) h'
  | con h => exact .con h
  | note h h' => exact .note h h'

/-! ## Environments -/

theorem ES.consAll {vs vs' : List (Val K)} {e e' : Env K} (hv : Pairs VS vs vs') (he : ES e e') :
    ES (consAll vs e) (consAll vs' e') := by
  induction hv with
  | nil => exact he
  | cons h _ ih => exact .cons h ih

theorem close_same {f : Form K} {e e' : Env K} (he : ES e e') : VS (close f e) (close f e') := .clo he

theorem lookup_same {e e' : Env K} (h : ES e e') (i : Nat) : OS VS (lookup e i) (lookup e' i) := by
  match e, e', h with
  | _, _, .nil => exact .none
  | _, _, .cons hv he =>
    unfold lookup
    split
    · exact .some hv
    · exact lookup_same he _
  | _, _, .recs he =>
    unfold lookup
    split
    · exact .some (close_same (.recs he))
    · exact lookup_same he _

theorem exps_same {Φ} {xs ys : Exps K} {ρ ρ' : Scopes K} (h : Ts Φ xs ys) (hρ : SS Φ ρ ρ') :
    Pairs VS ((exps xs).map (.exp · ρ)) ((exps ys).map (.exp · ρ')) := by
  match xs, ys, h with
  | _, _, .nil => exact .nil
  | _, _, .cons h h' => exact .cons (.exp h hρ) (exps_same h' hρ)

theorem entries_same {Φ} {xs ys : Kvs K} {ρ ρ' : Scopes K} (h : Tk Φ xs ys) (hρ : SS Φ ρ ρ') :
    Pairs VS (entries ρ xs) (entries ρ' ys) := by
  match xs, ys, h with
  | _, _, .nil => exact .nil
  | _, _, .cons h h' => exact .cons (.con (.cons .nat (.cons (.exp h hρ) .nil))) (entries_same h' hρ)

theorem binds_get {Φ : Ctx K} {bs bs' : Binds K} (h : Tb Φ bs bs') (i : Nat) : OS (T Φ) (bindings bs)[i]? (bindings bs')[i]? := by
  match bs, bs', h with
  | _, _, .nil => exact .none
  | _, _, .cons h h' =>
    cases i with
    | zero => exact .some h
    | succ i => simpa [bindings] using binds_get h' i

theorem same_find {Φ : Ctx K} {s s' : Nat} (h : Same Φ s s') {ρ ρ' : Scopes K} (hρ : SS Φ ρ ρ') (i : Nat) :
    OS VS (find ρ s i) (find ρ' s' i) := by
  induction h generalizing ρ ρ' with
  | hereLam => cases hρ with | lam hv _ => simpa [find] using hv.get i
  | hereBoth =>
    cases hρ with
    | both hb hρ =>
      rename_i bs bs' _ _ _
      have := binds_get hb i
      simp only [find, if_true]
      generalize (bindings bs)[i]? = a, (bindings bs')[i]? = b at this
      cases this with
      | none => exact .none
      | some h => exact .some (.exp h (.both hb hρ))
  | lam _ ih => cases hρ with | lam _ hρ => simpa [find] using ih hρ
  | both _ ih => cases hρ with | both _ hρ => simpa [find] using ih hρ
  | leftArgs _ ih => cases hρ with | leftArgs hρ => simpa [find] using ih hρ
  | rightArgs _ ih => cases hρ with | rightArgs hρ => simpa [find] using ih hρ
  | rightLet _ ih => cases hρ with | rightLet hρ => simpa [find] using ih hρ

theorem opens_find {Φ Ψ : Ctx K} {s i : Nat} {e : Exp K} (h : Opens Φ s i e Ψ) {ρ ρ' : Scopes K} (hρ : SS Φ ρ ρ') :
    ∃ ρ₀, find ρ s i = some (.exp e ρ₀) ∧ SS Ψ ρ₀ ρ' := by
  induction h generalizing ρ ρ' with
  | hereLet hi =>
    cases hρ with
    | both hb hρ => exact ⟨_, by simp [find, hi], .both hb hρ⟩
  | hereArgs hi =>
    cases hρ with
    | leftArgs hρ => exact ⟨_, by simp [find, hi], hρ⟩
  | lam _ ih =>
    cases hρ with
    | lam _ hρ =>
      obtain ⟨ρ₀, h1, h2⟩ := ih hρ
      exact ⟨ρ₀, by simpa [find] using h1, .rightArgs h2⟩
  | both _ ih =>
    cases hρ with
    | both _ hρ =>
      obtain ⟨ρ₀, h1, h2⟩ := ih hρ
      exact ⟨ρ₀, by simpa [find] using h1, .rightLet h2⟩
  | leftArgs _ ih =>
    cases hρ with
    | leftArgs hρ =>
      obtain ⟨ρ₀, h1, h2⟩ := ih hρ
      exact ⟨ρ₀, by simpa [find] using h1, h2⟩
  | rightArgs _ ih =>
    cases hρ with
    | rightArgs hρ =>
      obtain ⟨ρ₀, h1, h2⟩ := ih hρ
      exact ⟨ρ₀, h1, .rightArgs h2⟩
  | rightLet _ ih =>
    cases hρ with
    | rightLet hρ =>
      obtain ⟨ρ₀, h1, h2⟩ := ih hρ
      exact ⟨ρ₀, h1, .rightLet h2⟩

theorem shares_find {Φ Ψ : Ctx K} {s j : Nat} {y : Exp K} (h : Shares Φ s j y Ψ) {ρ ρ' : Scopes K} (hρ : SS Φ ρ ρ') :
    ∃ ρ₀, find ρ' s j = some (.exp y ρ₀) ∧ SS Ψ ρ ρ₀ := by
  induction h generalizing ρ ρ' with
  | here hi =>
    cases hρ with
    | rightLet hρ => exact ⟨_, by simp [find, hi], .rightLet hρ⟩
  | rightArgs _ ih =>
    cases hρ with
    | rightArgs hρ =>
      obtain ⟨ρ₀, h1, h2⟩ := ih hρ
      exact ⟨ρ₀, by simpa [find] using h1, h2⟩
  | rightLet _ ih =>
    cases hρ with
    | rightLet hρ =>
      obtain ⟨ρ₀, h1, h2⟩ := ih hρ
      exact ⟨ρ₀, by simpa [find] using h1, h2⟩

theorem listOf_same {vs vs' : List (Val K)} (h : Pairs VS vs vs') : VS (listOf vs) (listOf vs') := by
  induction h with
  | nil => exact .con .nil
  | cons h _ ih => exact .con (.cons h (.cons ih .nil))

theorem literal_same (p : Prim K) : VS (literal p) (literal p) := by
  cases p with
  | bool b => cases b <;> exact .con .nil
  | null => exact .con .nil
  | _ => exact .con (.cons .nat .nil)

/-! ## Steps -/

section
variable {P : World K}

theorem global_same (i : Nat) : XS VS (global P i) (global P i) := by
  unfold global
  cases P.sem.globals[i]? with
  | some f => exact .ok (.clo .nil)
  | none => exact .error

theorem resolve_same {e e' : Env K} (h : ES e e') (r : Ref K) : XS VS (resolve P e r) (resolve P e' r) := by
  cases r with
  | l i =>
    unfold resolve
    have := lookup_same h i
    simp only
    generalize lookup e i = a, lookup e' i = b at this
    cases this with
    | none => exact .error
    | some h => exact .ok h
  | g i => exact global_same i
  | v k => exact .ok .nat

theorem resolveAll_same {e e' : Env K} (h : ES e e') (rs : List (Ref K)) :
    XS (Pairs VS) (resolveAll P e rs) (resolveAll P e' rs) := by
  induction rs with
  | nil => exact .ok .nil
  | cons r rs ih =>
    unfold resolveAll
    have h1 := resolve_same (P := P) h r
    generalize resolve P e r = a, resolve P e' r = b at h1
    cases h1 with
    | error => exact .error
    | ok hv =>
      simp only
      generalize resolveAll P e rs = a, resolveAll P e' rs = b at ih
      cases ih with
      | error => exact .error
      | ok hvs => exact .ok (.cons hv hvs)

/-- Pairs of related values. -/
def TwoS (a b : Val K × Val K) : Prop := VS a.1 b.1 ∧ VS a.2 b.2

inductive ShS : Shape K → Shape K → Prop where
  | nat {k} : ShS (.nat k) (.nat k)
  | fn {a f g} : (∀ vs vs', Pairs VS vs vs' → VS (f vs) (g vs')) → ShS (.fn a f) (.fn a g)
  | data {t r r'} : XS (Pairs VS) r r' → ShS (.data t r) (.data t r')
  | annotated {mb mb' b b'} : XS TwoS mb mb' → XS VS b b' → ShS (.annotated mb b) (.annotated mb' b')
  | busy : ShS .busy .busy

theorem pairOf_same {a b : Except Sem.Err (List (Val K))} (h : XS (Pairs VS) a b) : XS TwoS (pairOf a) (pairOf b) := by
  cases h with
  | error => exact .error
  | ok h =>
    cases h with
    | nil => exact .error
    | cons h1 h =>
      cases h with
      | nil => exact .error
      | cons h2 h =>
        cases h with
        | nil => exact .ok ⟨h1, h2⟩
        | cons _ _ => exact .error

theorem shape_same {v v' : Val K} (h : HS v v') : ShS (shape P v) (shape P v') := by
  cases h with
  | nat => exact .nat
  | con h => exact .data (.ok h)
  | note h h' => exact .annotated (.ok ⟨h, h'⟩) (.ok h')
  | clo he =>
    rename_i a c e e'
    cases a with
    | succ a => exact .fn fun vs vs' hv => .clo (.consAll hv he)
    | zero =>
      cases c with
      | cons t as => exact .data (resolveAll_same he as)
      | metaOf m b => exact .annotated (pairOf_same (resolveAll_same he _)) (resolve_same he b)
      | _ => exact .busy
  | exp hx hρ =>
    cases hx with
    | lam hb =>
      rename_i s s' n b b'
      cases n with
      | zero => exact .busy
      | succ n => exact .fn fun vs vs' hv => .exp hb (.lam hv hρ)
    | _ => exact .busy

inductive FS : Fr K → Fr K → Prop where
  | case {bs fb e e'} : ES e e' → FS (.case bs fb e) (.case bs fb e')
  | apply {as as'} : Pairs VS as as' → FS (.apply as) (.apply as')
  | demeta {h o e e'} : ES e e' → FS (.demeta h o e) (.demeta h o e')
  | seq {b e e'} : ES e e' → FS (.seq b e) (.seq b e')
  | fusedL {i r e e'} : ES e e' → FS (.fusedL i r e) (.fusedL i r e')
  | fusedR {i l l'} : VS l l' → FS (.fusedR i l) (.fusedR i l')
  | prim {i d d' r r'} : Pairs VS d d' → Pairs VS r r' → FS (.prim i d r) (.prim i d' r')
  | top : FS .top .top

def CS (c c' : Cfg K) : Prop := VS c.1 c'.1 ∧ Pairs FS c.2 c'.2

inductive RS : SRes K → SRes K → Prop where
  | next {c c'} : CS c c' → RS (.next c) (.next c')
  | done {v v'} : HS v v' → RS (.done v) (.done v')
  | err {x} : RS (.err x) (.err x)

theorem of_same {r r' : R K} {S S' : List (Fr K)} (h : XS VS r r') (hS : Pairs FS S S') : RS (.of r S) (.of r' S') := by
  cases h with
  | ok h => exact .next ⟨h, hS⟩
  | error => exact .err

theorem execE_same {Φ} {x y : Exp K} {ρ ρ' : Scopes K} {S S' : List (Fr K)} (hx : H Φ x y) (hρ : SS Φ ρ ρ')
    (hS : Pairs FS S S') : RS (execE P x ρ S) (execE P y ρ' S') := by
  cases hx with
  | var h =>
    rename_i s s' i n n'
    unfold execE
    have := same_find h hρ i
    simp only
    generalize find ρ s i = a, find ρ' s' i = b at this
    cases this with
    | none => exact .err
    | some h => exact .next ⟨h, hS⟩
  | free =>
    rename_i n
    unfold execE
    simp only
    cases P.prelude n with
    | none => exact .err
    | some i => exact of_same (global_same i) hS
  | let_ h h' => exact .next ⟨.exp h' (.both h hρ), hS⟩
  | lam h => exact .next ⟨.exp h (.lam .nil hρ), hS⟩
  | app h h' => exact .next ⟨.exp h hρ, .cons (.apply (exps_same h' hρ)) hS⟩
  | lit => exact .next ⟨literal_same _, hS⟩
  | list h => exact .next ⟨listOf_same (exps_same h hρ), hS⟩
  | block h => exact .next ⟨.con (.cons (listOf_same (entries_same h hρ)) (.cons .nat .nil)), hS⟩
  | intrinsic =>
    rename_i n
    unfold execE
    simp only
    cases P.index n with
    | none => exact .err
    | some i => exact of_same (global_same i) hS
  | metaOf h h' => exact .next ⟨.note (.exp h' hρ) (.exp h hρ), hS⟩
  | operator h => exact .next ⟨.exp h hρ, hS⟩
  | lookup _ => exact .err
  | lookupOr _ _ => exact .err
  | other => exact .err

theorem fallback_same {v v' : Val K} {fb : Fb K} {e e' : Env K} {x} (hv : VS v v') (he : ES e e') :
    XS VS (fallback v fb e x) (fallback v' fb e' x) := by
  cases fb with
  | none => exact .error
  | some b => exact .ok (.clo (.cons hv he))

theorem onCase_same {v v' : Val K} {bs : Brs K} {fb : Fb K} {e e' : Env K} (hv : HS v v') (he : ES e e') :
    XS VS (onCase P v bs fb e) (onCase P v' bs fb e') := by
  unfold onCase
  have := shape_same (P := P) hv
  generalize shape P v = a, shape P v' = b at this
  cases this with
  | nat => exact fallback_same hv.vs he
  | fn _ => exact fallback_same hv.vs he
  | busy => exact .error
  | annotated _ _ => exact .error
  | data h =>
    rename_i t r r'
    simp only
    cases Sem.branch bs t with
    | none => exact fallback_same hv.vs he
    | some body =>
      cases h with
      | error => exact .error
      | ok h => exact .ok (.clo (.consAll h he))

def ApS (a b : Val K × Option (List (Val K))) : Prop := VS a.1 b.1 ∧ OS (Pairs VS) a.2 b.2

theorem onApply_same {v v' : Val K} {as as' : List (Val K)} (hv : HS v v') (ha : Pairs VS as as') :
    XS ApS (onApply P v as) (onApply P v' as') := by
  unfold onApply
  have := shape_same (P := P) hv
  have hl := ha.length
  generalize shape P v = a, shape P v' = b at this
  cases this with
  | nat => exact .error
  | busy => exact .error
  | annotated _ _ => exact .error
  | fn h =>
    simp only [hl]
    split
    · exact .ok ⟨h _ _ ha, .none⟩
    · split
      · exact .ok ⟨.clo (.consAll (.cons hv.vs ha) .nil), .none⟩
      · exact .ok ⟨h _ _ (ha.take _), .some (ha.drop _)⟩
  | data h =>
    simp only
    split
    · have := global_same (P := P) P.sem.merge
      cases hg : global P P.sem.merge with
      | error => exact .error
      | ok m =>
        rw [hg] at this
        cases this with
        | ok hm => exact .ok ⟨hm, .some (ha.append (.cons hv.vs .nil))⟩
    · exact .error

theorem callee_same {e e' : Env K} (he : ES e e') (r : Ref K) : XS VS (callee P e r) (callee P e' r) := by
  cases r with
  | v k => exact .error
  | l i => exact resolve_same (P := P) he (.l i)
  | g i => exact resolve_same (P := P) he (.g i)

theorem eagerBad_same {e e' : Env K} (he : ES e e') (rs : List (Ref K)) : eagerBad e rs = eagerBad e' rs := by
  induction rs with
  | nil => rfl
  | cons r rs ih =>
    cases r with
    | l i =>
      unfold eagerBad
      have := lookup_same he i
      generalize lookup e i = a, lookup e' i = b at this
      cases this with
      | none => rfl
      | some _ => exact ih
    | g i => exact ih
    | v k => exact ih

theorem app_same {e e' : Env K} (he : ES e e') (f : Ref K) (as : List (Ref K)) (eager : Bool) :
    XS (fun a b => VS a.1 b.1 ∧ Pairs VS a.2 b.2) (app P e f as eager) (app P e' f as eager) := by
  unfold app
  rw [eagerBad_same he]
  cases (if eager = true then eagerBad e' as else none) with
  | some i => exact .error
  | none =>
    have := callee_same (P := P) he f
    generalize callee P e f = a, callee P e' f = b at this
    cases this with
    | error => exact .error
    | ok h => exact .ok ⟨h, .map as fun r => .clo he⟩

theorem unbox_same {v v' : Val K} (hv : HS v v') : XS (OS VS) (unbox P v) (unbox P v') := by
  unfold unbox
  have := shape_same (P := P) hv
  generalize shape P v = a, shape P v' = b at this
  cases this with
  | nat => exact .ok .none
  | fn _ => exact .ok .none
  | busy => exact .ok .none
  | annotated _ _ => exact .ok .none
  | data h =>
    simp only
    split
    · cases h with
      | error => exact .error
      | ok h =>
        cases h with
        | nil => exact .error
        | cons h _ => exact .ok (.some h)
    · exact .ok .none

theorem natives_same {vs vs' : List (Val K)} (h : Pairs VS vs vs') : natives vs = natives vs' := by
  induction h with
  | nil => rfl
  | cons h _ ih => cases h <;> simp [natives, ih]

theorem intrinsic_same {id : Nat} {vs vs' : List (Val K)} (h : Pairs VS vs vs') : XS VS (intrinsic P id vs) (intrinsic P id vs') := by
  unfold intrinsic
  rw [natives_same h]
  split
  · exact .error
  · split
    · exact .ok (.clo .nil)
    · exact .error

theorem exec_same {c : Syn K} {e e' : Env K} {S S' : List (Fr K)} (he : ES e e') (hS : Pairs FS S S') :
    RS (exec P c e S) (exec P c e' S') := by
  cases c with
  | atom r => exact of_same (resolve_same he r) hS
  | case scr bs fb => exact .next ⟨.clo he, .cons (.case he) hS⟩
  | app f args eager =>
    unfold exec
    have := app_same (P := P) he f args eager
    simp only
    generalize app P e f args eager = a, app P e' f args eager = b at this
    cases this with
    | error => exact .err
    | ok h => exact .next ⟨h.1, .cons (.apply h.2) hS⟩
  | dapp s f args eager =>
    unfold exec
    have := app_same (P := P) he f args eager
    simp only
    generalize app P e f args eager = a, app P e' f args eager = b at this
    cases this with
    | error => exact .err
    | ok h => exact .next ⟨h.1, .cons (.apply h.2) hS⟩
  | «bif» id args =>
    unfold exec
    have := resolveAll_same (P := P) he args
    simp only
    generalize resolveAll P e args = a, resolveAll P e' args = b at this
    cases this with
    | error => exact .err
    | ok h =>
      cases h with
      | nil => exact of_same (intrinsic_same .nil) hS
      | cons h h' => exact .next ⟨h, .cons (.prim .nil h') hS⟩
  | let_ fs body => exact .next ⟨.clo (.consAll (.map _ fun f => close_same he) he), hS⟩
  | letrec fs body => exact .next ⟨.clo (.recs he), hS⟩
  | ann s body => exact .next ⟨.clo he, hS⟩
  | demeta scr h o => exact .next ⟨.clo he, .cons (.demeta he) hS⟩
  | seq scr body => exact .next ⟨.clo he, .cons (.seq he) hS⟩
  | fused id l r => exact .next ⟨.clo he, .cons (.fusedL he) hS⟩
  | _ => exact .err

theorem give_same {w w' : Val K} {S S' : List (Fr K)} {fr fr' : Fr K} (hw : HS w w') (hS : Pairs FS S S') (hf : FS fr fr') :
    RS (give P w S fr) (give P w' S' fr') := by
  cases hf with
  | case he => exact of_same (onCase_same hw he) hS
  | apply ha =>
    unfold give
    have := onApply_same (P := P) hw ha
    simp only
    generalize onApply P w _ = a, onApply P w' _ = b at this
    cases this with
    | error => exact .err
    | ok h =>
      rename_i p q
      obtain ⟨u, r⟩ := p
      obtain ⟨u', r'⟩ := q
      obtain ⟨h1, h2⟩ := h
      simp only at h1 h2
      cases h2 with
      | none => exact .next ⟨h1, hS⟩
      | some h2 => exact .next ⟨h1, .cons (.apply h2) hS⟩
  | demeta he => exact .next ⟨.clo (.cons hw.vs he), hS⟩
  | seq he => exact .next ⟨.clo he, hS⟩
  | fusedL he =>
    unfold give
    have := unbox_same (P := P) hw
    simp only
    generalize unbox P w = a, unbox P w' = b at this
    cases this with
    | error => exact .err
    | ok h =>
      cases h with
      | none => exact .next ⟨.clo he, .cons (.fusedR hw.vs) hS⟩
      | some h => exact .next ⟨h, .cons (.fusedL he) hS⟩
  | fusedR hl =>
    unfold give
    have := unbox_same (P := P) hw
    simp only
    generalize unbox P w = a, unbox P w' = b at this
    cases this with
    | error => exact .err
    | ok h =>
      cases h with
      | none => exact of_same (intrinsic_same (.cons hl (.cons hw.vs .nil))) hS
      | some h => exact .next ⟨h, .cons (.fusedR hl) hS⟩
  | prim hd hr =>
    cases hr with
    | nil => exact of_same (intrinsic_same (hd.append (.cons hw.vs .nil))) hS
    | cons h h' => exact .next ⟨h, .cons (.prim (hd.append (.cons hw.vs .nil)) h') hS⟩
  | top => exact .next ⟨hw.vs, hS⟩

theorem giveMeta_same {mb mb' : Except Sem.Err (Val K × Val K)} {b b' : R K} {S S' : List (Fr K)} {fr fr' : Fr K}
    (hm : XS TwoS mb mb') (hb : XS VS b b') (hS : Pairs FS S S') (hf : FS fr fr') :
    RS (giveMeta mb b S fr) (giveMeta mb' b' S' fr') := by
  have hf' := hf
  cases hf with
  | demeta he =>
    cases hm with
    | error => exact .err
    | ok h => exact .next ⟨.clo (.cons h.1 (.cons h.2 he)), hS⟩
  | top =>
    cases hm with
    | error => exact .err
    | ok h => exact .next ⟨h.2, .cons .top hS⟩
  | _ => exact of_same hb (.cons hf' hS)

theorem step_same {v v' : Val K} {S S' : List (Fr K)} (hv : HS v v') (hS : Pairs FS S S') :
    RS (step P (v, S)) (step P (v', S')) := by
  unfold step
  have hs := shape_same (P := P) hv
  have plain : ∀ S S' : List (Fr K), Pairs FS S S' → RS (match S with | [] => SRes.done v | fr :: S => give P v S fr)
      (match S' with | [] => SRes.done v' | fr :: S => give P v' S fr) := by
    intro S S' hS
    cases hS with
    | nil => exact .done hv
    | cons hf hS => exact give_same hv hS hf
  simp only
  generalize shape P v = a, shape P v' = b at hs
  cases hs with
  | nat => exact plain _ _ hS
  | fn _ => exact plain _ _ hS
  | data _ => exact plain _ _ hS
  | annotated hm hb =>
    simp only
    cases hS with
    | nil => exact .done hv
    | cons hf hS => exact giveMeta_same hm hb hS hf
  | busy =>
    cases hv with
    | clo he => exact exec_same he hS
    | exp hx hρ => exact execE_same hx hρ hS
    | _ => exact .err


/-- So many steps. -/
inductive Steps (P : World K) : Nat → Cfg K → Cfg K → Prop where
  | zero {c} : Steps P 0 c c
  | succ {c c' c'' n} : step P c = .next c' → Steps P n c' c'' → Steps P (n + 1) c c''

theorem Steps.trans {n m : Nat} {a b c : Cfg K} (h : Steps P n a b) (h' : Steps P m b c) : ∃ k, Steps P k a c := by
  induction h with
  | zero => exact ⟨m, h'⟩
  | succ hs _ ih =>
    obtain ⟨k, hk⟩ := ih h'
    exact ⟨k + 1, .succ hs hk⟩

theorem Steps.ends {n m : Nat} {a b : Cfg K} {r : R K} (h : Steps P n a b) (h' : Ends P m b r) : ∃ k, Ends P k a r := by
  induction h with
  | zero => exact ⟨m, h'⟩
  | succ hs _ ih =>
    obtain ⟨k, hk⟩ := ih h'
    exact ⟨k + 1, .next hs hk⟩

theorem Steps.rest {n m : Nat} {a b : Cfg K} {r : R K} (h : Steps P n a b) (h' : Ends P m a r) : ∃ k ≤ m, Ends P k b r := by
  induction h generalizing m with
  | zero => exact ⟨m, Nat.le_refl _, h'⟩
  | succ hs _ ih =>
    cases h' with
    | done hd => rw [hs] at hd; cases hd
    | err hd => rw [hs] at hd; cases hd
    | next hd h' =>
      rw [hs] at hd
      cases hd
      obtain ⟨k, hk, he⟩ := ih h'
      exact ⟨k, by omega, he⟩

/-- **Every related pair of values becomes alike**, each by steps of its own, with nothing else touched. -/
theorem settle {Φ : Ctx K} {x y : Exp K} (h : T Φ x y) {ρ ρ' : Scopes K} (hρ : SS Φ ρ ρ') :
    ∃ v w, HS v w ∧ (∀ S, ∃ n, Steps P n (.exp x ρ, S) (v, S)) ∧ (∀ S, ∃ n, Steps P n (.exp y ρ', S) (w, S)) := by
  match x, y, h with
  | _, _, .head h => exact ⟨_, _, .exp h hρ, fun S => ⟨0, .zero⟩, fun S => ⟨0, .zero⟩⟩
  | _, _, .unfold ho h =>
    obtain ⟨ρ₀, h1, h2⟩ := opens_find ho hρ
    obtain ⟨v, w, hv, hl, hr⟩ := settle h h2
    refine ⟨v, w, hv, fun S => ?_, hr⟩
    obtain ⟨n, hn⟩ := hl S
    refine ⟨n + 1, .succ ?_ hn⟩
    simp only [step, shape, execE, h1]
  | _, _, .beta (s' := sm) (n := a) (b := b) (xs := xs) hl' h =>
    obtain ⟨v, w, hv, hl, hr⟩ := settle h (.leftArgs hρ)
    refine ⟨v, w, hv, fun S => ?_, hr⟩
    obtain ⟨n, hn⟩ := hl S
    refine ⟨n + 2, .succ (c' := (.exp (.lam sm (a + 1) b) ρ, .apply ((exps xs).map (.exp · ρ)) :: S)) ?_ (.succ ?_ hn)⟩
    · simp only [step, shape, execE]
    · simp only [step, shape, give, onApply, List.length_map, hl', if_true]
  | _, _, .share h =>
    obtain ⟨v, w, hv, hl, hr⟩ := settle h (.rightLet hρ)
    refine ⟨v, w, hv, hl, fun S => ?_⟩
    obtain ⟨n, hn⟩ := hr S
    refine ⟨n + 1, .succ ?_ hn⟩
    simp only [step, shape, execE]
  | _, _, .shared ho h =>
    obtain ⟨ρ₀, h1, h2⟩ := shares_find ho hρ
    obtain ⟨v, w, hv, hl, hr⟩ := settle h h2
    refine ⟨v, w, hv, hl, fun S => ?_⟩
    obtain ⟨n, hn⟩ := hr S
    refine ⟨n + 1, .succ ?_ hn⟩
    simp only [step, shape, execE, h1]

theorem settled {v w : Val K} (h : VS v w) :
    ∃ v' w', HS v' w' ∧ (∀ S, ∃ n, Steps P n (v, S) (v', S)) ∧ (∀ S, ∃ n, Steps P n (w, S) (w', S)) := by
  cases h with
  | nat => exact ⟨_, _, .nat, fun S => ⟨0, .zero⟩, fun S => ⟨0, .zero⟩⟩
  | clo h => exact ⟨_, _, .clo h, fun S => ⟨0, .zero⟩, fun S => ⟨0, .zero⟩⟩
  | con h => exact ⟨_, _, .con h, fun S => ⟨0, .zero⟩, fun S => ⟨0, .zero⟩⟩
  | note h h' => exact ⟨_, _, .note h h', fun S => ⟨0, .zero⟩, fun S => ⟨0, .zero⟩⟩
  | exp h hρ => exact settle h hρ

theorem ends_fwd (n : Nat) : ∀ {v w : Val K} {S S' : List (Fr K)} {r : R K}, VS v w → Pairs FS S S' → Ends P n (v, S) r →
    ∃ m r', Ends P m (w, S') r' ∧ XS HS r r' := by
  induction n using Nat.strongRecOn with
  | ind n ih =>
    intro v w S S' r hv hS he
    obtain ⟨v', w', hh, hl, hr⟩ := settled (P := P) hv
    obtain ⟨k, hk⟩ := hl S
    obtain ⟨k', hk'⟩ := hr S'
    obtain ⟨m, hm, he⟩ := hk.rest he
    have key : ∃ m r', Ends P m (w', S') r' ∧ XS HS r r' := by
      have hst := step_same (P := P) hh hS
      cases he with
      | done hd =>
        rw [hd] at hst
        generalize hs : step P (w', S') = q at hst
        cases hst with
        | done h => exact ⟨0, _, .done hs, .ok h⟩
      | err hd =>
        rw [hd] at hst
        generalize hs : step P (w', S') = q at hst
        cases hst
        exact ⟨0, _, .err hs, .error⟩
      | next hd he =>
        rw [hd] at hst
        generalize hs : step P (w', S') = q at hst
        cases hst with
        | next h =>
          rename_i n' c c'
          obtain ⟨m, r', h1, h2⟩ := ih _ (by omega) h.1 h.2 he
          exact ⟨m + 1, r', .next hs h1, h2⟩
    obtain ⟨m, r', h1, h2⟩ := key
    obtain ⟨m', h3⟩ := hk'.ends h1
    exact ⟨m', r', h3, h2⟩

theorem ends_bwd (n : Nat) : ∀ {v w : Val K} {S S' : List (Fr K)} {r' : R K}, VS v w → Pairs FS S S' → Ends P n (w, S') r' →
    ∃ m r, Ends P m (v, S) r ∧ XS HS r r' := by
  induction n using Nat.strongRecOn with
  | ind n ih =>
    intro v w S S' r' hv hS he
    obtain ⟨v', w', hh, hl, hr⟩ := settled (P := P) hv
    obtain ⟨k, hk⟩ := hl S
    obtain ⟨k', hk'⟩ := hr S'
    obtain ⟨m, hm, he⟩ := hk'.rest he
    have key : ∃ m r, Ends P m (v', S) r ∧ XS HS r r' := by
      have hst := step_same (P := P) hh hS
      cases he with
      | done hd =>
        rw [hd] at hst
        generalize hs : step P (v', S) = q at hst
        cases hst with
        | done h => exact ⟨0, _, .done hs, .ok h⟩
      | err hd =>
        rw [hd] at hst
        generalize hs : step P (v', S) = q at hst
        cases hst
        exact ⟨0, _, .err hs, .error⟩
      | next hd he =>
        rw [hd] at hst
        generalize hs : step P (v', S) = q at hst
        cases hst with
        | next h =>
          rename_i n' c c'
          obtain ⟨m, r', h1, h2⟩ := ih _ (by omega) h.1 h.2 he
          exact ⟨m + 1, r', .next hs h1, h2⟩
    obtain ⟨m, r, h1, h2⟩ := key
    obtain ⟨m', h3⟩ := hk.ends h1
    exact ⟨m', r, h3, h2⟩

theorem seen_same {r r' : R K} (h : XS HS r r') : seen P r = seen P r' := by
  cases h with
  | error => rfl
  | ok h =>
    rename_i v v'
    unfold seen
    have := shape_same (P := P) h
    simp only
    generalize shape P v = a, shape P v' = b at this
    cases this with
    | nat => rfl
    | fn _ => rfl
    | busy => rfl
    | annotated _ _ => rfl
    | data h => cases h with
      | error => rfl
      | ok h => simp only [h.length]

theorem finds_fwd {p : List Nat} {v v' : Val K} {s : Sem.Seen K} (h : VS v v') (hf : Finds P p v s) : Finds P p v' s := by
  induction p generalizing v v' with
  | nil =>
    obtain ⟨n, r, h1, h2⟩ := hf
    obtain ⟨m, r', h3, h4⟩ := ends_fwd n h (.cons .top .nil) h1
    exact ⟨m, r', h3, by rw [← seen_same h4]; exact h2⟩
  | cons i p ih =>
    obtain ⟨n, w, t, vs, u, h1, h2, h3, h4⟩ := hf
    obtain ⟨m, r', h5, h6⟩ := ends_fwd n h (.cons .top .nil) h1
    cases h6 with
    | ok hw =>
      rename_i w'
      have := shape_same (P := P) hw
      rw [h2] at this
      generalize hs : shape P w' = b at this
      cases this with
      | data hd =>
        cases hd with
        | ok hd =>
          rename_i vs'
          have hg := hd.get i
          rw [h3] at hg
          generalize hu : vs'[i]? = o at hg
          cases hg with
          | some hg => exact ⟨m, w', t, _, _, h5, hs, hu, ih hg h4⟩

theorem finds_bwd {p : List Nat} {v v' : Val K} {s : Sem.Seen K} (h : VS v v') (hf : Finds P p v' s) : Finds P p v s := by
  induction p generalizing v v' with
  | nil =>
    obtain ⟨n, r, h1, h2⟩ := hf
    obtain ⟨m, r', h3, h4⟩ := ends_bwd n h (.cons .top .nil) h1
    exact ⟨m, r', h3, by rw [seen_same h4]; exact h2⟩
  | cons i p ih =>
    obtain ⟨n, w, t, vs, u, h1, h2, h3, h4⟩ := hf
    obtain ⟨m, r', h5, h6⟩ := ends_bwd n h (.cons .top .nil) h1
    cases h6 with
    | ok hw =>
      rename_i w'
      have := shape_same (P := P) hw
      rw [h2] at this
      generalize hs : shape P w' = b at this
      cases this with
      | data hd =>
        cases hd with
        | ok hd =>
          rename_i vs'
          have hg := hd.get i
          rw [h3] at hg
          generalize hu : vs'[i]? = o at hg
          cases hg with
          | some hg => exact ⟨m, w', t, _, _, h5, hs, hu, ih hg h4⟩

/-- **Related expressions show the same.** -/
theorem shows_same {x y : Exp K} (h : T [] x y) (p : List Nat) (s : Sem.Seen K) : Shows P x p s ↔ Shows P y p s :=
  ⟨finds_fwd (.exp h .nil), finds_bwd (.exp h .nil)⟩
end

end Verif.Inl
