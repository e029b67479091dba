import Verif.InlSim

/-!
# Putting something in for an expression that comes to the same

Two expressions join if, whatever their names stand for, both come to one and the same value, got in one and the same way from
what the names stand for, with nothing else touched.
Expressions that differ only in places where they join show the same.

Proofs only.
-/

namespace Verif.Fold
open Verif.Comp Verif.Bc Verif.Dem
variable {K : Type}

/-- What may be come to: an expression, something without names, or a list of expressions. -/
inductive Goal (K : Type) where
  | exp (x : Exp K)
  | const (v : Val K)
  | list (xs : Exps K)

def Goal.at : Goal K → Scopes K → Val K
  | .exp x, ρ => .exp x ρ
  | .const v, _ => v
  | .list xs, ρ => listOf ((exps xs).map (.exp · ρ))

/-- Whatever its names stand for, the expression comes to this. -/
def Leads (P : World K) (x : Exp K) (g : Goal K) : Prop := ∀ ρ S, ∃ n, Inl.Steps P n (.exp x ρ, S) (g.at ρ, S)

/-- Both come to one and the same. -/
def Joins (P : World K) (x y : Exp K) : Prop := ∃ g, Leads P x g ∧ Leads P y g

section
variable (P : World K)

mutual
/-- The same at the head. -/
inductive H : Exp K → Exp K → Prop where
  | var {s i n n'} : H (.var s i n) (.var s i n')
  | free {x} : H (.free x) (.free x)
  | let_ {bs bs' b b'} : Tb bs bs' → T b b' → H (.let_ bs b) (.let_ bs' b')
  | lam {s s' n b b'} : T b b' → H (.lam s n b) (.lam s' n b')
  | app {s s' f f' xs xs'} : T f f' → Ts xs xs' → H (.app s f xs) (.app s' f' xs')
  | lit {p} : H (.lit p) (.lit p)
  | list {s s' xs xs'} : Ts xs xs' → H (.list s xs) (.list s' xs')
  | block {s s' xs xs'} : Tk xs xs' → H (.block s xs) (.block s' xs')
  | intrinsic {x} : H (.intrinsic x) (.intrinsic x)
  | lookup {s s' x x' k} : T x x' → H (.lookup s x k) (.lookup s' x' k)
  | lookupOr {s s' x x' k d d'} : T x x' → T d d' → H (.lookupOr s x k d) (.lookupOr s' x' k d')
  | metaOf {s s' x x' m m'} : T x x' → T m m' → H (.metaOf s x m) (.metaOf s' x' m')
  | operator {s s' x x'} : T x x' → H (.operator s x) (.operator s' x')
  | other : H .other .other
/-- The same, but for places that join. -/
inductive T : Exp K → Exp K → Prop where
  | head {x y} : H x y → T x y
  | join {x y} : Joins P x y → T x y
inductive Ts : Exps K → Exps K → Prop where
  | nil : Ts .nil .nil
  | cons {x y xs ys} : T x y → Ts xs ys → Ts (.cons x xs) (.cons y ys)
inductive Tb : Binds K → Binds K → Prop where
  | nil : Tb .nil .nil
  | cons {n n' d d' x y xs ys} : T x y → Tb xs ys → Tb (.cons n d x xs) (.cons n' d' y ys)
inductive Tk : Kvs K → Kvs K → Prop where
  | nil : Tk .nil .nil
  | cons {k x y xs ys} : T x y → Tk xs ys → Tk (.cons k x xs) (.cons k y ys)
end

mutual
/-- Related values. -/
inductive VS : Val K → Val K → Prop where
  | nat {k} : VS (.nat k) (.nat k)
  | clo {a c e e'} : ES e e' → VS (.clo a c e) (.clo a c e')
  | exp {x y ρ ρ'} : T P x y → SS ρ ρ' → VS (.exp x ρ) (.exp y ρ')
  | con {t vs vs'} : Pairs VS vs vs' → VS (.con t vs) (.con t vs')
  | note {m m' b b'} : VS m m' → VS b b' → VS (.note m b) (.note m' b')
inductive ES : Env K → Env K → Prop where
  | nil : ES .nil .nil
  | cons {v v' e e'} : VS v v' → ES e e' → ES (.cons v e) (.cons v' e')
  | recs {fs e e'} : ES e e' → ES (.recs fs e) (.recs fs e')
inductive SS : Scopes K → Scopes K → Prop where
  | nil : SS .nil .nil
  | args {vs vs' ρ ρ'} : Pairs VS vs vs' → SS ρ ρ' → SS (.args vs ρ) (.args vs' ρ')
  | recs {bs bs' ρ ρ'} : Tb P bs bs' → SS ρ ρ' → SS (.recs bs ρ) (.recs bs' ρ')
end

/-- Related values that are alike as they stand. -/
inductive HS : Val K → Val K → Prop where
  | nat {k} : HS (.nat k) (.nat k)
  | clo {a c e e'} : ES P e e' → HS (.clo a c e) (.clo a c e')
  | exp {x y ρ ρ'} : H P x y → SS P ρ ρ' → HS (.exp x ρ) (.exp y ρ')
  | con {t vs vs'} : Pairs (VS P) vs vs' → HS (.con t vs) (.con t vs')
  | note {m m' b b'} : VS P m m' → VS P b b' → HS (.note m b) (.note m' b')
end

variable {P : World K}

/-! ## Everything is related to itself -/

mutual
theorem H.refl (x : Exp K) : H P x x := by
  match x with
  | .var s i n => exact .var
  | .free n => exact .free
  | .let_ bs b => exact .let_ (Tb.refl bs) (.head (H.refl b))
  | .lam s n b => exact .lam (.head (H.refl b))
  | .app s f xs => exact .app (.head (H.refl f)) (Ts.refl xs)
  | .lit p => exact .lit
  | .list s xs => exact .list (Ts.refl xs)
  | .block s xs => exact .block (Tk.refl xs)
  | .intrinsic n => exact .intrinsic
  | .lookup s x k => exact .lookup (.head (H.refl x))
  | .lookupOr s x k d => exact .lookupOr (.head (H.refl x)) (.head (H.refl d))
  | .metaOf s x m => exact .metaOf (.head (H.refl x)) (.head (H.refl m))
  | .operator s x => exact .operator (.head (H.refl x))
  | .other => exact .other
theorem Ts.refl (xs : Exps K) : Ts P xs xs := by
  match xs with
  | .nil => exact .nil
  | .cons x xs => exact .cons (.head (H.refl x)) (Ts.refl xs)
theorem Tb.refl (xs : Binds K) : Tb P xs xs := by
  match xs with
  | .nil => exact .nil
  | .cons n d x xs => exact .cons (.head (H.refl x)) (Tb.refl xs)
theorem Tk.refl (xs : Kvs K) : Tk P xs xs := by
  match xs with
  | .nil => exact .nil
  | .cons k x xs => exact .cons (.head (H.refl x)) (Tk.refl xs)
end

theorem T.refl (x : Exp K) : T P x x := .head (H.refl x)

mutual
theorem VS.refl (v : Val K) : VS P v v := by
  match v with
  | .nat k => exact .nat
  | .clo a c e => exact .clo (ES.refl e)
  | .exp x ρ => exact .exp (T.refl x) (SS.refl ρ)
  | .con t vs => exact .con (PS.refl vs)
  | .note m b => exact .note (VS.refl m) (VS.refl b)
theorem PS.refl (vs : List (Val K)) : Pairs (VS P) vs vs := by
  match vs with
  | [] => exact .nil
  | v :: vs => exact .cons (VS.refl v) (PS.refl vs)
theorem ES.refl (e : Env K) : ES P e e := by
  match e with
  | .nil => exact .nil
  | .cons v e => exact .cons (VS.refl v) (ES.refl e)
  | .recs fs e => exact .recs (ES.refl e)
theorem SS.refl (ρ : Scopes K) : SS P ρ ρ := by
  match ρ with
  | .nil => exact .nil
  | .args vs ρ => exact .args (PS.refl vs) (SS.refl ρ)
  | .recs bs ρ => exact .recs (Tb.refl bs) (SS.refl ρ)
end

theorem HS.refl (v : Val K) : HS P v v := by
  match v with
  | .nat k => exact .nat
  | .clo a c e => exact .clo (ES.refl e)
  | .exp x ρ => exact .exp (H.refl x) (SS.refl ρ)
  | .con t vs => exact .con (PS.refl vs)
  | .note m b => exact .note (VS.refl m) (VS.refl b)

/-! ## Where the names lead -/

theorem binds_get {bs bs' : Binds K} (h : Tb P bs bs') (i : Nat) : OS (T P) (bindings bs)[i]? (bindings bs')[i]? := by
  match bs, bs', h with
  | _, _, .nil => exact .none
  | _, _, .cons h h' =>
    cases i with
    | zero => exact .some h
    | succ i => simpa [bindings] using binds_get h' i

theorem same_find {ρ ρ' : Scopes K} (hρ : SS P ρ ρ') (s i : Nat) : OS (VS P) (find ρ s i) (find ρ' s i) := by
  match ρ, ρ', hρ with
  | _, _, .nil => exact .none
  | _, _, .args hv h =>
    unfold find
    split
    · exact hv.get i
    · exact same_find h _ _
  | _, _, .recs (bs := bs) (bs' := bs') hb h =>
    unfold find
    split
    · have := binds_get hb i
      generalize (bindings bs)[i]? = a, (bindings bs')[i]? = b at this
      cases this with
      | none => exact .none
      | some h' => exact .some (.exp h' (.recs hb h))
    · exact same_find h _ _

theorem HS.vs {v w : Val K} (h : (HS P) v w) : (VS P) v w := by
  cases h with
  | nat => exact .nat
  | clo h => exact .clo h
  | exp h h' => exact .exp (.head h) h'
  | con h => exact .con h
  | note h h' => exact .note h h'

/-! ## Environments -/

theorem ES.consAll {vs vs' : List (Val K)} {e e' : Env K} (hv : Pairs (VS P) vs vs') (he : (ES P) e e') :
    (ES P) (consAll vs e) (consAll vs' e') := by
  induction hv with
  | nil => exact he
  | cons h _ ih => exact .cons h ih

theorem close_same {f : Form K} {e e' : Env K} (he : (ES P) e e') : (VS P) (close f e) (close f e') := .clo he

theorem lookup_same {e e' : Env K} (h : (ES P) e e') (i : Nat) : OS (VS P) (lookup e i) (lookup e' i) := by
  match e, e', h with
  | _, _, .nil => exact .none
  | _, _, .cons hv he =>
    unfold lookup
    split
    · exact .some hv
    · exact lookup_same he _
  | _, _, .recs he =>
    unfold lookup
    split
    · exact .some (close_same (.recs he))
    · exact lookup_same he _

theorem exps_same {xs ys : Exps K} {ρ ρ' : Scopes K} (h : Ts P xs ys) (hρ : SS P ρ ρ') :
    Pairs (VS P) ((exps xs).map (.exp · ρ)) ((exps ys).map (.exp · ρ')) := by
  match xs, ys, h with
  | _, _, .nil => exact .nil
  | _, _, .cons h h' => exact .cons (.exp h hρ) (exps_same h' hρ)

theorem entries_same {xs ys : Kvs K} {ρ ρ' : Scopes K} (h : Tk P xs ys) (hρ : SS P ρ ρ') :
    Pairs (VS P) (entries ρ xs) (entries ρ' ys) := by
  match xs, ys, h with
  | _, _, .nil => exact .nil
  | _, _, .cons h h' => exact .cons (.con (.cons .nat (.cons (.exp h hρ) .nil))) (entries_same h' hρ)

theorem listOf_same {vs vs' : List (Val K)} (h : Pairs (VS P) vs vs') : (VS P) (listOf vs) (listOf vs') := by
  induction h with
  | nil => exact .con .nil
  | cons h _ ih => exact .con (.cons h (.cons ih .nil))

theorem literal_same (p : Prim K) : (VS P) (literal p) (literal p) := by
  cases p with
  | bool b => cases b <;> exact .con .nil
  | null => exact .con .nil
  | _ => exact .con (.cons .nat .nil)

/-! ## Steps -/


theorem global_same (i : Nat) : XS (VS P) (global P i) (global P i) := by
  unfold global
  cases P.sem.globals[i]? with
  | some f => exact .ok (.clo .nil)
  | none => exact .error

theorem resolve_same {e e' : Env K} (h : (ES P) e e') (r : Ref K) : XS (VS P) (resolve P e r) (resolve P e' r) := by
  cases r with
  | l i =>
    unfold resolve
    have := lookup_same h i
    simp only
    generalize lookup e i = a, lookup e' i = b at this
    cases this with
    | none => exact .error
    | some h => exact .ok h
  | g i => exact global_same i
  | v k => exact .ok .nat

theorem resolveAll_same {e e' : Env K} (h : (ES P) e e') (rs : List (Ref K)) :
    XS (Pairs (VS P)) (resolveAll P e rs) (resolveAll P e' rs) := by
  induction rs with
  | nil => exact .ok .nil
  | cons r rs ih =>
    unfold resolveAll
    have h1 := resolve_same (P := P) h r
    generalize resolve P e r = a, resolve P e' r = b at h1
    cases h1 with
    | error => exact .error
    | ok hv =>
      simp only
      generalize resolveAll P e rs = a, resolveAll P e' rs = b at ih
      cases ih with
      | error => exact .error
      | ok hvs => exact .ok (.cons hv hvs)

/-- Pairs of related values. -/
def TwoS (P : World K) (a b : Val K × Val K) : Prop := (VS P) a.1 b.1 ∧ (VS P) a.2 b.2

inductive ShS (P : World K) : Shape K → Shape K → Prop where
  | nat {k} : ShS P (.nat k) (.nat k)
  | fn {a f g} : (∀ vs vs', Pairs (VS P) vs vs' → (VS P) (f vs) (g vs')) → ShS P (.fn a f) (.fn a g)
  | data {t r r'} : XS (Pairs (VS P)) r r' → ShS P (.data t r) (.data t r')
  | annotated {mb mb' b b'} : XS (TwoS P) mb mb' → XS (VS P) b b' → ShS P (.annotated mb b) (.annotated mb' b')
  | busy : ShS P .busy .busy

theorem pairOf_same {a b : Except Sem.Err (List (Val K))} (h : XS (Pairs (VS P)) a b) : XS (TwoS P) (pairOf a) (pairOf b) := by
  cases h with
  | error => exact .error
  | ok h =>
    cases h with
    | nil => exact .error
    | cons h1 h =>
      cases h with
      | nil => exact .error
      | cons h2 h =>
        cases h with
        | nil => exact .ok ⟨h1, h2⟩
        | cons _ _ => exact .error

theorem shape_same {v v' : Val K} (h : (HS P) v v') : (ShS P) (shape P v) (shape P v') := by
  cases h with
  | nat => exact .nat
  | con h => exact .data (.ok h)
  | note h h' => exact .annotated (.ok ⟨h, h'⟩) (.ok h')
  | clo he =>
    rename_i a c e e'
    cases a with
    | succ a => exact .fn fun vs vs' hv => .clo (.consAll hv he)
    | zero =>
      cases c with
      | cons t as => exact .data (resolveAll_same he as)
      | metaOf m b => exact .annotated (pairOf_same (resolveAll_same he _)) (resolve_same he b)
      | _ => exact .busy
  | exp hx hρ =>
    cases hx with
    | lam hb =>
      rename_i s s' n b b'
      cases n with
      | zero => exact .busy
      | succ n => exact .fn fun vs vs' hv => .exp hb (.args hv hρ)
    | _ => exact .busy

inductive FS (P : World K) : Fr K → Fr K → Prop where
  | case {bs fb e e'} : (ES P) e e' → FS P (.case bs fb e) (.case bs fb e')
  | apply {as as'} : Pairs (VS P) as as' → FS P (.apply as) (.apply as')
  | demeta {h o e e'} : (ES P) e e' → FS P (.demeta h o e) (.demeta h o e')
  | seq {b e e'} : (ES P) e e' → FS P (.seq b e) (.seq b e')
  | fusedL {i r e e'} : (ES P) e e' → FS P (.fusedL i r e) (.fusedL i r e')
  | fusedR {i l l'} : (VS P) l l' → FS P (.fusedR i l) (.fusedR i l')
  | prim {i d d' r r'} : Pairs (VS P) d d' → Pairs (VS P) r r' → FS P (.prim i d r) (.prim i d' r')
  | top : FS P .top .top

def CS (P : World K) (c c' : Cfg K) : Prop := (VS P) c.1 c'.1 ∧ Pairs (FS P) c.2 c'.2

inductive RS (P : World K) : SRes K → SRes K → Prop where
  | next {c c'} : (CS P) c c' → RS P (.next c) (.next c')
  | done {v v'} : (HS P) v v' → RS P (.done v) (.done v')
  | err {x} : RS P (.err x) (.err x)

theorem of_same {r r' : R K} {S S' : List (Fr K)} (h : XS (VS P) r r') (hS : Pairs (FS P) S S') : (RS P) (.of r S) (.of r' S') := by
  cases h with
  | ok h => exact .next ⟨h, hS⟩
  | error => exact .err

theorem execE_same {x y : Exp K} {ρ ρ' : Scopes K} {S S' : List (Fr K)} (hx : H P x y) (hρ : SS P ρ ρ')
    (hS : Pairs (FS P) S S') : (RS P) (execE P x ρ S) (execE P y ρ' S') := by
  cases hx with
  | var =>
    rename_i s i n n'
    unfold execE
    have := same_find hρ s i
    simp only
    generalize find ρ s i = a, find ρ' s i = b at this
    cases this with
    | none => exact .err
    | some h => exact .next ⟨h, hS⟩
  | free =>
    rename_i n
    unfold execE
    simp only
    cases P.prelude n with
    | none => exact .err
    | some i => exact of_same (global_same i) hS
  | let_ h h' => exact .next ⟨.exp h' (.recs h hρ), hS⟩
  | lam h => exact .next ⟨.exp h (.args .nil hρ), hS⟩
  | app h h' => exact .next ⟨.exp h hρ, .cons (.apply (exps_same h' hρ)) hS⟩
  | lit => exact .next ⟨literal_same _, hS⟩
  | list h => exact .next ⟨listOf_same (exps_same h hρ), hS⟩
  | block h => exact .next ⟨.con (.cons (listOf_same (entries_same h hρ)) (.cons .nat .nil)), hS⟩
  | intrinsic =>
    rename_i n
    unfold execE
    simp only
    cases P.index n with
    | none => exact .err
    | some i => exact of_same (global_same i) hS
  | metaOf h h' => exact .next ⟨.note (.exp h' hρ) (.exp h hρ), hS⟩
  | operator h => exact .next ⟨.exp h hρ, hS⟩
  | lookup _ => exact .err
  | lookupOr _ _ => exact .err
  | other => exact .err

theorem fallback_same {v v' : Val K} {fb : Fb K} {e e' : Env K} {x} (hv : (VS P) v v') (he : (ES P) e e') :
    XS (VS P) (fallback v fb e x) (fallback v' fb e' x) := by
  cases fb with
  | none => exact .error
  | some b => exact .ok (.clo (.cons hv he))

theorem onCase_same {v v' : Val K} {bs : Brs K} {fb : Fb K} {e e' : Env K} (hv : (HS P) v v') (he : (ES P) e e') :
    XS (VS P) (onCase P v bs fb e) (onCase P v' bs fb e') := by
  unfold onCase
  have := shape_same (P := P) hv
  generalize shape P v = a, shape P v' = b at this
  cases this with
  | nat => exact fallback_same hv.vs he
  | fn _ => exact fallback_same hv.vs he
  | busy => exact .error
  | annotated _ _ => exact .error
  | data h =>
    rename_i t r r'
    simp only
    cases Sem.branch bs t with
    | none => exact fallback_same hv.vs he
    | some body =>
      cases h with
      | error => exact .error
      | ok h => exact .ok (.clo (.consAll h he))

def ApS (P : World K) (a b : Val K × Option (List (Val K))) : Prop := (VS P) a.1 b.1 ∧ OS (Pairs (VS P)) a.2 b.2

theorem onApply_same {v v' : Val K} {as as' : List (Val K)} (hv : (HS P) v v') (ha : Pairs (VS P) as as') :
    XS (ApS P) (onApply P v as) (onApply P v' as') := by
  unfold onApply
  have := shape_same (P := P) hv
  have hl := ha.length
  generalize shape P v = a, shape P v' = b at this
  cases this with
  | nat => exact .error
  | busy => exact .error
  | annotated _ _ => exact .error
  | fn h =>
    simp only [hl]
    split
    · exact .ok ⟨h _ _ ha, .none⟩
    · split
      · exact .ok ⟨.clo (.consAll (.cons hv.vs ha) .nil), .none⟩
      · exact .ok ⟨h _ _ (ha.take _), .some (ha.drop _)⟩
  | data h =>
    simp only
    split
    · have := global_same (P := P) P.sem.merge
      cases hg : global P P.sem.merge with
      | error => exact .error
      | ok m =>
        rw [hg] at this
        cases this with
        | ok hm => exact .ok ⟨hm, .some (ha.append (.cons hv.vs .nil))⟩
    · exact .error

theorem callee_same {e e' : Env K} (he : (ES P) e e') (r : Ref K) : XS (VS P) (callee P e r) (callee P e' r) := by
  cases r with
  | v k => exact .error
  | l i => exact resolve_same (P := P) he (.l i)
  | g i => exact resolve_same (P := P) he (.g i)

theorem eagerBad_same {e e' : Env K} (he : (ES P) e e') (rs : List (Ref K)) : eagerBad e rs = eagerBad e' rs := by
  induction rs with
  | nil => rfl
  | cons r rs ih =>
    cases r with
    | l i =>
      unfold eagerBad
      have := lookup_same he i
      generalize lookup e i = a, lookup e' i = b at this
      cases this with
      | none => rfl
      | some _ => exact ih
    | g i => exact ih
    | v k => exact ih

theorem app_same {e e' : Env K} (he : (ES P) e e') (f : Ref K) (as : List (Ref K)) (eager : Bool) :
    XS (fun a b => (VS P) a.1 b.1 ∧ Pairs (VS P) a.2 b.2) (app P e f as eager) (app P e' f as eager) := by
  unfold app
  rw [eagerBad_same he]
  cases (if eager = true then eagerBad e' as else none) with
  | some i => exact .error
  | none =>
    have := callee_same (P := P) he f
    generalize callee P e f = a, callee P e' f = b at this
    cases this with
    | error => exact .error
    | ok h => exact .ok ⟨h, .map as fun r => .clo he⟩

theorem unbox_same {v v' : Val K} (hv : (HS P) v v') : XS (OS (VS P)) (unbox P v) (unbox P v') := by
  unfold unbox
  have := shape_same (P := P) hv
  generalize shape P v = a, shape P v' = b at this
  cases this with
  | nat => exact .ok .none
  | fn _ => exact .ok .none
  | busy => exact .ok .none
  | annotated _ _ => exact .ok .none
  | data h =>
    simp only
    split
    · cases h with
      | error => exact .error
      | ok h =>
        cases h with
        | nil => exact .error
        | cons h _ => exact .ok (.some h)
    · exact .ok .none

theorem natives_same {vs vs' : List (Val K)} (h : Pairs (VS P) vs vs') : natives vs = natives vs' := by
  induction h with
  | nil => rfl
  | cons h _ ih => cases h <;> simp [natives, ih]

theorem intrinsic_same {id : Nat} {vs vs' : List (Val K)} (h : Pairs (VS P) vs vs') : XS (VS P) (intrinsic P id vs) (intrinsic P id vs') := by
  unfold intrinsic
  rw [natives_same h]
  split
  · exact .error
  · split
    · exact .ok (.clo .nil)
    · exact .error

theorem exec_same {c : Syn K} {e e' : Env K} {S S' : List (Fr K)} (he : (ES P) e e') (hS : Pairs (FS P) S S') :
    (RS P) (exec P c e S) (exec P c e' S') := by
  cases c with
  | atom r => exact of_same (resolve_same he r) hS
  | case scr bs fb => exact .next ⟨.clo he, .cons (.case he) hS⟩
  | app f args eager =>
    unfold exec
    have := app_same (P := P) he f args eager
    simp only
    generalize app P e f args eager = a, app P e' f args eager = b at this
    cases this with
    | error => exact .err
    | ok h => exact .next ⟨h.1, .cons (.apply h.2) hS⟩
  | dapp s f args eager =>
    unfold exec
    have := app_same (P := P) he f args eager
    simp only
    generalize app P e f args eager = a, app P e' f args eager = b at this
    cases this with
    | error => exact .err
    | ok h => exact .next ⟨h.1, .cons (.apply h.2) hS⟩
  | «bif» id args =>
    unfold exec
    have := resolveAll_same (P := P) he args
    simp only
    generalize resolveAll P e args = a, resolveAll P e' args = b at this
    cases this with
    | error => exact .err
    | ok h =>
      cases h with
      | nil => exact of_same (intrinsic_same .nil) hS
      | cons h h' => exact .next ⟨h, .cons (.prim .nil h') hS⟩
  | let_ fs body => exact .next ⟨.clo (.consAll (.map _ fun f => close_same he) he), hS⟩
  | letrec fs body => exact .next ⟨.clo (.recs he), hS⟩
  | ann s body => exact .next ⟨.clo he, hS⟩
  | demeta scr h o => exact .next ⟨.clo he, .cons (.demeta he) hS⟩
  | seq scr body => exact .next ⟨.clo he, .cons (.seq he) hS⟩
  | fused id l r => exact .next ⟨.clo he, .cons (.fusedL he) hS⟩
  | _ => exact .err

theorem give_same {w w' : Val K} {S S' : List (Fr K)} {fr fr' : Fr K} (hw : (HS P) w w') (hS : Pairs (FS P) S S') (hf : (FS P) fr fr') :
    (RS P) (give P w S fr) (give P w' S' fr') := by
  cases hf with
  | case he => exact of_same (onCase_same hw he) hS
  | apply ha =>
    unfold give
    have := onApply_same (P := P) hw ha
    simp only
    generalize onApply P w _ = a, onApply P w' _ = b at this
    cases this with
    | error => exact .err
    | ok h =>
      rename_i p q
      obtain ⟨u, r⟩ := p
      obtain ⟨u', r'⟩ := q
      obtain ⟨h1, h2⟩ := h
      simp only at h1 h2
      cases h2 with
      | none => exact .next ⟨h1, hS⟩
      | some h2 => exact .next ⟨h1, .cons (.apply h2) hS⟩
  | demeta he => exact .next ⟨.clo (.cons hw.vs he), hS⟩
  | seq he => exact .next ⟨.clo he, hS⟩
  | fusedL he =>
    unfold give
    have := unbox_same (P := P) hw
    simp only
    generalize unbox P w = a, unbox P w' = b at this
    cases this with
    | error => exact .err
    | ok h =>
      cases h with
      | none => exact .next ⟨.clo he, .cons (.fusedR hw.vs) hS⟩
      | some h => exact .next ⟨h, .cons (.fusedL he) hS⟩
  | fusedR hl =>
    unfold give
    have := unbox_same (P := P) hw
    simp only
    generalize unbox P w = a, unbox P w' = b at this
    cases this with
    | error => exact .err
    | ok h =>
      cases h with
      | none => exact of_same (intrinsic_same (.cons hl (.cons hw.vs .nil))) hS
      | some h => exact .next ⟨h, .cons (.fusedR hl) hS⟩
  | prim hd hr =>
    cases hr with
    | nil => exact of_same (intrinsic_same (hd.append (.cons hw.vs .nil))) hS
    | cons h h' => exact .next ⟨h, .cons (.prim (hd.append (.cons hw.vs .nil)) h') hS⟩
  | top => exact .next ⟨hw.vs, hS⟩

theorem giveMeta_same {mb mb' : Except Sem.Err (Val K × Val K)} {b b' : R K} {S S' : List (Fr K)} {fr fr' : Fr K}
    (hm : XS (TwoS P) mb mb') (hb : XS (VS P) b b') (hS : Pairs (FS P) S S') (hf : (FS P) fr fr') :
    (RS P) (giveMeta mb b S fr) (giveMeta mb' b' S' fr') := by
  have hf' := hf
  cases hf with
  | demeta he =>
    cases hm with
    | error => exact .err
    | ok h => exact .next ⟨.clo (.cons h.1 (.cons h.2 he)), hS⟩
  | top =>
    cases hm with
    | error => exact .err
    | ok h => exact .next ⟨h.2, .cons .top hS⟩
  | _ => exact of_same hb (.cons hf' hS)

theorem step_same {v v' : Val K} {S S' : List (Fr K)} (hv : (HS P) v v') (hS : Pairs (FS P) S S') :
    (RS P) (step P (v, S)) (step P (v', S')) := by
  unfold step
  have hs := shape_same (P := P) hv
  have plain : ∀ S S' : List (Fr K), Pairs (FS P) S S' → (RS P) (match S with | [] => SRes.done v | fr :: S => give P v S fr)
      (match S' with | [] => SRes.done v' | fr :: S => give P v' S fr) := by
    intro S S' hS
    cases hS with
    | nil => exact .done hv
    | cons hf hS => exact give_same hv hS hf
  simp only
  generalize shape P v = a, shape P v' = b at hs
  cases hs with
  | nat => exact plain _ _ hS
  | fn _ => exact plain _ _ hS
  | data _ => exact plain _ _ hS
  | annotated hm hb =>
    simp only
    cases hS with
    | nil => exact .done hv
    | cons hf hS => exact giveMeta_same hm hb hS hf
  | busy =>
    cases hv with
    | clo he => exact exec_same he hS
    | exp hx hρ => exact execE_same hx hρ hS
    | _ => exact .err


theorem listOf_alike {vs vs' : List (Val K)} (h : Pairs (VS P) vs vs') : HS P (listOf vs) (listOf vs') := by
  cases h with
  | nil => exact .con .nil
  | cons h h' => exact .con (.cons h (.cons (listOf_same h') .nil))

theorem goal_same (g : Goal K) {ρ ρ' : Scopes K} (hρ : SS P ρ ρ') : HS P (g.at ρ) (g.at ρ') := by
  cases g with
  | exp x => exact .exp (H.refl x) hρ
  | const v => exact HS.refl v
  | list xs => exact listOf_alike (exps_same (Ts.refl xs) hρ)

/-- **Every related pair of values becomes alike**, each by steps of its own, with nothing else touched. -/
theorem settled {v w : Val K} (h : VS P v w) :
    ∃ v' w', HS P v' w' ∧ (∀ S, ∃ n, Inl.Steps P n (v, S) (v', S)) ∧ (∀ S, ∃ n, Inl.Steps P n (w, S) (w', S)) := by
  cases h with
  | nat => exact ⟨_, _, .nat, fun S => ⟨0, .zero⟩, fun S => ⟨0, .zero⟩⟩
  | clo h => exact ⟨_, _, .clo h, fun S => ⟨0, .zero⟩, fun S => ⟨0, .zero⟩⟩
  | con h => exact ⟨_, _, .con h, fun S => ⟨0, .zero⟩, fun S => ⟨0, .zero⟩⟩
  | note h h' => exact ⟨_, _, .note h h', fun S => ⟨0, .zero⟩, fun S => ⟨0, .zero⟩⟩
  | exp h hρ =>
    cases h with
    | head h => exact ⟨_, _, .exp h hρ, fun S => ⟨0, .zero⟩, fun S => ⟨0, .zero⟩⟩
    | join h =>
      rename_i x y ρ ρ'
      obtain ⟨g, h1, h2⟩ := h
      exact ⟨g.at ρ, g.at ρ', goal_same g hρ, fun S => h1 ρ S, fun S => h2 ρ' S⟩

theorem ends_fwd (n : Nat) : ∀ {v w : Val K} {S S' : List (Fr K)} {r : R K}, (VS P) v w → Pairs (FS P) S S' → Ends P n (v, S) r →
    ∃ m r', Ends P m (w, S') r' ∧ XS (HS P) r r' := by
  induction n using Nat.strongRecOn with
  | ind n ih =>
    intro v w S S' r hv hS he
    obtain ⟨v', w', hh, hl, hr⟩ := settled (P := P) hv
    obtain ⟨k, hk⟩ := hl S
    obtain ⟨k', hk'⟩ := hr S'
    obtain ⟨m, hm, he⟩ := hk.rest he
    have key : ∃ m r', Ends P m (w', S') r' ∧ XS (HS P) r r' := by
      have hst := step_same (P := P) hh hS
      cases he with
      | done hd =>
        rw [hd] at hst
        generalize hs : step P (w', S') = q at hst
        cases hst with
        | done h => exact ⟨0, _, .done hs, .ok h⟩
      | err hd =>
        rw [hd] at hst
        generalize hs : step P (w', S') = q at hst
        cases hst
        exact ⟨0, _, .err hs, .error⟩
      | next hd he =>
        rw [hd] at hst
        generalize hs : step P (w', S') = q at hst
        cases hst with
        | next h =>
          rename_i n' c c'
          obtain ⟨m, r', h1, h2⟩ := ih _ (by omega) h.1 h.2 he
          exact ⟨m + 1, r', .next hs h1, h2⟩
    obtain ⟨m, r', h1, h2⟩ := key
    obtain ⟨m', h3⟩ := hk'.ends h1
    exact ⟨m', r', h3, h2⟩

theorem ends_bwd (n : Nat) : ∀ {v w : Val K} {S S' : List (Fr K)} {r' : R K}, (VS P) v w → Pairs (FS P) S S' → Ends P n (w, S') r' →
    ∃ m r, Ends P m (v, S) r ∧ XS (HS P) r r' := by
  induction n using Nat.strongRecOn with
  | ind n ih =>
    intro v w S S' r' hv hS he
    obtain ⟨v', w', hh, hl, hr⟩ := settled (P := P) hv
    obtain ⟨k, hk⟩ := hl S
    obtain ⟨k', hk'⟩ := hr S'
    obtain ⟨m, hm, he⟩ := hk'.rest he
    have key : ∃ m r, Ends P m (v', S) r ∧ XS (HS P) r r' := by
      have hst := step_same (P := P) hh hS
      cases he with
      | done hd =>
        rw [hd] at hst
        generalize hs : step P (v', S) = q at hst
        cases hst with
        | done h => exact ⟨0, _, .done hs, .ok h⟩
      | err hd =>
        rw [hd] at hst
        generalize hs : step P (v', S) = q at hst
        cases hst
        exact ⟨0, _, .err hs, .error⟩
      | next hd he =>
        rw [hd] at hst
        generalize hs : step P (v', S) = q at hst
        cases hst with
        | next h =>
          rename_i n' c c'
          obtain ⟨m, r', h1, h2⟩ := ih _ (by omega) h.1 h.2 he
          exact ⟨m + 1, r', .next hs h1, h2⟩
    obtain ⟨m, r, h1, h2⟩ := key
    obtain ⟨m', h3⟩ := hk.ends h1
    exact ⟨m', r, h3, h2⟩

theorem seen_same {r r' : R K} (h : XS (HS P) r r') : seen P r = seen P r' := by
  cases h with
  | error => rfl
  | ok h =>
    rename_i v v'
    unfold seen
    have := shape_same (P := P) h
    simp only
    generalize shape P v = a, shape P v' = b at this
    cases this with
    | nat => rfl
    | fn _ => rfl
    | busy => rfl
    | annotated _ _ => rfl
    | data h => cases h with
      | error => rfl
      | ok h => simp only [h.length]

theorem finds_fwd {p : List Nat} {v v' : Val K} {s : Sem.Seen K} (h : (VS P) v v') (hf : Finds P p v s) : Finds P p v' s := by
  induction p generalizing v v' with
  | nil =>
    obtain ⟨n, r, h1, h2⟩ := hf
    obtain ⟨m, r', h3, h4⟩ := ends_fwd n h (.cons .top .nil) h1
    exact ⟨m, r', h3, by rw [← seen_same h4]; exact h2⟩
  | cons i p ih =>
    obtain ⟨n, w, t, vs, u, h1, h2, h3, h4⟩ := hf
    obtain ⟨m, r', h5, h6⟩ := ends_fwd n h (.cons .top .nil) h1
    cases h6 with
    | ok hw =>
      rename_i w'
      have := shape_same (P := P) hw
      rw [h2] at this
      generalize hs : shape P w' = b at this
      cases this with
      | data hd =>
        cases hd with
        | ok hd =>
          rename_i vs'
          have hg := hd.get i
          rw [h3] at hg
          generalize hu : vs'[i]? = o at hg
          cases hg with
          | some hg => exact ⟨m, w', t, _, _, h5, hs, hu, ih hg h4⟩

theorem finds_bwd {p : List Nat} {v v' : Val K} {s : Sem.Seen K} (h : (VS P) v v') (hf : Finds P p v' s) : Finds P p v s := by
  induction p generalizing v v' with
  | nil =>
    obtain ⟨n, r, h1, h2⟩ := hf
    obtain ⟨m, r', h3, h4⟩ := ends_bwd n h (.cons .top .nil) h1
    exact ⟨m, r', h3, by rw [seen_same h4]; exact h2⟩
  | cons i p ih =>
    obtain ⟨n, w, t, vs, u, h1, h2, h3, h4⟩ := hf
    obtain ⟨m, r', h5, h6⟩ := ends_bwd n h (.cons .top .nil) h1
    cases h6 with
    | ok hw =>
      rename_i w'
      have := shape_same (P := P) hw
      rw [h2] at this
      generalize hs : shape P w' = b at this
      cases this with
      | data hd =>
        cases hd with
        | ok hd =>
          rename_i vs'
          have hg := hd.get i
          rw [h3] at hg
          generalize hu : vs'[i]? = o at hg
          cases hg with
          | some hg => exact ⟨m, w', t, _, _, h5, hs, hu, ih hg h4⟩

/-- **Related expressions show the same.** -/
theorem shows_same {x y : Exp K} (h : T P x y) (p : List Nat) (s : Sem.Seen K) : Shows P x p s ↔ Shows P y p s :=
  ⟨finds_fwd (.exp h .nil), finds_bwd (.exp h .nil)⟩
end Verif.Fold
