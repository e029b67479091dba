import Verif.SemSpec

/-!
# The reference semantics, a step at a time

Used in the proofs only: the interpreter of `SemSpec` as a machine with a stack, still by name and without a heap, and the
proof that the two agree.
-/

namespace Verif.Sem
open Verif.Bc
variable {K : Type}

inductive Fr (K : Type) where
  | case (bs : Brs K) (fb : Fb K) (e : Env K)
  | apply (args : List (Val K))
  | demeta (h o : Syn K) (e : Env K)
  | seq (body : Syn K) (e : Env K)
  | fusedL (id : Nat) (r : Ref K) (e : Env K)
  | fusedR (id : Nat) (left : Val K)
  | prim (id : Nat) (done rest : List (Val K))
  | top

abbrev Cfg (K : Type) := Val K × List (Fr K)

inductive SRes (K : Type) where
  | next (c : Cfg K)
  | done (v : Val K)
  | err (x : Err)

def SRes.of : R K → List (Fr K) → SRes K
  | .ok v, S => .next (v, S)
  | .error x, _ => .err x

/-- Code of no parameters that is not a value. -/
def exec (P : World K) (c : Syn K) (e : Env K) (S : List (Fr K)) : SRes K :=
  match c with
  | .atom r => .of (resolve P e r) S
  | .case scr bs fb => .next (.clo 0 scr e, .case bs fb e :: S)
  | .app f args eager | .dapp _ f args eager =>
    match app P e f args eager with
    | .ok (v, vs) => .next (v, .apply vs :: S)
    | .error x => .err x
  | .bif id args => match resolveAll P e args with
    | .error x => .err x
    | .ok [] => .of (intrinsic P id []) S
    | .ok (v :: vs) => .next (v, .prim id [] vs :: S)
  | .let_ fs body => .next (.clo 0 body (consAll ((forms fs).map (close · e)) e), S)
  | .letrec fs body => .next (.clo 0 body (.recs fs e), S)
  | .ann _ body => .next (.clo 0 body e, S)
  | .demeta scr h o => .next (.clo 0 scr e, .demeta h o e :: S)
  | .seq scr body => .next (.clo 0 scr e, .seq body e :: S)
  | .fused id l r => .next (.clo 0 (.atom l) e, .fusedL id r e :: S)
  | .lookup _ _ _ _ => .err .outside
  | .hole => .err .hole
  | .cons _ _ | .metaOf _ _ => .err .outside

/-- A value `w` without metadata comes back to a frame. -/
def give (P : World K) (w : Val K) (S : List (Fr K)) : Fr K → SRes K
  | .case bs fb e => .of (onCase P w bs fb e) S
  | .apply args => match onApply P w args with
    | .ok (u, none) => .next (u, S)
    | .ok (u, some rest) => .next (u, .apply rest :: S)
    | .error x => .err x
  | .demeta _ o e => .next (.clo 0 o (.cons w e), S)
  | .seq b e => .next (.clo 0 b e, S)
  | .fusedL id r e => match unbox P w with
    | .ok (some u) => .next (u, .fusedL id r e :: S)
    | .ok none => .next (.clo 0 (.atom r) e, .fusedR id w :: S)
    | .error x => .err x
  | .fusedR id l => match unbox P w with
    | .ok (some u) => .next (u, .fusedR id l :: S)
    | .ok none => .of (intrinsic P id [l, w]) S
    | .error x => .err x
  | .prim id dn [] => .of (intrinsic P id (dn ++ [w])) S
  | .prim id dn (v :: vs) => .next (v, .prim id (dn ++ [w]) vs :: S)
  | .top => .next (w, S)

/-- A value with metadata comes back to a frame. -/
def giveMeta (P : World K) (m b : Ref K) (e : Env K) (S : List (Fr K)) : Fr K → SRes K
  | .demeta h _ de => match resolveAll P e [m, b] with
    | .ok vs => .next (.clo 0 h (consAll vs de), S)
    | .error x => .err x
  | .top => match resolveAll P e [m, b] with
    | .ok [_, u] => .next (u, .top :: S)
    | .ok _ => .err .outside
    | .error x => .err x
  | fr => .of (resolve P e b) (fr :: S)

def sstep (P : World K) (c : Cfg K) : SRes K :=
  match c.1 with
  | .clo 0 (.metaOf m b) e => match c.2 with
    | [] => .done c.1
    | fr :: S => giveMeta P m b e S fr
  | .clo 0 (.cons _ _) _ | .nat _ | .clo (_ + 1) _ _ => match c.2 with
    | [] => .done c.1
    | fr :: S => give P c.1 S fr
  | .clo 0 code e => exec P code e c.2

/-- `Term n c r`: after `n` steps from `c` comes the end `r`. -/
inductive Term (P : World K) : Nat → Cfg K → R K → Prop where
  | done {c v} : sstep P c = .done v → Term P 0 c (.ok v)
  | err {c x} : sstep P c = .err x → Term P 0 c (.error x)
  | next {c c' n r} : sstep P c = .next c' → Term P n c' r → Term P (n + 1) c r

inductive Steps (P : World K) : Nat → Cfg K → Cfg K → Prop where
  | refl (c) : Steps P 0 c c
  | next {c c' d n} : sstep P c = .next c' → Steps P n c' d → Steps P (n + 1) c d

theorem Term.det {P : World K} {n m c r s} (h : Term P n c r) (h' : Term P m c s) : n = m ∧ r = s := by
  induction h generalizing m s with
  | done h => cases h' <;> simp_all
  | err h => cases h' <;> simp_all
  | next h _ ih => cases h' with
    | done h' => simp_all
    | err h' => simp_all
    | next h' t => rw [h] at h'; cases h'; have := ih t; simp_all

theorem Steps.one {P : World K} {c d} (h : sstep P c = .next d) : Steps P 1 c d := .next h (.refl _)

theorem Steps.trans {P : World K} {n m c d f} (h : Steps P n c d) (h' : Steps P m d f) : Steps P (n + m) c f := by
  induction h with
  | refl => simpa
  | next h _ ih => have := Steps.next h (ih h'); rwa [Nat.add_right_comm] at this

theorem Steps.term {P : World K} {n m c d r} (h : Steps P n c d) (h' : Term P m d r) : Term P (n + m) c r := by
  induction h with
  | refl => simpa
  | next h _ ih => have := Term.next h (ih h'); rwa [Nat.add_right_comm] at this

theorem Steps.unterm {P : World K} {n m c d r} (h : Steps P n c d) (h' : Term P m c r) : n ≤ m ∧ Term P (m - n) d r := by
  induction h generalizing m with
  | refl => simpa
  | next h _ ih => cases h' with
    | done h' => simp_all
    | err h' => simp_all
    | next h' t => rw [h] at h'; cases h'; have := ih t; simp; exact ⟨by omega, by simpa using this.2⟩

/-- Add frames at the bottom. -/
def SRes.under (T : List (Fr K)) : SRes K → SRes K
  | .next (v, S) => .next (v, S ++ T)
  | .done v => .next (v, T)
  | .err x => .err x

theorem exec_under (P : World K) (c : Syn K) (e : Env K) (S T : List (Fr K)) :
    exec P c e (S ++ T) = (exec P c e S).under T := by
  cases c <;> simp only [exec, SRes.under]
  case atom r => cases resolve P e r <;> rfl
  case «bif» id args =>
    rcases resolveAll P e args with x | (_ | ⟨v, vs⟩)
    · rfl
    · dsimp only; cases intrinsic P id [] <;> rfl
    · rfl
  case app f args eager => rcases app P e f args eager with x | ⟨v, vs⟩ <;> rfl
  case dapp f args eager => rcases app P e f args eager with x | ⟨v, vs⟩ <;> rfl
  all_goals rfl

theorem give_under (P : World K) (w : Val K) (S T : List (Fr K)) (fr : Fr K) :
    give P w (S ++ T) fr = (give P w S fr).under T := by
  cases fr <;> simp only [give]
  case case bs fb e => cases onCase P w bs fb e <;> rfl
  case apply args => rcases onApply P w args with x | ⟨u, _ | rest⟩ <;> rfl
  case fusedL id r e => rcases unbox P w with x | (_ | u) <;> rfl
  case fusedR id l =>
    rcases unbox P w with x | (_ | u)
    · rfl
    · dsimp only; cases intrinsic P id [l, w] <;> rfl
    · rfl
  case prim id dn rest =>
    cases rest with
    | nil => dsimp only; cases intrinsic P id (dn ++ [w]) <;> rfl
    | cons v vs => rfl
  all_goals rfl

theorem giveMeta_under (P : World K) (m b : Ref K) (e : Env K) (S T : List (Fr K)) (fr : Fr K) :
    giveMeta P m b e (S ++ T) fr = (giveMeta P m b e S fr).under T := by
  cases fr <;> simp only [giveMeta]
  case demeta h o de => cases resolveAll P e [m, b] <;> rfl
  case top => rcases resolveAll P e [m, b] with x | (_ | ⟨v, _ | ⟨u, _ | _⟩⟩) <;> rfl
  all_goals cases resolve P e b <;> rfl

/-- A step does not look below the frames it uses. -/
theorem sstep_under {P : World K} {v S d} (T : List (Fr K)) (h : sstep P (v, S) = .next d) :
    sstep P (v, S ++ T) = .next (d.1, d.2 ++ T) := by
  have hu : (SRes.next d).under T = .next (d.1, d.2 ++ T) := rfl
  rw [← hu, ← h]
  unfold sstep
  dsimp only
  split
  · cases S with
    | nil => simp_all [sstep]
    | cons fr S => exact giveMeta_under ..
  all_goals first
    | (cases S with
      | nil => simp_all [sstep]
      | cons fr S => exact give_under ..)
    | exact exec_under ..

theorem Steps.under {P : World K} {n c d} (h : Steps P n c d) (T : List (Fr K)) :
    Steps P n (c.1, c.2 ++ T) (d.1, d.2 ++ T) := by
  induction h with
  | refl => exact .refl _
  | next h _ ih => exact .next (sstep_under T h) ih

theorem sstep_err_under {P : World K} {v S x} (T : List (Fr K)) (h : sstep P (v, S) = .err x) :
    sstep P (v, S ++ T) = .err x := by
  have hu : (SRes.err (K := K) x).under T = .err x := rfl
  rw [← hu, ← h]
  unfold sstep
  dsimp only
  split
  · cases S with
    | nil => simp_all [sstep]
    | cons fr S => exact giveMeta_under ..
  all_goals first
    | (cases S with
      | nil => simp_all [sstep]
      | cons fr S => exact give_under ..)
    | exact exec_under ..

theorem Term.err_under {P : World K} {n c r x} (h : Term P n c r) (hr : r = .error x) (T : List (Fr K)) :
    Term P n (c.1, c.2 ++ T) (.error x) := by
  induction h with
  | done => cases hr
  | err h => cases hr; exact .err (sstep_err_under T h)
  | next h _ ih => exact .next (sstep_under T h) (ih hr)

theorem SRes.of_ne_done {r : R K} {S v} : SRes.of r S ≠ .done v := by cases r <;> simp [SRes.of]

theorem give_ne_done {P : World K} {w S fr v} : give P w S fr ≠ .done v := by
  cases fr <;> simp only [give] <;> try (first | exact SRes.of_ne_done | simp; done)
  case apply args => split <;> simp
  case fusedL id r e => split <;> simp
  case fusedR id l => split <;> first | exact SRes.of_ne_done | simp
  case prim id dn rest =>
    cases rest <;> dsimp only
    · exact SRes.of_ne_done
    · simp

theorem giveMeta_ne_done {P : World K} {m b e S fr v} : giveMeta P m b e S fr ≠ .done v := by
  cases fr <;> simp only [giveMeta] <;> try exact SRes.of_ne_done
  all_goals split <;> simp

theorem exec_ne_done {P : World K} {c e S v} : exec P c e S ≠ .done v := by
  unfold exec
  split <;> try (first | exact SRes.of_ne_done | simp; done)
  all_goals split <;> first | exact SRes.of_ne_done | simp

theorem sstep_done {P : World K} {c v} (h : sstep P c = .done v) : c = (v, []) ∧ Whnf v = true := by
  obtain ⟨u, S⟩ := c
  unfold sstep at h
  dsimp only at h
  split at h
  case h_5 => exact absurd h exec_ne_done
  all_goals
    cases S with
    | nil => simp at h; subst h; exact ⟨rfl, rfl⟩
    | cons fr S => first | exact absurd h giveMeta_ne_done | exact absurd h give_ne_done

theorem Term.done_steps {P : World K} {n c r w} (h : Term P n c r) (hr : r = .ok w) :
    Steps P n c (w, []) ∧ Whnf w = true := by
  induction h with
  | done h => cases hr; have := sstep_done h; rw [this.1]; exact ⟨.refl _, this.2⟩
  | err => cases hr
  | next h _ ih => have := ih hr; exact ⟨.next h this.1, this.2⟩

theorem whnf_cases {v : Val K} (h : Whnf v = true) :
    (∃ k, v = .nat k) ∨ (∃ a c e, v = .clo (a + 1) c e) ∨ (∃ t as e, v = .clo 0 (.cons t as) e) ∨
      (∃ m b e, v = .clo 0 (.metaOf m b) e) := by
  rcases v with k | ⟨_ | a, c, e⟩
  · exact .inl ⟨k, rfl⟩
  · cases c <;> simp [Whnf, shape] at h ⊢
  · exact .inr (.inl ⟨a, c, e, rfl⟩)

theorem sstep_whnf {P : World K} {v} (h : Whnf v = true) : sstep P (v, []) = .done v := by
  rcases whnf_cases h with ⟨k, rfl⟩ | ⟨a, c, e, rfl⟩ | ⟨t, as, e, rfl⟩ | ⟨m, b, e, rfl⟩ <;> rfl

theorem term_whnf {P : World K} {v} (h : Whnf v = true) : Term P 0 (v, []) (.ok v) := .done (sstep_whnf h)

/-- What ends, ends first without the frames below. -/
theorem Term.split {P : World K} {n c r v S} {S' : List (Fr K)} (h : Term P n c r) (hc : c = (v, S' ++ S)) :
    ∃ k t, k ≤ n ∧ Term P k (v, S') t ∧
      (match t with | .error x => r = .error x | .ok w => Term P (n - k) (w, S) r) := by
  induction n generalizing c v S' with
  | zero =>
    subst hc
    cases hs : sstep P (v, S') with
    | next d => have := sstep_under S hs; cases h <;> simp_all
    | err x =>
      have := sstep_err_under S hs
      refine ⟨0, .error x, Nat.le_refl _, .err hs, ?_⟩
      cases h <;> simp_all
    | done w =>
      refine ⟨0, .ok w, Nat.le_refl _, .done hs, ?_⟩
      have := (sstep_done hs).1
      cases this
      simpa using h
  | succ n ih =>
    subst hc
    cases hs : sstep P (v, S') with
    | next d =>
      have := sstep_under S hs
      cases h with
      | next h' t =>
        rw [this] at h'; cases h'
        obtain ⟨k, t', hk, ht, hm⟩ := ih t rfl
        refine ⟨k + 1, t', by omega, .next hs ht, ?_⟩
        cases t' with
        | error x => exact hm
        | ok w => simpa using hm
    | err x => have := sstep_err_under S hs; cases h; simp_all
    | done w =>
      refine ⟨0, .ok w, by omega, .done hs, ?_⟩
      have := (sstep_done hs).1
      cases this
      simpa using h

end Verif.Sem
