import Verif.FuseSpec
import Verif.FoldSim

/-!
# Running the intrinsics on what is written out

Proofs only.
-/

namespace Verif.Fuse
open Verif.Comp Verif.Bc Verif.Fold
variable {K : Type} {P : World K}

/-- One thing leads to another. -/
def Goes (P : World K) (c c' : Cfg K) : Prop := ∃ n, Inl.Steps P n c c'

theorem Goes.refl (c : Cfg K) : Goes P c c := ⟨0, .zero⟩

theorem Goes.trans {a b c : Cfg K} : Goes P a b → Goes P b c → Goes P a c
  | ⟨_, h⟩, ⟨_, h'⟩ => h.trans h'

theorem Goes.one {a b : Cfg K} (h : step P a = .next b) : Goes P a b := ⟨1, .succ h .zero⟩

theorem Goes.step {a b c : Cfg K} (h : step P a = .next b) (h' : Goes P b c) : Goes P a c := (Goes.one h).trans h'

/-- Values that come to another with nothing else touched. -/
def Is (P : World K) (v w : Val K) : Prop := ∀ S, Goes P (v, S) (w, S)

theorem Is.refl (v : Val K) : Is P v v := fun _ => .refl _

theorem atom_is {e : Env K} {i : Nat} {v w : Val K} (h : lookup e i = some v) (hw : Is P v w) : Is P (.clo 0 (.atom (.l i)) e) w :=
  fun S => .step (by simp [Comp.step, shape, exec, resolve, h, SRes.of]) (hw S)

theorem atom_self {e : Env K} {i : Nat} {v : Val K} (h : lookup e i = some v) : Is P (.clo 0 (.atom (.l i)) e) v :=
  atom_is h (Is.refl _)

/-- A case of a local that is a constructor. -/
theorem case_con {e : Env K} {i t : Nat} {v : Val K} {vs : List (Val K)} {bs : Brs K} {fb : Fb K} {c : Syn K} (S : List (Fr K))
    (h : lookup e i = some v) (hv : Is P v (.con t vs)) (hb : Sem.branch bs t = some c) :
    Goes P (.clo 0 (caseL i bs fb) e, S) (.clo 0 c (consAll vs e), S) :=
  .step rfl ((atom_is h hv _).trans (.one (by simp [Comp.step, shape, give, onCase, hb, SRes.of])))

/-- A case of a local that is a native. -/
theorem case_nat {e : Env K} {i : Nat} {v : Val K} {k : K} {bs : Brs K} {c : Syn K} (S : List (Fr K))
    (h : lookup e i = some v) (hv : Is P v (.nat k)) :
    Goes P (.clo 0 (caseL i bs (.some c)) e, S) (.clo 0 c (.cons (.nat k) e), S) :=
  .step rfl ((atom_is h hv _).trans (.one (by simp [Comp.step, shape, give, onCase, fallback, SRes.of])))

/-- A call of global code. -/
theorem call_global {e : Env K} {g n m : Nat} {f : Form K} {args : List (Ref K)} (S : List (Fr K))
    (h : P.sem.globals[g]? = some f) (hf : f.head = .lambda n m) (hn : n = args.length) (h0 : 0 < n) :
    Goes P (.clo 0 (.app (.g g) args false) e, S) (.clo 0 f.body (consAll (args.map fun r => .clo 0 (.atom r) e) .nil), S) := by
  obtain ⟨a, rfl⟩ : ∃ a, n = a + 1 := ⟨n - 1, by omega⟩
  refine .step (b := (close f .nil, .apply (args.map fun r => .clo 0 (.atom r) e) :: S)) ?_ (.one ?_)
  · simp [Comp.step, shape, exec, app, callee, resolve, global, h]
  · simp [Comp.step, close, hf, Sem.arity, shape, give, onApply, ← hn]

/-- A call of global code from an expression. -/
theorem call_intrinsic {name : String} {g n m : Nat} {f : Form K} {ρ : Scopes K} {xs : Comp.Exps K} (S : List (Fr K))
    (hg : P.index name = some g) (h : P.sem.globals[g]? = some f) (hf : f.head = .lambda n m) (hn : n = (exps xs).length) (h0 : 0 < n) :
    Goes P (.exp (.app 0 (.intrinsic name) xs) ρ, S) (.clo 0 f.body (consAll ((exps xs).map (.exp · ρ)) .nil), S) := by
  obtain ⟨a, rfl⟩ : ∃ a, n = a + 1 := ⟨n - 1, by omega⟩
  refine .step (b := (.exp (.intrinsic name) ρ, .apply ((exps xs).map (.exp · ρ)) :: S)) rfl ?_
  refine .step (b := (close f .nil, .apply ((exps xs).map (.exp · ρ)) :: S)) ?_ (.one ?_)
  · simp [Comp.step, shape, execE, hg, global, h, SRes.of]
  · simp [Comp.step, close, hf, Sem.arity, shape, give, onApply, ← hn]

/-! ## Lists -/

theorem list_is (ρ : Scopes K) (xs : Comp.Exps K) : Is P (.exp (.list 0 xs) ρ) (listOf ((exps xs).map (.exp · ρ))) :=
  fun _ => .one rfl

theorem head_leads [DecidableEq K] {sym : K → Prop} (h : Std sym P) (x : Comp.Exp K) (xs : Comp.Exps K) :
    Leads P (.app 0 (.intrinsic "HEAD") (.cons (.list 0 (.cons x xs)) .nil)) (.exp x) := by
  obtain ⟨i, nil, other, hi, hg⟩ := h.head
  intro ρ S
  refine (call_intrinsic S hi hg rfl rfl (by simp)).trans ?_
  refine (case_con (vs := [.exp x ρ, listOf ((exps xs).map (.exp · ρ))]) S (i := 0) rfl (list_is ρ _) rfl).trans ?_
  exact atom_self rfl S

theorem tail_leads [DecidableEq K] {sym : K → Prop} (h : Std sym P) (x : Comp.Exp K) (xs : Comp.Exps K) :
    Leads P (.app 0 (.intrinsic "TAIL") (.cons (.list 0 (.cons x xs)) .nil)) (.list xs) := by
  obtain ⟨i, nil, other, hi, hg⟩ := h.tail
  intro ρ S
  refine (call_intrinsic S hi hg rfl rfl (by simp)).trans ?_
  refine (case_con (vs := [.exp x ρ, listOf ((exps xs).map (.exp · ρ))]) S (i := 0) rfl (list_is ρ _) rfl).trans ?_
  exact atom_self rfl S

theorem list_leads (xs : Comp.Exps K) : Leads P (.list 0 xs) (.list xs) := fun ρ S => list_is ρ xs S

/-! ## Blocks -/

/-- What is found in a list of keys and values. -/
def first [DecidableEq K] (k : K) : Kvs K → Option (Comp.Exp K)
  | .nil => none
  | .cons k' x rest => if k' = k then some x else first k rest

def KvSym (sym : K → Prop) : Kvs K → Prop
  | .nil => True
  | .cons k _ rest => sym k ∧ KvSym sym rest

section
variable [DecidableEq K] {sym : K → Prop}

/-- Comparing two symbols. -/
theorem eq_goes {eq prim : Nat} {bs bs' : Brs K} (hg : P.sem.globals[eq]? = some (eqCode prim bs bs'))
    (hp : ∀ a b, sym a → sym b → P.sem.prim prim [a, b] = .ok (.cons (if a = b then 1 else 2) [])) {a b : K} (ha : sym a) (hb : sym b)
    {e : Env K} {i j : Nat} (hi : Is P (.clo 0 (.atom (.l i)) e) (.nat a)) (hj : Is P (.clo 0 (.atom (.l j)) e) (.nat b))
    (S : List (Fr K)) :
    Goes P (.clo 0 (.app (.g eq) [.l i, .l j] false) e, S) (.clo 0 (.cons (if a = b then 1 else 2) []) .nil, S) := by
  refine (call_global S hg rfl rfl (by simp)).trans ?_
  refine (case_nat S (i := 0) rfl hi).trans ?_
  refine (case_nat S (i := 2) rfl hj).trans ?_
  refine .step (b := (.nat a, .prim prim [] [.nat b] :: S)) rfl ?_
  refine .step (b := (.nat b, .prim prim [.nat a] [] :: S)) rfl (.one ?_)
  simp [Comp.step, shape, give, intrinsic, natives, hp a b ha hb, SRes.of]

theorem matches_goes {mk eq prim : Nat} {kv o : Syn K} {bs bs' : Brs K} (hm : P.sem.globals[mk]? = some (matchesCode eq kv o))
    (hg : P.sem.globals[eq]? = some (eqCode prim bs bs'))
    (hp : ∀ a b, sym a → sym b → P.sem.prim prim [a, b] = .ok (.cons (if a = b then 1 else 2) [])) {a b : K} (ha : sym a) (hb : sym b)
    {e : Env K} {i j : Nat} {v : Val K} (hi : Is P (.clo 0 (.atom (.l i)) e) (.con 9 [.nat a, v]))
    (hj : Is P (.clo 0 (.atom (.l j)) e) (.nat b)) (S : List (Fr K)) :
    Goes P (.clo 0 (.app (.g mk) [.l i, .l j] false) e, S) (.clo 0 (.cons (if a = b then 1 else 2) []) .nil, S) := by
  refine (call_global S hm rfl rfl (by simp)).trans ?_
  refine (case_con S (c := .app (.g eq) [.l 0, .l 3] false) (i := 0) rfl hi rfl).trans ?_
  exact eq_goes hg hp ha hb (atom_self rfl) (atom_is rfl hj) S

theorem extract_goes {ev : Nat} {kv o : Syn K} (hm : P.sem.globals[ev]? = some (extractCode kv o)) {a v : Val K}
    {e : Env K} {i : Nat} (hi : Is P (.clo 0 (.atom (.l i)) e) (.con 9 [a, v])) (S : List (Fr K)) :
    Goes P (.clo 0 (.app (.g ev) [.l i] false) e, S) (v, S) := by
  refine (call_global S hm rfl rfl (by simp)).trans ?_
  refine (case_con S (c := .atom (.l 1)) (i := 0) rfl hi rfl).trans ?_
  exact atom_self rfl S

/-- The loop that looks for a key. -/
theorem find_goes {mk ev eq prim : Nat} {other kv o kv' o' : Syn K} {bs bs' : Brs K}
    (hm : P.sem.globals[mk]? = some (matchesCode eq kv o)) (hx : P.sem.globals[ev]? = some (extractCode kv' o'))
    (hg : P.sem.globals[eq]? = some (eqCode prim bs bs'))
    (hp : ∀ a b, sym a → sym b → P.sem.prim prim [a, b] = .ok (.cons (if a = b then 1 else 2) []))
    {k : K} (hk : sym k) {ρ : Scopes K} {d : Comp.Exp K} {e0 : Env K} (S : List (Fr K)) (kvs : Kvs K) (hs : KvSym sym kvs) :
    ∀ vl vk vd vf, Is P vl (listOf (entries ρ kvs)) → Is P vk (.nat k) → Is P vd (.exp d ρ) →
      Is P vf (.clo 4 (findCode mk ev other) e0) →
      Goes P (.clo 0 (findCode mk ev other) (consAll [vl, vk, vd, vf] e0), S) (.exp ((first k kvs).getD d) ρ, S) := by
  match kvs with
  | .nil =>
    intro vl vk vd vf hl _ hd _
    refine (case_con S (c := .atom (.l 2)) (i := 0) (t := 6) (vs := []) rfl hl rfl).trans ?_
    exact atom_is rfl hd S
  | .cons k' x rest =>
    intro vl vk vd vf hl hk' hd hf
    refine (case_con S (i := 0) (t := 7) (vs := [.con 9 [.nat k', .exp x ρ], listOf (entries ρ rest)]) rfl hl rfl).trans ?_
    · refine .step rfl ?_
      refine (matches_goes hm hg hp hs.1 hk (atom_self rfl) (atom_is rfl hk') _).trans ?_
      by_cases he : k' = k
      · subst he
        simp only [first, ↓reduceIte, Option.getD_some]
        refine .step (b := (.clo 0 (.app (.g ev) [.l 0] false)
          (consAll [.con 9 [.nat k', .exp x ρ], listOf (entries ρ rest)] (consAll [vl, vk, vd, vf] e0)), S)) ?_
          (extract_goes hx (atom_self rfl) S)
        simp [Comp.step, shape, give, onCase, resolveAll, Sem.branch, one, SRes.of, consAll]
      · simp only [first, he, ↓reduceIte]
        refine .step (b := (.clo 0 (.app (.l 5) [.l 1, .l 3, .l 4, .l 5] false)
          (consAll [.con 9 [.nat k', .exp x ρ], listOf (entries ρ rest)] (consAll [vl, vk, vd, vf] e0)), S)) ?_ ?_
        · simp [Comp.step, shape, give, onCase, resolveAll, Sem.branch, one, SRes.of, consAll]
        · refine .step rfl ?_
          refine (hf _).trans ?_
          refine .step (by simp [Comp.step, shape, give, onApply]; rfl) ?_
          exact find_goes hm hx hg hp hk S rest hs.2 _ _ _ _ (atom_self rfl) (atom_is rfl hk') (atom_is rfl hd) (atom_is rfl hf)
termination_by structural kvs

/-- Looking something up in a block that is written out. -/
theorem lookup_leads (h : Std sym P) {k : K} (hk : sym k) (kvs : Kvs K) (hs : KvSym sym kvs) (d : Comp.Exp K) :
    Leads P (lookupOr k (.block 0 kvs) d) (.exp ((first k kvs).getD d)) := by
  obtain ⟨i, mk, ev, eq, prim, other, kv, o, kv', o', bs, bs', hi, hl, hm, hx, hg, hp⟩ := h.lookup
  intro ρ S
  refine (call_intrinsic S hi hl rfl rfl (by simp)).trans ?_
  refine (case_con S (i := 2) (t := 8) (vs := [listOf (entries ρ kvs), .nat P.noIndex]) rfl (fun _ => .one rfl) rfl).trans ?_
  · refine .step rfl ?_
    refine (case_con S (i := 3) (t := 4) (vs := [.nat k]) rfl (fun _ => .one rfl) rfl).trans ?_
    · refine .step rfl ?_
      refine .step (by simp [Comp.step, shape, give, onApply, close, Sem.arity]; rfl) ?_
      exact find_goes hm hx hg hp hk S kvs hs _ _ _ _ (atom_self rfl) (atom_self rfl) (atom_self rfl) (atom_self rfl)

end
end Verif.Fuse
