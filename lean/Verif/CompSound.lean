import Verif.CompMark

/-!
# The code of an expression stands for the expression

Proofs only.
-/

namespace Verif.Comp
open Verif.Bc
open Verif.Opt (wf wfForms wfBrs wfFb okRef count fieldsOf)
variable {K : Type} {M : Mode K}

/-- A binder when all is in it: its bindings realised, and closed over an environment that fits. -/
structure Fin (M : Mode K) (B : Binder K) (ρ : Scopes K) (e' : Sem.Env K) (bctx : Ctx K) (cenv : Sem.Env K) : Prop where
  er : ER M bctx ρ cenv
  form : ∀ (i : Nat) p, B.protos[i]? = some p →
    ∃ f, p bctx = .ok f ∧ Sem.lookup e' i = some (Sem.close f cenv)
  recu : B.recursive = true → ∀ i, Sem.lookup cenv i = Sem.lookup e' i

/-- The names bound so far. -/
def Refs (M : Mode K) (B : Binder K) (ρ : Scopes K) (e' : Sem.Env K) : Prop :=
  ∀ (i : Nat) r, B.refs[i]? = some r → ∃ v w, find ρ 0 i = some v ∧ Sem.resolve M.P.sem e' r = .ok w ∧ VR M v w

theorem Refs.ext {A B : Binder K} {ρ e'} (h : Ext A B) (hr : Refs M A ρ e') : Refs M B ρ e' := by
  unfold Refs; rw [h.refs]; exact hr

theorem Refs.nil {B : Binder K} {ρ e'} (h : B.refs = []) : Refs M B ρ e' := by
  intro i r hr; rw [h] at hr; simp at hr

/-! ## Forms -/

theorem realise_length {ctx : Ctx K} {ps fs} (h : realise ctx ps = .ok fs) : (Sem.forms fs).length = ps.length := by
  induction ps generalizing fs with
  | nil => cases h; rfl
  | cons p ps ih =>
    unfold realise at h
    split at h
    · cases h
    · split at h
      · cases h
      · rename_i hr; cases h; simp [Sem.forms, ih hr]

theorem realise_get {ctx : Ctx K} {ps fs} (h : realise ctx ps = .ok fs) {i : Nat} {p} (hp : ps[i]? = some p) :
    ∃ f, p ctx = .ok f ∧ (Sem.forms fs)[i]? = some f := by
  induction ps generalizing fs i with
  | nil => simp at hp
  | cons p ps ih =>
    unfold realise at h
    split at h
    · cases h
    · rename_i f hf
      split at h
      · cases h
      · rename_i fs' hr
        cases h
        cases i with
        | zero => simp at hp; subst hp; exact ⟨f, hf, rfl⟩
        | succ i =>
          obtain ⟨g, h1, h2⟩ := ih hr (by simpa using hp)
          exact ⟨g, h1, by simpa [Sem.forms] using h2⟩

theorem lookup_recs_ge {fs : Forms K} {e : Sem.Env K} {n : Nat} (h : (Sem.forms fs).length = n) (i : Nat) :
    Sem.lookup (.recs fs e) (i + n) = Sem.lookup e i := by
  have : (Sem.forms fs)[i + n]? = none := by simp; omega
  simp only [Sem.lookup, this]
  rw [h]; simp

theorem lookup_consAll_ge {ws : List (Sem.Val K)} {e : Sem.Env K} {n : Nat} (h : ws.length = n) (i : Nat) :
    Sem.lookup (Sem.consAll ws e) (i + n) = Sem.lookup e i := by
  rw [Opt.lookup_consAll]
  have : ws[i + n]? = none := by simp; omega
  rw [this]; simp [h]

theorem isThunk_get {fs : Forms K} {i : Nat} {f} (hf : (Sem.forms fs)[i]? = some f) : isThunk fs i = decide (f.head = .thunk) := by
  match fs with
  | .nil => simp [Sem.forms] at hf
  | .cons hd b rest =>
    cases i with
    | zero => simp only [Sem.forms, List.getElem?_cons_zero, Option.some.injEq] at hf; subst hf; rfl
    | succ i =>
      have h2 : (Sem.forms rest)[i]? = some f := by simpa [Sem.forms] using hf
      exact isThunk_get (fs := rest) (i := i) h2
termination_by structural fs

theorem ready_forms {B : Binder K} {ctx : Ctx K} {fs i} (h : realise ctx B.protos = .ok fs) (hr : Ready B i) : isThunk fs i = false := by
  obtain ⟨p, hp, hf⟩ := hr
  obtain ⟨f, h1, h2⟩ := realise_get h hp
  rw [isThunk_get h2]
  simpa using hf _ _ h1

theorem seqs_sound {e' : Sem.Env K} {s : Syn K} {v : Val K} (l : List Nat) (hv : VR M v (.clo 0 s e'))
    (h : ∀ i ∈ l, ∃ u, Mark M v u ∧ VR M u (.clo 0 (.atom (.l i)) e')) :
    VR M v (.clo 0 (l.foldr (fun i s => .seq (.atom (.l i)) s) s) e') := by
  induction l with
  | nil => exact hv
  | cons i l ih =>
    obtain ⟨u, a, b⟩ := h i (by simp)
    exact .seq a b (ih fun j hj => h j (by simp [hj]))

/-- A binder's code: its bindings, then its body. -/
theorem into_sound {B : Binder K} {ctx : Ctx K} {body c} (e' : Sem.Env K) (h : intoStg B ctx body = .ok c) :
    ∃ fs s e'', realise (if B.recursive then B.frame :: ctx else ctx) B.protos = .ok fs ∧ body (B.frame :: ctx) = .ok s ∧
      (∀ i, Sem.lookup e'' i = Sem.lookup (if B.recursive then .recs fs e' else Sem.consAll ((Sem.forms fs).map (Sem.close · e')) e') i) ∧
      ∀ v, (∀ i ∈ B.strict, ¬ Ready B i → ∃ u, Mark M v u ∧ VR M u (.clo 0 (.atom (.l i)) e'')) →
        VR M v (.clo 0 s e'') → VR M v (.clo 0 c e') := by
  unfold intoStg at h
  split at h
  · cases h
  · rename_i fs hfs
    split at h
    · cases h
    · rename_i s hs
      split at h
      · cases h
        refine ⟨.nil, c, e', hfs, hs, fun i => ?_, fun v _ hv => hv⟩
        split <;> simp [Sem.lookup, Sem.forms, Sem.consAll]
      · cases h
        refine ⟨fs, s, if B.recursive then .recs fs e' else Sem.consAll ((Sem.forms fs).map (Sem.close · e')) e', hfs, hs,
          fun i => rfl, fun v hm hv => ?_⟩
        have hm' : ∀ i ∈ B.strict.filter (isThunk fs), ∃ u, Mark M v u ∧ VR M u (.clo 0 (.atom (.l i))
            (if B.recursive then .recs fs e' else Sem.consAll ((Sem.forms fs).map (Sem.close · e')) e')) := by
          intro i hi
          simp only [List.mem_filter] at hi
          refine hm i hi.1 fun hr => ?_
          rw [ready_forms hfs hr] at hi
          cases hi.2
        have := seqs_sound _ hv hm'
        cases hb : B.recursive
        · simp only [hb, Bool.false_eq_true, if_false] at this ⊢
          exact .tgt (fun S => rfl) this
        · simp only [hb, if_true] at this ⊢
          exact .tgt (fun S => rfl) this

/-- A binder that is no scope. -/
theorem into_syn {B : Binder K} {ctx : Ctx K} {ρ e' body c} (h : intoStg B ctx body = .ok c)
    (he : ER M ctx ρ e') (hs : B.isScope = false) (hr : B.refs = []) :
    ∃ s e'' bctx cenv, body (B.frame :: ctx) = .ok s ∧ ER M (B.frame :: ctx) ρ e'' ∧ Fin M B ρ e'' bctx cenv ∧
      ∀ v, (∀ i ∈ B.strict, ¬ Ready B i → ∃ u, Mark M v u ∧ VR M u (.clo 0 (.atom (.l i)) e'')) →
        VR M v (.clo 0 s e'') → VR M v (.clo 0 c e') := by
  obtain ⟨fs, s, e'', hfs, hb, hl, hv⟩ := into_sound (M := M) e' h
  have hlen := realise_length hfs
  have hfr : B.frame = ⟨false, [], B.protos.length⟩ := by simp [Binder.frame, hs, hr]
  have her : ER M (B.frame :: ctx) ρ e'' := by
    rw [hfr]
    refine .syn he fun i => ?_
    rw [hl]
    split
    · exact lookup_recs_ge hlen i
    · exact lookup_consAll_ge (by simpa using hlen) i
  cases hrec : B.recursive with
  | false =>
    rw [hrec] at hfs hl
    simp only [Bool.false_eq_true, if_false] at hfs hl
    refine ⟨s, e'', ctx, e', hb, her, ⟨he, fun i p hp => ?_, fun h => by rw [hrec] at h; cases h⟩, hv⟩
    obtain ⟨f, h1, h2⟩ := realise_get hfs hp
    refine ⟨f, h1, ?_⟩
    rw [hl, Opt.lookup_consAll, List.getElem?_map, h2]
    rfl
  | true =>
    rw [hrec] at hfs hl
    simp only [if_true] at hfs hl
    have her2 : ER M (B.frame :: ctx) ρ (.recs fs e') := by
      rw [hfr]
      exact .syn he fun i => lookup_recs_ge hlen i
    refine ⟨s, e'', B.frame :: ctx, .recs fs e', hb, her, ⟨her2, fun i p hp => ?_, fun _ i => (hl i).symm⟩, hv⟩
    obtain ⟨f, h1, h2⟩ := realise_get hfs hp
    refine ⟨f, h1, ?_⟩
    rw [hl]
    simp only [Sem.lookup, h2]

/-! ## References in scope -/

/-- Names a call may be made of. -/
def There (e' : Sem.Env K) : Ref K → Prop
  | .l i => (Sem.lookup e' i).isSome = true
  | .g _ => True
  | .v _ => False

theorem bump_there {n : Nat} {e' e'' : Sem.Env K} {r} (h : ∀ i, Sem.lookup e'' (i + n) = Sem.lookup e' i) (hr : There e' r) :
    There e'' (bump n r) := by
  cases r with
  | l i => simp only [bump, There]; rw [h]; exact hr
  | g i => trivial
  | v k => exact hr

theorem resolve_bump {P : Sem.World K} {n : Nat} {e' e'' : Sem.Env K} {r} (h : ∀ i, Sem.lookup e'' (i + n) = Sem.lookup e' i)
    (hr : There e' r) : Sem.resolve P e'' (bump n r) = Sem.resolve P e' r := by
  cases r with
  | l i =>
    simp only [bump, Sem.resolve, h]
    obtain ⟨v, hv⟩ := Option.isSome_iff_exists.1 hr
    rw [hv]
  | g i => rfl
  | v k => rfl

theorem map_ok {α β} {f : α → β} {x : Except CErr α} {b} (h : x.map f = .ok b) : ∃ a, x = .ok a ∧ b = f a := by
  cases x with
  | error x => cases h
  | ok a => cases h; exact ⟨a, rfl, rfl⟩

theorem good_forScope : Good (Binder.forScope : Binder K) := fun r h => by simp [Binder.forScope] at h

theorem refOk_there {B : Binder K} {e' : Sem.Env K} {r} (hr : refOk B r)
    (h : ∀ i < B.protos.length, (Sem.lookup e' i).isSome = true) : There e' r := by
  cases r with
  | l i => exact h i hr
  | g i => trivial
  | v k => exact hr

theorem lookup_recs_lt {fs : Forms K} {e : Sem.Env K} {i : Nat} (h : i < (Sem.forms fs).length) :
    (Sem.lookup (.recs fs e) i).isSome = true := by
  simp only [Sem.lookup, List.getElem?_eq_getElem h]; rfl

theorem ER.there {ctx : Ctx K} {ρ e' s i r} (h : ER M ctx ρ e') (hr : ctxLookup ctx s i = .ok r) : There e' r := by
  match h with
  | .nil => cases hr
  | .syn he hl =>
    simp only [ctxLookup, Bool.false_eq_true, if_false] at hr
    obtain ⟨r0, h1, rfl⟩ := map_ok hr
    exact bump_there hl (ER.there he h1)
  | .args (n := n) (ws := ws) he hv hw _ =>
    simp only [ctxLookup, if_true] at hr
    cases s with
    | zero =>
      simp only at hr
      split at hr
      · rename_i hi
        cases hr
        rw [List.getElem?_map, Option.map_eq_some_iff] at hi
        obtain ⟨j, hj, rfl⟩ := hi
        have hlt : i < n := by simpa using (List.getElem?_eq_some_iff.1 hj).1
        have : j = i := by
          rw [List.getElem?_range hlt] at hj; cases hj; rfl
        subst this
        simp only [There]
        rw [Opt.lookup_consAll, List.getElem?_eq_getElem (by omega)]
        rfl
      · cases hr
    | succ s =>
      obtain ⟨r0, h1, rfl⟩ := map_ok hr
      exact bump_there (lookup_consAll_ge hw) (ER.there he h1)
  | .recs (B2 := B2) (fs := fs) he hb hx hf hq hl =>
    have hlen := realise_length hf
    have hsc : B2.isScope = true := by
      rw [hx.scope, (bindLets_sub _ hb good_forScope).1.scope]; rfl
    simp only [ctxLookup, Binder.frame, hsc, if_true] at hr
    cases s with
    | zero =>
      simp only at hr
      split at hr
      · rename_i hi
        cases hr
        have hg := ((bindLets_sub _ hb good_forScope).2.1.ext hx) _ (List.mem_of_getElem? hi)
        refine refOk_there hg fun j hj => ?_
        rw [hl]
        exact lookup_recs_lt (by omega)
      · cases hr
    | succ s =>
      obtain ⟨r0, h1, rfl⟩ := map_ok hr
      refine bump_there (e' := _) (fun i => ?_) (ER.there he h1)
      rw [hl]
      exact lookup_recs_ge hlen i
termination_by structural h

theorem take_there {ctx : Ctx K} {ρ e' s i r} (h : ER M ctx ρ e') (hr : (PRef.var s i).take ctx = .ok r) : There e' r :=
  h.there hr

/-! ## Globals -/

section
variable (F : Fits M.cfg M.P)
include F

theorem global_sound {i : Nat} (hi : i < M.globals) : ∃ f, M.P.sem.globals[i]? = some f ∧
    VR M (close f .nil) (Sem.close f .nil) := by
  have hx : M.P.sem.globals[i]? = some (M.P.sem.globals[i]'hi) := List.getElem?_eq_getElem hi
  refine ⟨_, hx, .clo (d := 0) .nil ?_⟩
  have := F.wf.1 _ (List.getElem_mem hi)
  simpa [Mode.globals] using this

theorem free_sound {name r} (ρ : Scopes K) (e' : Sem.Env K) (h : freeVar M.cfg name = .ok r) :
    ∃ w, Sem.resolve M.P.sem e' r = .ok w ∧ VR M (.exp (.free name) ρ) w ∧ There e' r := by
  unfold freeVar at h
  split at h
  · rename_i slot hs
    cases h
    obtain ⟨f, h1, h2⟩ := global_sound F (F.slots name slot hs)
    refine ⟨_, by simp only [Sem.resolve, Sem.global, h1], .src (n := 1) (fun S => .one ?_) h2, trivial⟩
    simp only [step, shape, execE, F.prelude, hs, Option.map_some, global, h1, SRes.of]
  · cases h

theorem intrinsic_sound {name r} (ρ : Scopes K) (e' : Sem.Env K) (h : intrinsicRef M.cfg name = .ok r) :
    ∃ w, Sem.resolve M.P.sem e' r = .ok w ∧ VR M (.exp (.intrinsic name) ρ) w ∧ There e' r := by
  unfold intrinsicRef at h
  split at h
  · rename_i i hs
    cases h
    obtain ⟨f, h1, h2⟩ := global_sound F (F.inRange name i hs)
    refine ⟨_, by simp only [Sem.resolve, Sem.global, h1], .src (n := 1) (fun S => .one ?_) h2, trivial⟩
    simp only [step, shape, execE, F.index, hs, global, h1, SRes.of]
  · cases h

theorem empty_sound (e' : Sem.Env K) : ∃ w, Sem.resolve M.P.sem e' (.g M.cfg.emptyList) = .ok w ∧ VR M (.con 6 []) w := by
  obtain ⟨h, h1, h2⟩ := F.empty
  refine ⟨Sem.close ⟨h, .cons 6 []⟩ .nil, by simp only [Sem.resolve, Sem.global, h1], ?_⟩
  simp only [Sem.close, h2]
  exact .con rfl rfl (fun r hr => by cases hr) (fun i v r w hv => by simp at hv)
end

theorem atom_sound {v : Val K} {e' : Sem.Env K} {r w} (h : Sem.resolve M.P.sem e' r = .ok w) (hv : VR M v w) :
    VR M v (.clo 0 (.atom r) e') := by
  refine .tgt (w1 := w) (fun S => ?_) hv
  simp only [Sem.sstep, Sem.exec, h, Sem.SRes.of]

theorem resolve_congr {P : Sem.World K} {e e' : Sem.Env K} (h : ∀ i, Sem.lookup e i = Sem.lookup e' i) (r : Ref K) :
    Sem.resolve P e r = Sem.resolve P e' r := by
  cases r <;> simp only [Sem.resolve, h]

theorem con2 {v1 v2 : Val K} {e' : Sem.Env K} {r1 r2 w1 w2} {t : Nat} (ht : fieldsOf t = some 2)
    (h1 : Sem.resolve M.P.sem e' r1 = .ok w1) (h2 : Sem.resolve M.P.sem e' r2 = .ok w2) (hv1 : VR M v1 w1) (hv2 : VR M v2 w2) :
    VR M (.con t [v1, v2]) (.clo 0 (.cons t [r1, r2]) e') := by
  refine .con rfl ht (fun r hr => ?_) fun i v r w hv hr hw => ?_
  · simp only [List.mem_cons, List.not_mem_nil, or_false] at hr
    rcases hr with rfl | rfl
    · exact ⟨_, h1⟩
    · exact ⟨_, h2⟩
  · match i with
    | 0 =>
      simp at hv hr; subst hv; subst hr; rw [h1] at hw; cases hw; exact hv1
    | 1 =>
      simp at hv hr; subst hv; subst hr; rw [h2] at hw; cases hw; exact hv2
    | i + 2 => simp at hv

theorem con1 {e' : Sem.Env K} {k : K} {t : Nat} (ht : fieldsOf t = some 1) :
    VR M (.con t [.nat k]) (.clo 0 (.cons t [.v k]) e') := by
  refine .con rfl ht (fun r hr => ?_) fun i v r w hv hr hw => ?_
  · simp only [List.mem_singleton] at hr
    subst hr
    exact ⟨_, rfl⟩
  · match i with
    | 0 => simp at hv hr; subst hv; subst hr; cases hw; exact .nat k
    | i + 1 => simp at hv

theorem con0 {e' : Sem.Env K} {t : Nat} (ht : fieldsOf t = some 0) : VR M (.con t []) (.clo 0 (.cons t []) e') :=
  .con rfl ht (fun r hr => by cases hr) fun i v r w hv => by simp at hv

theorem literal_sound (e' : Sem.Env K) (p : Prim K) : VR M (literal p) (.clo 0 (boxedLiteral p) e') := by
  cases p with
  | num k => exact con1 rfl
  | str k => exact con1 rfl
  | sym k => exact con1 rfl
  | bool b => cases b <;> exact con0 rfl
  | null => exact con0 rfl
  | typeData k => exact con1 rfl

/-- One silent step of an expression. -/
theorem srcE {x : Exp K} {ρ v1 w} (h : ∀ S, step M.P (.exp x ρ, S) = .next (v1, S)) (hv : VR M v1 w) : VR M (.exp x ρ) w :=
  .src (n := 1) (fun S => .one (h S)) hv

/-! ## Bindings -/

theorem deferred_sound {f : Ctx K → Except CErr (Form K)} {B0 B1 B : Binder K} {r ρ e' bctx cenv}
    (h : addDeferred f B0 = (.ok r, B1)) (hs : Sub B1 B) (hf : Fin M B ρ e' bctx cenv) :
    ∃ g, f bctx = .ok g ∧ Sem.resolve M.P.sem e' r = .ok (Sem.close g cenv) := by
  cases h
  obtain ⟨l, hl⟩ := hs.protos
  obtain ⟨g, h1, h3⟩ := hf.form B0.protos.length f (by rw [hl]; simp)
  exact ⟨g, h1, by simp only [Sem.resolve, h3]⟩

theorem formOf_close {cfg : Config K} {d : Demand} {s : Syn K} (e : Sem.Env K) : Sem.close (formOf cfg d s) e = .clo 0 s e := by
  unfold formOf; split <;> rfl

theorem ofSyn_sound {s : Ctx K → Except CErr (Syn K)} {d : Demand} {B0 B1 B : Binder K} {r ρ e' bctx cenv}
    (h : addDeferred (Proto.ofSyn M.cfg d s).form B0 = (.ok r, B1)) (hs : Sub B1 B) (hf : Fin M B ρ e' bctx cenv) :
    ∃ c, s bctx = .ok c ∧ Sem.resolve M.P.sem e' r = .ok (.clo 0 c cenv) := by
  obtain ⟨g, h1, h3⟩ := deferred_sound h hs hf
  obtain ⟨c, hc, rfl⟩ := map_ok h1
  rw [formOf_close] at h3
  exact ⟨c, hc, h3⟩

theorem add_sound {s : Syn K} {B0 B1 B : Binder K} {r ρ e' bctx cenv} (h : add M.cfg s B0 = (.ok r, B1)) (hs : Sub B1 B)
    (hf : Fin M B ρ e' bctx cenv) : Sem.resolve M.P.sem e' r = .ok (.clo 0 s cenv) := by
  obtain ⟨c, hc, h3⟩ := ofSyn_sound h hs hf
  cases hc
  exact h3

theorem lookupEnd_shape {cfg : Config K} {smid key o d B s B'} (h : lookupEnd cfg smid key o d B = (.ok s, B')) :
    ∃ a b c e, s = .lookup a b c e := by
  obtain ⟨_, _, _, h⟩ := bind_ok h
  exact ⟨_, _, _, _, (pure_ok h).1⟩

theorem lookupSyn_shape {cfg : Config K} {smid key obj dft B s B'} (h : lookupSyn cfg smid key obj dft B = (.ok s, B')) :
    ∃ a b c e, s = .lookup a b c e := by
  obtain ⟨_, _, _, h⟩ := bind_ok h
  obtain ⟨_, _, _, h⟩ := bind_ok h
  cases dft with
  | none =>
    obtain ⟨_, _, _, h⟩ := bind_ok h
    exact lookupEnd_shape h
  | some d =>
    dsimp only at h
    split at h
    · exact lookupEnd_shape h
    · obtain ⟨_, _, _, h⟩ := bind_ok h
      exact lookupEnd_shape h
    · cases h

theorem lamForm_ok {cfg : Config K} {ann n body ctx f} (h : lamForm cfg ann n body ctx = .ok f) :
    ∃ code, f = ⟨.lambda n ann, code⟩ := by
  unfold lamForm at h
  dsimp only at h
  split at h
  · cases h
  · split at h
    · cases h
    · split at h
      · cases h; exact ⟨_, rfl⟩
      · cases h

theorem annIf_sound {b : Bool} {smid : Nat} {s : Syn K} {e' : Sem.Env K} {v : Val K} (hv : VR M v (.clo 0 s e')) :
    VR M v (.clo 0 (annIf b smid s) e') := by
  unfold annIf
  split
  · exact .tgt (fun S => rfl) hv
  · exact hv

/-! ## Marks within -/

theorem HM.let_ {bs : Binds K} {body ρ} (h : HM M (.let_ bs body) ρ) :
    HMBinds M bs (.recs bs ρ) ∧ HM M body (.recs bs ρ) ∧
      ∀ (j : Nat) d x, (demands bs)[j]? = some (d, x) → d.forced = true → x.delayed d = true →
        Mark M (.exp body (.recs bs ρ)) (.exp (.var 0 j none) (.recs bs ρ)) := by
  obtain ⟨E, hE, h1, h2, h3⟩ := h
  exact ⟨⟨_, ⟨ρ, hE, rfl⟩, h2⟩, ⟨_, ⟨ρ, hE, rfl⟩, h3⟩, fun j d x => h1 ρ j d x hE⟩

theorem HM.lam {s n} {body : Exp K} {ρ} (h : HM M (.lam s n body) ρ) (vs : List (Val K)) : HM M body (.args vs ρ) := by
  obtain ⟨E, hE, h⟩ := h
  exact ⟨_, ⟨vs, ρ, hE, rfl⟩, h⟩

theorem HM.app {s} {f : Exp K} {args ρ} (h : HM M (.app s f args) ρ) : HM M f ρ ∧ HMAll M args ρ ∧
    ∀ (j : Nat) x, (exps args)[j]? = some x → (argDemand (sigOf M.cfg f) j).forced = true → isVar x = false →
      x.delayed (argDemand (sigOf M.cfg f) j) = true → Mark M (.exp (.app s f args) ρ) (.exp x ρ) := by
  obtain ⟨E, hE, h1, h2, h3⟩ := h
  exact ⟨⟨E, hE, h2⟩, ⟨E, hE, h3⟩, fun j x => h1 ρ j x hE⟩

theorem HM.list {s} {xs : Exps K} {ρ} (h : HM M (.list s xs) ρ) : HMAll M xs ρ := h
theorem HM.block {s} {kvs : Kvs K} {ρ} (h : HM M (.block s kvs) ρ) : HMKvs M kvs ρ := h
theorem HM.operator {s} {x : Exp K} {ρ} (h : HM M (.operator s x) ρ) : HM M x ρ := h
theorem HM.metaOf {s} {b m : Exp K} {ρ} (h : HM M (.metaOf s b m) ρ) : HM M b ρ ∧ HM M m ρ := by
  obtain ⟨E, hE, h1, h2⟩ := h
  exact ⟨⟨E, hE, h1⟩, ⟨E, hE, h2⟩⟩
theorem HMAll.cons {x : Exp K} {xs ρ} (h : HMAll M (.cons x xs) ρ) : HM M x ρ ∧ HMAll M xs ρ := by
  obtain ⟨E, hE, h1, h2⟩ := h
  exact ⟨⟨E, hE, h1⟩, ⟨E, hE, h2⟩⟩
theorem HMBinds.cons {name d} {x : Exp K} {xs ρ} (h : HMBinds M (.cons name d x xs) ρ) : HM M x ρ ∧ HMBinds M xs ρ := by
  obtain ⟨E, hE, h1, h2⟩ := h
  exact ⟨⟨E, hE, h1⟩, ⟨E, hE, h2⟩⟩
theorem HMKvs.cons {k} {x : Exp K} {xs ρ} (h : HMKvs M (.cons k x xs) ρ) : HM M x ρ ∧ HMKvs M xs ρ := by
  obtain ⟨E, hE, h1, h2⟩ := h
  exact ⟨⟨E, hE, h1⟩, ⟨E, hE, h2⟩⟩

/-! ## The statements -/

def BodyOk (M : Mode K) (x : Exp K) : Prop :=
  ∀ {self B0 p B1 B ρ e' bctx cenv ctx c}, bodyE M.cfg x self B0 = (.ok p, B1) → Sub B1 B → Fin M B ρ e' bctx cenv →
    Refs M B0 ρ e' → ER M ctx ρ e' → p.syn ctx = .ok c → HM M x ρ → VR M (.exp x ρ) (.clo 0 c e')

def BindOk (M : Mode K) (x : Exp K) : Prop :=
  ∀ {ann d self B0 r B1 B ρ e' bctx cenv}, bindE M.cfg x ann d self B0 = (.ok r, B1) → Sub B1 B → Fin M B ρ e' bctx cenv →
    Refs M B0 ρ e' → HM M x ρ → ∃ w, Sem.resolve M.P.sem e' r = .ok w ∧ VR M (.exp x ρ) w

def ArgsOk (M : Mode K) (xs : Exps K) : Prop :=
  ∀ {smid sig i self B0 ps B1 B ρ e' bctx cenv ctx rs}, bindArgs M.cfg xs smid sig i self B0 = (.ok ps, B1) → Sub B1 B →
    Fin M B ρ e' bctx cenv → B0.refs = [] → ER M ctx ρ e' → takeAll ctx ps = .ok rs → HMAll M xs ρ →
    All2 (VR M) ((exps xs).map (.exp · ρ)) (Sem.lazily e' rs) ∧ ∀ r ∈ rs, There e' r

def LetsOk (M : Mode K) (bs : Binds K) : Prop :=
  ∀ {self B0 B1 B bs0 ρ e' bctx cenv}, bindLets M.cfg bs self B0 = (.ok (), B1) → Sub B1 B →
    Fin M B (.recs bs0 ρ) e' bctx cenv → Refs M B0 (.recs bs0 ρ) e' → Good B0 →
    (∃ pre, bindings bs0 = pre ++ bindings bs ∧ pre.length = B0.refs.length) → HMBinds M bs (.recs bs0 ρ) → Refs M B1 (.recs bs0 ρ) e'

/-- The last pair of a list, wherever the environment gives the same. -/
def Last (M : Mode K) (v : Val K) (e' : Sem.Env K) : Option (Syn K) → Prop
  | none => v = .con 6 []
  | some d => ∀ E, (∀ i, Sem.lookup E i = Sem.lookup e' i) → VR M v (.clo 0 d E)

def ItemsOk (M : Mode K) (xs : Exps K) : Prop :=
  ∀ {smid B0 last B1 B ρ e' bctx cenv}, bindItems M.cfg xs smid B0 = (.ok last, B1) → Sub B1 B →
    Fin M B ρ e' bctx cenv → Refs M B0 ρ e' → B.recursive = true → HMAll M xs ρ → Last M (listOf ((exps xs).map (.exp · ρ))) e' last

def KvsOk (M : Mode K) (kvs : Kvs K) : Prop :=
  ∀ {smid B0 r B1 B ρ e' bctx cenv}, bindKvs M.cfg kvs smid B0 = (.ok r, B1) → Sub B1 B →
    Fin M B ρ e' bctx cenv → Refs M B0 ρ e' → B.recursive = true → HMKvs M kvs ρ →
    ∃ w, Sem.resolve M.P.sem e' r = .ok w ∧ VR M (listOf (entries ρ kvs)) w

/-! ## Functions, calls and lets -/

theorem synthetic_facts {B : Binder K} (h : Ext .synthetic B) : B.isScope = false ∧ B.refs = [] := ⟨h.scope, h.refs⟩

theorem enter_sound {body : Exp K} (hb : BodyOk M body) {ann n self ctx code ρ e'} {vs : List (Val K)} {ws}
    (h : lamForm M.cfg ann n (bodyE M.cfg body self) ctx = .ok ⟨.lambda n ann, code⟩) (hq : HM M body (.args vs ρ))
    (he : ER M ctx ρ e') (hv : All2 (VR M) vs ws) (hn : vs.length = n) :
    VR M (.exp body (.args vs ρ)) (.clo 0 code (Sem.consAll ws e')) := by
  unfold lamForm at h
  dsimp only at h
  split at h
  · cases h
  · rename_i p B hbody
    split at h
    · cases h
    · rename_i s hs
      split at h
      · cases h
        have hx := bodyE_ext hbody
        obtain ⟨hsc, hrf⟩ := synthetic_facts hx
        obtain ⟨s', e'', bctx, cenv, h1, h3, h4, h5⟩ :=
          into_syn hs (.args he hn (by rw [← hn, hv.length]) fun i v w a b => hv.get a b) hsc hrf
        refine annIf_sound (h5 _ (fun i hi => ?_) (hb hbody (.refl _) h4 (.nil rfl) h3 h1 hq))
        rw [(keeps_bodyE ..).eq hbody] at hi
        cases hi
      · cases h

theorem lam_sound {body : Exp K} (hb : BodyOk M body) {s ann n self ctx code ρ e'}
    (h : lamForm M.cfg ann n (bodyE M.cfg body self) ctx = .ok ⟨.lambda n ann, code⟩) (hq : HM M (.lam s n body) ρ)
    (he : ER M ctx ρ e') : VR M (.exp (.lam s n body) ρ) (.clo n code e') := by
  cases n with
  | zero => exact srcE (fun S => rfl) (enter_sound hb h (hq.lam []) he .nil rfl)
  | succ n => exact .fn he h hq

theorem direct_sound (F : Fits M.cfg M.P) {x : Exp K} {m : C K (PRef K)} {B0 p B1 ρ e' ctx r}
    (h : direct M.cfg x m B0 = (.ok p, B1)) (he : ER M ctx ρ e')
    (hr : p.take ctx = .ok r)
    (hm : m B0 = (.ok p, B1) → ∃ q w, p = .ref q ∧ Sem.resolve M.P.sem e' q = .ok w ∧ VR M (.exp x ρ) w ∧ There e' q) :
    VR M (.exp x ρ) (.clo 0 (.atom r) e') ∧ There e' r := by
  unfold direct at h
  split at h
  · cases h; exact ⟨.var he hr, he.there hr⟩
  · obtain ⟨_, _, h1, h2⟩ := bind_ok h
    cases h2
    obtain ⟨h3, rfl⟩ := of_ok h1
    cases hr
    obtain ⟨w, a, b, c⟩ := free_sound F ρ e' h3
    exact ⟨atom_sound a b, c⟩
  · obtain ⟨_, _, h1, h2⟩ := bind_ok h
    cases h2
    obtain ⟨h3, rfl⟩ := of_ok h1
    cases hr
    obtain ⟨w, a, b, c⟩ := intrinsic_sound F ρ e' h3
    exact ⟨atom_sound a b, c⟩
  · obtain ⟨q, w, rfl, a, b, c⟩ := hm h
    cases hr
    exact ⟨atom_sound a b, c⟩

theorem fin_there {B : Binder K} {ρ e' bctx cenv r} (hf : Fin M B ρ e' bctx cenv) (hr : refOk B r) : There e' r := by
  refine refOk_there hr fun i hi => ?_
  obtain ⟨_, _, h⟩ := hf.form i _ (List.getElem?_eq_getElem hi)
  rw [h]; rfl

theorem eagerBad_there {e' : Sem.Env K} {rs : List (Ref K)} (h : ∀ r ∈ rs, There e' r) : Sem.eagerBad e' rs = none := by
  induction rs with
  | nil => rfl
  | cons r rs ih =>
    have := ih fun r hr => h r (by simp [hr])
    have hr := h r (by simp)
    cases r with
    | l i =>
      obtain ⟨v, hv⟩ := Option.isSome_iff_exists.1 hr
      simp only [Sem.eagerBad, hv]; exact this
    | g i => exact this
    | v k => exact this

theorem app_step {P : Sem.World K} {e' : Sem.Env K} {r rs eager} (hr : There e' r) (hrs : ∀ r ∈ rs, There e' r) :
    Sem.app P e' r rs eager = match Sem.resolve P e' r with
      | .ok v => .ok (v, Sem.lazily e' rs)
      | .error x => .error x := by
  unfold Sem.app
  rw [eagerBad_there hrs]
  simp only [ite_self]
  cases r with
  | v k => exact absurd hr (by simp [There])
  | l i => rfl
  | g i => rfl

theorem forms_atoms (rs : List (Ref K)) (e : Sem.Env K) : (Sem.forms (atoms rs)).map (Sem.close · e) = Sem.lazily e rs := by
  induction rs with
  | nil => rfl
  | cons r rs ih => simp only [atoms, Sem.forms, List.map_cons, ih]; rfl

theorem lazily_length (e : Sem.Env K) (rs : List (Ref K)) : (Sem.lazily e rs).length = rs.length := by simp [Sem.lazily]

theorem call_sound {smid : Nat} {f : Exp K} {args : Exps K} {ρ e' r rs eager} {c : Syn K} (hf : VR M (.exp f ρ) (.clo 0 (.atom r) e'))
    (hr : There e' r) (ha : All2 (VR M) ((exps args).map (.exp · ρ)) (Sem.lazily e' rs)) (hrs : ∀ r ∈ rs, There e' r)
    (hc : c = .app r rs eager ∨ ∃ s, c = .dapp s r rs eager) : VR M (.exp (.app smid f args) ρ) (.clo 0 c e') := by
  refine .call (fun S => rfl) (fun S => ?_) hf ha.length fun i v w a b => ha.get a b
  have : Sem.sstep M.P.sem (.clo 0 c e', S) = match Sem.app M.P.sem e' r rs eager with
      | .ok (v, vs) => .next (v, .apply vs :: S)
      | .error x => .err x := by
    rcases hc with rfl | ⟨s, rfl⟩ <;> rfl
  rw [this, app_step hr hrs]
  simp only [Sem.sstep, Sem.exec]
  cases Sem.resolve M.P.sem e' r <;> rfl

theorem inline_sound (F : Fits M.cfg M.P) {smid : Nat} {name : String} {args : Exps K} {ρ e' rs} {i : Nat} {w : Wrapper K}
    (hi : M.cfg.index name = some i) (hw : M.cfg.wrapper i = some w) (hl : w.inlinable = true) (hn : w.arity = rs.length)
    (ha : All2 (VR M) ((exps args).map (.exp · ρ)) (Sem.lazily e' rs)) :
    VR M (.exp (.app smid (.intrinsic name) args) ρ) (.clo 0 (.let_ (atoms rs) w.body) e') := by
  obtain ⟨hpos, hd, hg, har⟩ := F.wrapper i w hw hl
  have hlen := ha.length
  rw [lazily_length, ← hn] at hlen
  obtain ⟨n, hn'⟩ : ∃ n, w.arity = n + 1 := ⟨w.arity - 1, by omega⟩
  refine .src (n := 3) (v1 := .clo 0 w.body (consAll ((exps args).map (.exp · ρ)) .nil)) (fun S => ?_) (.tgt (fun S => rfl) ?_)
  · refine .next (c' := (.exp (.intrinsic name) ρ, .apply ((exps args).map (.exp · ρ)) :: S)) rfl ?_
    refine .next (c' := (.clo (n + 1) w.body .nil, .apply ((exps args).map (.exp · ρ)) :: S)) ?_ (.one ?_)
    · simp only [step, shape, execE, F.index, hi, global, hg, SRes.of, close, har, hn']
    · simp only [step, shape, give, onApply]
      rw [if_pos (by rw [hlen, hn'])]
  · rw [forms_atoms]
    have hwf := F.wf.1 _ (List.mem_of_getElem? hg)
    simp only [har] at hwf
    refine .code (d := w.arity) ?_ hwf
    have := DR.consAll (M := M) (d := 0) (e := .nil) (e' := e') .nil ha
    rwa [Nat.zero_add, hlen] at this

theorem callSyn_sound (F : Fits M.cfg M.P) {smid : Nat} {f : Exp K} {args : Exps K} {self ρ e' r rs}
    (hf : VR M (.exp f ρ) (.clo 0 (.atom r) e')) (hr : There e' r)
    (ha : All2 (VR M) ((exps args).map (.exp · ρ)) (Sem.lazily e' rs)) (hrs : ∀ r ∈ rs, There e' r) :
    VR M (.exp (.app smid f args) ρ) (.clo 0 (callSyn M.cfg smid f self r rs) e') := by
  have hcall : ∀ (b : Bool) (eager : Bool), VR M (.exp (.app smid f args) ρ)
      (.clo 0 (if b then .dapp smid r rs eager else .app r rs eager) e') := by
    intro b eager
    cases b
    · exact call_sound hf hr ha hrs (.inl rfl)
    · exact call_sound hf hr ha hrs (.inr ⟨_, rfl⟩)
  unfold callSyn
  dsimp only
  split
  · exact hcall _ _
  · rename_i i hi
    split
    · exact hcall _ _
    · rename_i w hw
      split
      · rename_i hc
        simp only [Bool.and_eq_true, beq_iff_eq] at hc
        unfold intrinsicIndex at hi
        split at hi
        · split
          · rw [F.unfused, if_neg (by simp)]
            exact inline_sound F hi hw hc.1.2 hc.2 ha
          · exact inline_sound F hi hw hc.1.2 hc.2 ha
        · cases hi
      · exact hcall _ _

theorem takeAll_ref {ctx : Ctx K} {ps rs} (h : takeAll ctx ps = .ok rs) {j : Nat} {r} (hj : ps[j]? = some (.ref r)) : rs[j]? = some r := by
  induction ps generalizing rs j with
  | nil => simp at hj
  | cons p ps ih =>
    unfold takeAll at h
    split at h
    · cases h
    · rename_i r' hr
      split at h
      · cases h
      · rename_i rs' hrs
        cases h
        cases j with
        | zero => simp at hj; subst hj; cases hr; rfl
        | succ j => simpa using ih hrs (by simpa using hj)

theorem app_sound (F : Fits M.cfg M.P) {f : Exp K} {args : Exps K} (hfn : BindOk M f) (hargs : ArgsOk M args)
    {smid self ctx c ρ e'}
    (h : appSyn M.cfg smid f self (direct M.cfg f ((bindE M.cfg f smid {} self).bind fun r => .pure (.ref r)))
      (bindArgs M.cfg args smid (sigOf M.cfg f) 0 self) ctx = .ok c) (hq : HM M (.app smid f args) ρ) (he : ER M ctx ρ e') :
    VR M (.exp (.app smid f args) ρ) (.clo 0 c e') := by
  unfold appSyn at h
  split at h
  · cases h
  · rename_i pf ps B hb
    obtain ⟨c0, hi, rfl⟩ := map_ok h
    obtain ⟨hqf, hqa, hqm⟩ := hq.app
    obtain ⟨pf', B1, hf, hb⟩ := bind_ok hb
    obtain ⟨ps', B2, ha, hb⟩ := bind_ok hb
    cases hb
    have x1 : Ext .synthetic B1 := by
      refine ((does_direct M.cfg f (m := (bindE M.cfg f smid {} self).bind fun r => .pure (.ref r)) ?_).ok hf).1
      exact .bind (does_bindE ..) fun r => .pure fun B _ ⟨_, e, hr⟩ r' h => by cases h; exact hr.mono e.toSub
    have x2 : Ext B1 B := ((does_bindArgs ..).ok ha).1
    obtain ⟨hsc, hrf⟩ := synthetic_facts (x1.trans x2)
    obtain ⟨s, e'', bctx, cenv, h1, h3, h4, h5⟩ := into_syn hi he hsc hrf
    refine annIf_sound ?_
    unfold callBody at h1
    split at h1
    · cases h1
    · rename_i r hr
      split at h1
      · cases h1
      · rename_i rs hrs
        cases h1
        obtain ⟨a, b⟩ := direct_sound F hf h3 hr fun hm => by
          obtain ⟨q, B1', hm1, hm2⟩ := bind_ok hm
          cases hm2
          obtain ⟨w, hw1, hw2⟩ := hfn hm1 x2.toSub h4 (.nil rfl) hqf
          refine ⟨q, w, rfl, hw1, hw2, fin_there h4 ((bindE_ref hm1 ?_).mono x2.toSub)⟩
          intro r hr; simp [Binder.synthetic] at hr
        obtain ⟨a2, b2⟩ := hargs ha (.refl _) h4 (by rw [x1.refs]; rfl) h3 hrs hqa
        refine h5 _ (fun i hi hnr => ?_) (callSyn_sound F a b a2 b2)
        rcases args_strict args ha hi with hi | hi | ⟨j, x, hx1, hx2, hx3, hx4, hx5⟩
        · rw [(direct_keeps (.bind (keeps_bindE ..) fun _ => .pure)).eq hf] at hi
          cases hi
        · exact absurd hi hnr
        · rw [Nat.zero_add] at hx2 hx4
          refine ⟨_, hqm j x hx1 hx2 hx3 hx4, a2.get (i := j) (by simp [hx1]) ?_⟩
          rw [Sem.lazily, List.getElem?_map, takeAll_ref hrs hx5]
          rfl

/-- The scope of a let, and its names. -/
theorem let_fin {bs : Binds K} (hl : LetsOk M bs) {self B1 B2 ctx ρ e' e'' fs} (he : ER M ctx ρ e')
    (hb : bindLets M.cfg bs self .forScope = (.ok (), B1)) (hx : Ext B1 B2) (hf : realise (B2.frame :: ctx) B2.protos = .ok fs)
    (hq : HMBinds M bs (.recs bs ρ)) (hlk : ∀ i, Sem.lookup e'' i = Sem.lookup (.recs fs e') i) :
    Fin M B2 (.recs bs ρ) e'' (B2.frame :: ctx) (.recs fs e') ∧ Refs M B1 (.recs bs ρ) e'' := by
  have hfin : Fin M B2 (.recs bs ρ) e'' (B2.frame :: ctx) (.recs fs e') := by
    refine ⟨.recs he hb hx hf hq fun _ => rfl, fun i p hp => ?_, fun _ i => (hlk i).symm⟩
    obtain ⟨f, h1, h2⟩ := realise_get hf hp
    refine ⟨f, h1, ?_⟩
    rw [hlk]
    simp only [Sem.lookup, h2]
  exact ⟨hfin, hl hb hx.toSub hfin (.nil rfl) good_forScope ⟨[], rfl, rfl⟩ hq⟩

theorem let_sound {bs : Binds K} {body : Exp K} (hl : LetsOk M bs) (hbody : BodyOk M body) {self ctx c ρ e'}
    (h : letSyn (bindLets M.cfg bs self) (bodyE M.cfg body self) ctx = .ok c) (hq : HM M (.let_ bs body) ρ) (he : ER M ctx ρ e') :
    VR M (.exp (.let_ bs body) ρ) (.clo 0 c e') := by
  unfold letSyn at h
  split at h
  · cases h
  · rename_i p B hb
    obtain ⟨u, B1, hb1, hb2⟩ := bind_ok hb
    have hx := bodyE_ext hb2
    have hrec : B.recursive = true := hx.recu ((bindLets_sub _ hb1 good_forScope).1.recu rfl)
    obtain ⟨fs, s, e'', hfs, hbo, hlk, hv⟩ := into_sound (M := M) e' h
    obtain ⟨hqf, hqs, hqm⟩ := hq.let_
    rw [hrec] at hfs hlk
    simp only [if_true] at hfs hlk
    obtain ⟨hfin, hrefs⟩ := let_fin hl he hb1 hx hfs hqf hlk
    have her : ER M (B.frame :: ctx) (.recs bs ρ) e'' := .recs he hb1 hx hfs hqf hlk
    refine srcE (fun S => rfl) (hv _ (fun i hi hnr => ?_) (hbody hb2 (.refl _) hfin hrefs her hbo hqs))
    rw [(keeps_bodyE ..).eq hb2] at hi
    rcases lets_strict bs hb1 good_forScope hi with hi | hi | ⟨j, d, x, a, b, c, e⟩
    · cases hi
    · exact absurd (hi.sub hx.toSub) hnr
    · refine ⟨_, hqm j d x a b c, .var her ?_⟩
      have hsc : B.isScope = true := by
        rw [hx.scope, (bindLets_sub _ hb1 good_forScope).1.scope]; rfl
      have e' : B.refs[j]? = some (.l i) := by
        rw [hx.refs, ← e]
        congr 1
        simp [Binder.forScope]
      simp only [ctxLookup, Binder.frame, hsc, if_true, e']

/-! ## All expressions -/

theorem close_lam (n ann : Nat) (code : Syn K) (e : Sem.Env K) : Sem.close ⟨.lambda n ann, code⟩ e = .clo n code e := rfl

theorem Refs.add {B : Binder K} {bs ρ e' r} {x : Exp K} (h : Refs M B (.recs bs ρ) e') (hx : (bindings bs)[B.refs.length]? = some x)
    {w} (hr : Sem.resolve M.P.sem e' r = .ok w) (hv : VR M (.exp x (.recs bs ρ)) w) :
    Refs M { B with refs := B.refs ++ [r] } (.recs bs ρ) e' := by
  intro i q hq
  simp only at hq
  rcases Nat.lt_trichotomy i B.refs.length with hi | hi | hi
  · exact h i q (by rwa [List.getElem?_append_left hi] at hq)
  · subst hi
    simp at hq
    subst hq
    exact ⟨_, w, by simp only [find, if_true, hx, Option.map_some], hr, hv⟩
  · rw [List.getElem?_eq_none (by simp; omega)] at hq; cases hq

mutual
theorem bodyE_sound (F : Fits M.cfg M.P) (x : Exp K) : BodyOk M x := by
  intro self B0 p B1 B ρ e' bctx cenv ctx c h hs hf hr he hc hq
  match x with
  | .let_ bs body =>
    unfold bodyE at h
    cases h
    exact let_sound (bindLets_sound F bs) (bodyE_sound F body) hc hq he
  | .var s i name =>
    unfold bodyE at h
    cases h
    obtain ⟨r, hr, rfl⟩ := map_ok hc
    exact .var he hr
  | .free name =>
    unfold bodyE at h
    obtain ⟨r, B2, h1, h2⟩ := bind_ok h
    cases h2
    cases hc
    obtain ⟨w, a, b, _⟩ := free_sound F ρ e' (of_ok h1).1
    exact atom_sound a b
  | .intrinsic name =>
    unfold bodyE at h
    obtain ⟨r, B2, h1, h2⟩ := bind_ok h
    cases h2
    cases hc
    obtain ⟨w, a, b, _⟩ := intrinsic_sound F ρ e' (of_ok h1).1
    exact atom_sound a b
  | .app smid f args =>
    unfold bodyE at h
    cases h
    exact app_sound F (bindE_sound F f) (bindArgs_sound F args) hc hq he
  | .lit p =>
    unfold bodyE at h
    cases h
    cases hc
    exact srcE (fun S => rfl) (literal_sound e' p)
  | .lam smid n body =>
    unfold bodyE at h
    cases h
    obtain ⟨f, h1, rfl⟩ := map_ok hc
    obtain ⟨code, rfl⟩ := lamForm_ok h1
    refine .tgt (fun S => rfl) (.tgt (fun S => rfl) ?_)
    exact lam_sound (bodyE_sound F body) h1 hq he
  | .list smid xs =>
    unfold bodyE at h
    obtain ⟨_, B2, h1, h⟩ := bind_ok h
    obtain ⟨last, B3, h2, h3⟩ := bind_ok h
    cases h3
    cases hc
    have x1 := (does_ensureRec.ok h1).1
    have hrec : B.recursive = true := hs.recu (((does_bindItems ..).ok h2).1.recu (by cases h1; rfl))
    have hl := bindItems_sound F xs h2 hs hf (hr.ext x1) hrec hq.list
    cases last with
    | none =>
      obtain ⟨w, a, b⟩ := empty_sound F e'
      refine srcE (fun S => rfl) ?_
      simp only [Last] at hl
      rw [hl]
      exact atom_sound a b
    | some d => exact srcE (fun S => rfl) (hl e' fun _ => rfl)
  | .block smid kvs =>
    unfold bodyE at h
    obtain ⟨_, B2, h1, h⟩ := bind_ok h
    obtain ⟨r, B3, h2, h3⟩ := bind_ok h
    cases h3
    cases hc
    have x1 := (does_ensureRec.ok h1).1
    have hrec : B.recursive = true := hs.recu (((does_bindKvs ..).ok h2).1.recu (by cases h1; rfl))
    obtain ⟨w, a, b⟩ := bindKvs_sound F kvs h2 hs hf (hr.ext x1) hrec hq.block
    refine srcE (fun S => rfl) ?_
    rw [← F.noIndex]
    exact con2 rfl a rfl b (.nat _)
  | .lookup smid obj key =>
    unfold bodyE at h
    obtain ⟨s, B2, h1, h⟩ := bind_ok h
    cases h
    cases hc
    obtain ⟨a, b, c, d, rfl⟩ := lookupSyn_shape h1
    exact .err (fun S => rfl) (fun S => rfl)
  | .lookupOr smid obj key dft =>
    unfold bodyE at h
    obtain ⟨s, B2, h1, h⟩ := bind_ok h
    cases h
    cases hc
    obtain ⟨a, b, c, d, rfl⟩ := lookupSyn_shape h1
    exact .err (fun S => rfl) (fun S => rfl)
  | .metaOf smid body m =>
    unfold bodyE at h
    obtain ⟨rm, B2, h1, h⟩ := bind_ok h
    obtain ⟨rb, B3, h2, h⟩ := bind_ok h
    cases h
    cases hc
    have x2 := bindE_ext h2
    obtain ⟨wm, a1, b1⟩ := bindE_sound F m h1 (x2.toSub.trans hs) hf hr hq.metaOf.2
    obtain ⟨wb, a2, b2⟩ := bindE_sound F body h2 hs hf (hr.ext (bindE_ext h1)) hq.metaOf.1
    exact srcE (fun S => rfl) (.note a1 a2 b1 b2)
  | .operator _ body =>
    unfold bodyE at h
    exact srcE (fun S => rfl) (bodyE_sound F body h hs hf hr he hc hq.operator)
  | .other => unfold bodyE at h; cases h
termination_by structural x

theorem bindE_sound (F : Fits M.cfg M.P) (x : Exp K) : BindOk M x := by
  intro ann d self B0 r B1 B ρ e' bctx cenv h hs hf hr hq
  match x with
  | .var s i name =>
    unfold bindE at h
    have deferred : addDeferred (protoVar M.cfg s i).form B0 = (.ok r, B1) →
        ∃ w, Sem.resolve M.P.sem e' r = .ok w ∧ VR M (.exp (.var s i name) ρ) w := by
      intro h
      obtain ⟨c, hc, hw⟩ := ofSyn_sound h hs hf
      obtain ⟨q, h1, rfl⟩ := map_ok hc
      exact ⟨_, hw, .var hf.er h1⟩
    split at h
    · rename_i hs0
      subst hs0
      split at h
      · rename_i q hq
        cases h
        unfold Binder.running at hq
        split at hq
        · obtain ⟨v, w, h1, h2, h3⟩ := hr i r hq
          refine ⟨w, h2, srcE (fun S => ?_) h3⟩
          simp only [step, shape, execE, h1]
        · cases hq
      · exact deferred h
    · exact deferred h
  | .free name =>
    unfold bindE at h
    obtain ⟨w, a, b, _⟩ := free_sound F ρ e' (of_ok h).1
    exact ⟨w, a, b⟩
  | .intrinsic name =>
    unfold bindE at h
    obtain ⟨w, a, b, _⟩ := intrinsic_sound F ρ e' (of_ok h).1
    exact ⟨w, a, b⟩
  | .let_ bs body =>
    unfold bindE at h
    obtain ⟨c, hc, hw⟩ := ofSyn_sound h hs hf
    exact ⟨_, hw, let_sound (bindLets_sound F bs) (bodyE_sound F body) hc hq hf.er⟩
  | .lam s n body =>
    unfold bindE at h
    obtain ⟨g, h1, hw⟩ := deferred_sound h hs hf
    obtain ⟨code, rfl⟩ := lamForm_ok h1
    exact ⟨_, hw, lam_sound (bodyE_sound F body) h1 hq hf.er⟩
  | .app smid f args =>
    unfold bindE at h
    obtain ⟨c, hc, hw⟩ := ofSyn_sound h hs hf
    exact ⟨_, hw, app_sound F (bindE_sound F f) (bindArgs_sound F args) hc hq hf.er⟩
  | .lit p =>
    unfold bindE at h
    exact ⟨_, add_sound h hs hf, srcE (fun S => rfl) (literal_sound cenv p)⟩
  | .list smid xs =>
    unfold bindE at h
    obtain ⟨_, B2, h1, h⟩ := bind_ok h
    obtain ⟨last, B3, h2, h3⟩ := bind_ok h
    have x1 := (does_ensureRec.ok h1).1
    have rec3 : B3.recursive = true := ((does_bindItems ..).ok h2).1.recu (by cases h1; rfl)
    cases last with
    | none =>
      cases h3
      have hl := bindItems_sound F xs h2 hs hf (hr.ext x1) (hs.recu rec3) hq.list
      simp only [Last] at hl
      obtain ⟨w, a, b⟩ := empty_sound F e'
      exact ⟨w, a, srcE (fun S => rfl) (hl ▸ b)⟩
    | some d =>
      have x3 := ((does_add ..).ok h3).1
      have hrec := hs.recu (x3.recu rec3)
      have hl := bindItems_sound F xs h2 (x3.toSub.trans hs) hf (hr.ext x1) hrec hq.list
      exact ⟨_, add_sound h3 hs hf, srcE (fun S => rfl) (hl cenv (hf.recu hrec))⟩
  | .block smid kvs =>
    unfold bindE at h
    obtain ⟨_, B2, h1, h⟩ := bind_ok h
    obtain ⟨q, B3, h2, h3⟩ := bind_ok h
    have x1 := (does_ensureRec.ok h1).1
    have rec3 : B3.recursive = true := ((does_bindKvs ..).ok h2).1.recu (by cases h1; rfl)
    have x3 := ((does_add ..).ok h3).1
    have hrec := hs.recu (x3.recu rec3)
    obtain ⟨w, a, b⟩ := bindKvs_sound F kvs h2 (x3.toSub.trans hs) hf (hr.ext x1) hrec hq.block
    refine ⟨_, add_sound h3 hs hf, srcE (fun S => rfl) ?_⟩
    rw [← F.noIndex]
    exact con2 rfl ((resolve_congr (hf.recu hrec) q).trans a) rfl b (.nat _)
  | .lookup smid obj key =>
    unfold bindE at h
    obtain ⟨s, B2, h1, h2⟩ := bind_ok h
    obtain ⟨a, b, c, d, rfl⟩ := lookupSyn_shape h1
    exact ⟨_, add_sound h2 hs hf, .err (fun S => rfl) (fun S => rfl)⟩
  | .lookupOr smid obj key dft =>
    unfold bindE at h
    obtain ⟨s, B2, h1, h2⟩ := bind_ok h
    obtain ⟨a, b, c, d, rfl⟩ := lookupSyn_shape h1
    exact ⟨_, add_sound h2 hs hf, .err (fun S => rfl) (fun S => rfl)⟩
  | .metaOf smid body m =>
    unfold bindE at h
    obtain ⟨_, B2, h0, h⟩ := bind_ok h
    obtain ⟨rm, B3, h1, h⟩ := bind_ok h
    obtain ⟨rb, B4, h2, h3⟩ := bind_ok h
    have x0 := (does_ensureRec.ok h0).1
    have x1 := bindE_ext h1
    have x2 := bindE_ext h2
    have x3 := ((does_add ..).ok h3).1
    have hrec : B.recursive = true := hs.recu (x3.recu (x2.recu (x1.recu (by cases h0; rfl))))
    obtain ⟨wm, a1, b1⟩ := bindE_sound F m h1 ((x2.toSub.trans x3.toSub).trans hs) hf (hr.ext x0) hq.metaOf.2
    obtain ⟨wb, a2, b2⟩ := bindE_sound F body h2 (x3.toSub.trans hs) hf ((hr.ext x0).ext x1) hq.metaOf.1
    refine ⟨_, add_sound h3 hs hf, srcE (fun S => rfl) (.note ?_ ?_ b1 b2)⟩
    · rw [resolve_congr (hf.recu hrec)]; exact a1
    · rw [resolve_congr (hf.recu hrec)]; exact a2
  | .operator smid body =>
    unfold bindE at h
    obtain ⟨w, a, b⟩ := bindE_sound F body h hs hf hr hq.operator
    exact ⟨w, a, srcE (fun S => rfl) b⟩
  | .other => unfold bindE at h; cases h
termination_by structural x

theorem bindArgs_sound (F : Fits M.cfg M.P) (xs : Exps K) : ArgsOk M xs := by
  intro smid sig i self B0 ps B1 B ρ e' bctx cenv ctx rs h hs hf hr he ht hq
  match xs with
  | .nil =>
    unfold bindArgs at h
    cases h
    cases ht
    exact ⟨.nil, fun r hr => by cases hr⟩
  | .cons x xs =>
    unfold bindArgs at h
    obtain ⟨p, B2, h1, h⟩ := bind_ok h
    obtain ⟨ps', B3, h2, h⟩ := bind_ok h
    cases h
    unfold takeAll at ht
    split at ht
    · cases ht
    · rename_i r hpr
      split at ht
      · cases ht
      · rename_i rs' hrs
        cases ht
        have x1 : Ext B0 B2 := by
          refine ((does_direct M.cfg x (m := _) ?_).ok h1).1
          exact .bind (does_bindE ..) fun r => .bind (does_markStrict _ _) fun _ =>
            .pure fun B _ _ ⟨_, e, hr⟩ r' h => by cases h; exact hr.mono e.toSub
        have x2 := ((does_bindArgs ..).ok h2).1
        obtain ⟨a, b⟩ := direct_sound F h1 he hpr fun hm => by
          obtain ⟨q, B5, hm1, hm⟩ := bind_ok hm
          obtain ⟨_, B6, hm2, hm⟩ := bind_ok hm
          cases hm
          have x6 := ((does_markStrict _ _).ok hm2).1
          have hsub : Sub B5 B := (x6.toSub.trans x2.toSub).trans hs
          obtain ⟨w, hw1, hw2⟩ := bindE_sound F x hm1 hsub hf (.nil hr) hq.cons.1
          refine ⟨q, w, rfl, hw1, hw2, fin_there hf ((bindE_ref hm1 ?_).mono hsub)⟩
          intro r h; rw [hr] at h; cases h
        obtain ⟨a2, b2⟩ := bindArgs_sound F xs h2 hs hf (by rw [x1.refs, hr]) he hrs hq.cons.2
        refine ⟨.cons a a2, fun r hr => ?_⟩
        simp only [List.mem_cons] at hr
        rcases hr with rfl | hr
        · exact b
        · exact b2 r hr
termination_by structural xs

theorem bindLets_sound (F : Fits M.cfg M.P) (bs : Binds K) : LetsOk M bs := by
  intro self B0 B1 B bs0 ρ e' bctx cenv h hs hf hr hg hpre hq
  match bs with
  | .nil => unfold bindLets at h; cases h; exact hr
  | .cons name d x rest =>
    unfold bindLets at h
    obtain ⟨r, B2, h1, h⟩ := bind_ok h
    obtain ⟨_, B3, h2, h⟩ := bind_ok h
    obtain ⟨_, B4, h3, h⟩ := bind_ok h
    have x1 := bindE_ext h1
    have x2 := ((does_markStrict _ _).ok h2).1
    have hgr := bindE_ref h1 hg
    cases h3
    have s3 : Sub B3 { B3 with refs := B3.refs ++ [r] } := ⟨rfl, id, [], by simp⟩
    have hg4 : Good { B3 with refs := B3.refs ++ [r] } := by
      intro q hq
      simp only [List.mem_append, List.mem_singleton] at hq
      rcases hq with hq | rfl
      · exact (((hg.ext x1).ext x2) q hq).mono s3
      · exact (hgr.mono x2.toSub).mono s3
    have s4 := (bindLets_sub rest h hg4).1
    obtain ⟨w, hw1, hw2⟩ := bindE_sound F x h1 (((x2.toSub.trans s3).trans s4).trans hs) hf hr hq.cons.1
    obtain ⟨pre, hp1, hp2⟩ := hpre
    have hlen : B3.refs.length = pre.length := by rw [x2.refs, x1.refs, hp2]
    have hx : (bindings bs0)[B3.refs.length]? = some x := by rw [hp1, hlen]; simp [bindings]
    refine bindLets_sound F rest h hs hf (Refs.add ((hr.ext x1).ext x2) hx hw1 hw2) hg4 ⟨pre ++ [x], ?_, ?_⟩ hq.cons.2
    · rw [hp1]; simp [bindings]
    · simp [hlen]
termination_by structural bs

theorem bindItems_sound (F : Fits M.cfg M.P) (xs : Exps K) : ItemsOk M xs := by
  intro smid B0 last B1 B ρ e' bctx cenv h hs hf hr hrec hq
  match xs with
  | .nil => unfold bindItems at h; cases h; rfl
  | .cons x xs =>
    unfold bindItems at h
    obtain ⟨last', B2, h1, h⟩ := bind_ok h
    obtain ⟨t, B3, h2, h⟩ := bind_ok h
    obtain ⟨hd, B4, h3, h⟩ := bind_ok h
    cases h
    have x1 := ((does_bindItems ..).ok h1).1
    have x3 := bindE_ext h3
    have x2 : Ext B2 B3 := by
      cases last' with
      | some d => exact ((does_add ..).ok h2).1
      | none => cases h2; exact .refl _
    obtain ⟨wt, ht, hvt⟩ : ∃ w, Sem.resolve M.P.sem e' t = .ok w ∧ VR M (listOf ((exps xs).map (.exp · ρ))) w := by
      have hl := bindItems_sound F xs h1 ((x2.toSub.trans x3.toSub).trans hs) hf hr hrec hq.cons.2
      cases last' with
      | none =>
        cases h2
        simp only [Last] at hl
        rw [hl]
        exact empty_sound F e'
      | some d => exact ⟨_, add_sound h2 (x3.toSub.trans hs) hf, hl cenv (hf.recu hrec)⟩
    obtain ⟨wh, hh, hvh⟩ := bindE_sound F x h3 hs hf ((hr.ext x1).ext x2) hq.cons.1
    intro E hE
    exact con2 rfl ((resolve_congr hE hd).trans hh) ((resolve_congr hE t).trans ht) hvh hvt
termination_by structural xs

theorem bindKvs_sound (F : Fits M.cfg M.P) (kvs : Kvs K) : KvsOk M kvs := by
  intro smid B0 r B1 B ρ e' bctx cenv h hs hf hr hrec hq
  match kvs with
  | .nil => unfold bindKvs at h; cases h; exact empty_sound F e'
  | .cons k x rest =>
    unfold bindKvs at h
    obtain ⟨t, B2, h1, h⟩ := bind_ok h
    obtain ⟨v, B3, h2, h⟩ := bind_ok h
    obtain ⟨kv, B4, h3, h4⟩ := bind_ok h
    have x1 := ((does_bindKvs ..).ok h1).1
    have x2 := bindE_ext h2
    have x3 := ((does_add ..).ok h3).1
    have x4 := ((does_add ..).ok h4).1
    have s4 := x4.toSub.trans hs
    have s3 := x3.toSub.trans s4
    obtain ⟨wt, ht, hvt⟩ := bindKvs_sound F rest h1 (x2.toSub.trans s3) hf hr hrec hq.cons.2
    obtain ⟨wv, hv, hvv⟩ := bindE_sound F x h2 s3 hf (hr.ext x1) hq.cons.1
    have hkv := add_sound h3 s4 hf
    refine ⟨_, add_sound h4 hs hf, ?_⟩
    refine con2 rfl ((resolve_congr (hf.recu hrec) kv).trans hkv) ((resolve_congr (hf.recu hrec) t).trans ht) ?_ hvt
    exact con2 rfl rfl ((resolve_congr (hf.recu hrec) v).trans hv) (.nat k) hvv
termination_by structural kvs
end

/-! ## Names -/

/-- What a name stands for before, the reference it became stands for after. -/
theorem ER.lookup (F : Fits M.cfg M.P) {ctx : Ctx K} {ρ e' s i r} (h : ER M ctx ρ e') (hr : ctxLookup ctx s i = .ok r) :
    ∃ v w, find ρ s i = some v ∧ Sem.resolve M.P.sem e' r = .ok w ∧ VR M v w := by
  match h with
  | .nil => cases hr
  | .syn he hl =>
    simp only [ctxLookup, Bool.false_eq_true, if_false] at hr
    obtain ⟨r0, h1, rfl⟩ := map_ok hr
    obtain ⟨v, w, a, b, c⟩ := ER.lookup F he h1
    exact ⟨v, w, a, by rw [resolve_bump hl (he.there h1)]; exact b, c⟩
  | .args (n := n) (vs := vs) (ws := ws) he hv hw hvw =>
    simp only [ctxLookup, if_true] at hr
    cases s with
    | zero =>
      simp only at hr
      split at hr
      · rename_i hi
        cases hr
        rw [List.getElem?_map, Option.map_eq_some_iff] at hi
        obtain ⟨j, hj, rfl⟩ := hi
        have hlt : i < n := by simpa using (List.getElem?_eq_some_iff.1 hj).1
        have : j = i := by
          rw [List.getElem?_range hlt] at hj; cases hj; rfl
        subst this
        have e1 : vs[j]? = some (vs[j]'(by omega)) := List.getElem?_eq_getElem (by omega)
        have e2 : ws[j]? = some (ws[j]'(by omega)) := List.getElem?_eq_getElem (by omega)
        refine ⟨_, _, by simp only [find, if_true]; exact e1, ?_, hvw j _ _ e1 e2⟩
        simp only [Sem.resolve]
        rw [Opt.lookup_consAll, e2]
      · cases hr
    | succ s =>
      obtain ⟨r0, h1, rfl⟩ := map_ok hr
      obtain ⟨v, w, a, b, c⟩ := ER.lookup F he h1
      refine ⟨v, w, by simpa [find] using a, ?_, c⟩
      rw [resolve_bump (lookup_consAll_ge hw) (he.there h1)]
      exact b
  | .recs (B2 := B2) (fs := fs) he hb hx hf hq hl =>
    have hlen := realise_length hf
    have hsc : B2.isScope = true := by
      rw [hx.scope, (bindLets_sub _ hb good_forScope).1.scope]; rfl
    simp only [ctxLookup, Binder.frame, hsc, if_true] at hr
    cases s with
    | zero =>
      simp only at hr
      split at hr
      · rename_i hi
        cases hr
        exact ((let_fin (bindLets_sound F _) he hb hx hf hq hl).2.ext hx) i r hi
      · cases hr
    | succ s =>
      obtain ⟨r0, h1, rfl⟩ := map_ok hr
      obtain ⟨v, w, a, b, c⟩ := ER.lookup F he h1
      refine ⟨v, w, by simpa [find] using a, ?_, c⟩
      rw [resolve_bump (fun i => by rw [hl]; exact lookup_recs_ge hlen i) (he.there h1)]
      exact b
termination_by structural h

/-- The whole program. -/
theorem compile_sound (F : Fits M.cfg M.P) {x : Exp K} {c : Syn K} (hh : M.cfg.render = .headless)
    (h : compile M.cfg x = .ok c) (hq : HM M x .nil) : VR M (.exp x .nil) (.clo 0 c .nil) := by
  unfold compile at h
  rw [hh] at h
  dsimp only at h
  split at h
  · cases h
  · rename_i p B hb
    have hx := bodyE_ext hb
    obtain ⟨s, e'', bctx, cenv, h1, h3, h4, h5⟩ := into_syn h .nil hx.scope hx.refs
    refine h5 _ (fun i hi => ?_) (bodyE_sound F x hb (.refl _) h4 (.nil rfl) h3 h1 hq)
    rw [(keeps_bodyE ..).eq hb] at hi
    cases hi

end Verif.Comp
