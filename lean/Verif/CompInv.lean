import Verif.CompSpec

/-!
# What compiling does to a binder

Proofs only.
-/

namespace Verif.Comp
open Verif.Bc
variable {K : Type}

/-- Of the binding in hand: nothing is taken back. -/
structure Sub (B B' : Binder K) : Prop where
  scope : B'.isScope = B.isScope
  recu : B.recursive = true → B'.recursive = true
  protos : ∃ l, B'.protos = B.protos ++ l

structure Ext (B B' : Binder K) : Prop extends Sub B B' where
  refs : B'.refs = B.refs

theorem Sub.refl (B : Binder K) : Sub B B := ⟨rfl, id, [], by simp⟩
theorem Ext.refl (B : Binder K) : Ext B B := ⟨.refl B, rfl⟩

theorem Sub.trans {A B D : Binder K} (h : Sub A B) (h' : Sub B D) : Sub A D := by
  obtain ⟨l, hl⟩ := h.protos
  obtain ⟨m, hm⟩ := h'.protos
  exact ⟨h'.scope.trans h.scope, fun x => h'.recu (h.recu x), l ++ m, by rw [hm, hl, List.append_assoc]⟩

theorem Ext.trans {A B D : Binder K} (h : Ext A B) (h' : Ext B D) : Ext A D :=
  ⟨h.toSub.trans h'.toSub, h'.refs.trans h.refs⟩

theorem Sub.length {A B : Binder K} (h : Sub A B) : A.protos.length ≤ B.protos.length := by
  obtain ⟨l, hl⟩ := h.protos
  rw [hl]; simp

/-- A reference the compiler hands out: to a binding made, or to a global. -/
def refOk (B : Binder K) : Ref K → Prop
  | .l i => i < B.protos.length
  | .g _ => True
  | .v _ => False

theorem refOk.mono {A B : Binder K} {r} (h : Sub A B) (hr : refOk A r) : refOk B r := by
  cases r with
  | l i => exact Nat.lt_of_lt_of_le hr h.length
  | g i => trivial
  | v k => exact hr

def Good (B : Binder K) : Prop := ∀ r ∈ B.refs, refOk B r

theorem Good.ext {A B : Binder K} (h : Ext A B) (hg : Good A) : Good B := by
  intro r hr
  rw [h.refs] at hr
  exact (hg r hr).mono h.toSub

theorem bind_ok {α β} {m : C K α} {f : α → C K β} {B B' b} (h : C.bind m f B = (.ok b, B')) :
    ∃ a B1, m B = (.ok a, B1) ∧ f a B1 = (.ok b, B') := by
  unfold C.bind at h
  split at h
  · rename_i a B1 hm; exact ⟨a, B1, hm, h⟩
  · cases h

theorem pure_ok {α} {a b : α} {B B' : Binder K} (h : C.pure a B = (.ok b, B')) : b = a ∧ B' = B := by
  cases h; exact ⟨rfl, rfl⟩

theorem of_ok {α} {x : Except CErr α} {b : α} {B B' : Binder K} (h : C.of x B = (.ok b, B')) : x = .ok b ∧ B' = B := by
  cases x with
  | error x => cases h
  | ok a => cases h; exact ⟨rfl, rfl⟩

/-- What a computation may do. -/
structure Does {α} (m : C K α) (post : Binder K → α → Prop) : Prop where
  ok : ∀ {B B' a}, m B = (a, B') → Ext B B' ∧ ∀ x, a = .ok x → Good B → post B' x

theorem Does.pure {α} {a : α} {post : Binder K → α → Prop} (h : ∀ B, Good B → post B a) : Does (C.pure a) post :=
  ⟨fun {B B' r} e => by cases e; exact ⟨.refl _, fun x hx hg => by cases hx; exact h _ hg⟩⟩

theorem Does.fail {α} {x} {post : Binder K → α → Prop} : Does (C.fail x) post :=
  ⟨fun {B B' r} e => by cases e; exact ⟨.refl _, fun x hx => by cases hx⟩⟩

theorem Does.of {α} {x : Except CErr α} {post : Binder K → α → Prop} (h : ∀ a B, x = .ok a → post B a) : Does (C.of x) post := by
  cases x with
  | error x => exact .fail
  | ok a => exact .pure fun B _ => h a B rfl

theorem Does.bind {α β} {m : C K α} {f : α → C K β} {pre : Binder K → α → Prop} {post : Binder K → β → Prop}
    (hm : Does m pre) (hf : ∀ a, Does (f a) fun B b => (∃ B0, Ext B0 B ∧ pre B0 a) → post B b) : Does (C.bind m f) post := by
  refine ⟨fun {B B' r} h => ?_⟩
  unfold C.bind at h
  split at h
  · rename_i a B1 hb
    obtain ⟨e1, p1⟩ := hm.ok hb
    obtain ⟨e2, p2⟩ := (hf a).ok h
    refine ⟨e1.trans e2, fun x hx hg => p2 x hx (hg.ext e1) ⟨B1, e2, p1 a rfl hg⟩⟩
  · rename_i x B1 hb
    cases h
    exact ⟨(hm.ok hb).1, fun y hy => by cases hy⟩

theorem Does.mono {α} {m : C K α} {p q : Binder K → α → Prop} (h : Does m p) (hi : ∀ B a, p B a → q B a) : Does m q :=
  ⟨fun e => ⟨(h.ok e).1, fun x hx hg => hi _ _ ((h.ok e).2 x hx hg)⟩⟩

theorem Does.any {α} {m : C K α} {p : Binder K → α → Prop} (h : Does m p) : Does m fun _ _ => True := h.mono fun _ _ _ => trivial

theorem does_ensureRec : Does (K := K) ensureRec fun B _ => B.recursive = true := by
  refine ⟨fun {B B' a} h => ?_⟩
  cases h
  exact ⟨⟨⟨rfl, fun _ => rfl, [], by simp⟩, rfl⟩, fun _ _ _ => rfl⟩

theorem does_addDeferred (f : Ctx K → Except CErr (Form K)) : Does (addDeferred f) refOk := by
  refine ⟨fun {B B' a} h => ?_⟩
  cases h
  exact ⟨⟨⟨rfl, id, [f], rfl⟩, rfl⟩, fun x hx _ => by cases hx; simp [refOk]⟩

theorem does_add (cfg : Config K) (s : Syn K) : Does (add cfg s) refOk := does_addDeferred _

theorem does_markStrict (d : Demand) (r : Ref K) : Does (markStrict d r) fun _ _ => True := by
  refine ⟨fun {B B' a} h => ?_⟩
  unfold markStrict at h
  split at h
  · split at h <;> cases h <;> exact ⟨⟨⟨rfl, id, [], by simp⟩, rfl⟩, fun _ _ _ => trivial⟩
  · cases h; exact ⟨.refl _, fun _ _ _ => trivial⟩

theorem does_freeVar (cfg : Config K) (name : String) : Does (C.of (freeVar cfg name)) refOk := by
  refine .of fun a B h => ?_
  unfold freeVar at h
  split at h
  · cases h; trivial
  · cases h

theorem does_intrinsicRef (cfg : Config K) (name : String) : Does (C.of (intrinsicRef cfg name)) refOk := by
  refine .of fun a B h => ?_
  unfold intrinsicRef at h
  split at h
  · cases h; trivial
  · cases h

theorem does_lookupEnd (cfg : Config K) (smid : Nat) (key : K) (o d : Ref K) :
    Does (lookupEnd cfg smid key o d) fun _ _ => True :=
  .bind (does_add _ _) fun _ => .pure fun _ _ _ => trivial

theorem does_lookupSyn (cfg : Config K) (smid : Nat) (key : K) {obj : C K (Ref K)} {dft : Option (C K (Ref K))}
    (ho : Does obj refOk) (hd : ∀ d, dft = some d → Does d refOk) : Does (lookupSyn cfg smid key obj dft) fun _ _ => True := by
  refine .bind does_ensureRec fun _ => .mono (p := fun _ _ => True) (.bind ho fun o => ?_) (fun _ _ _ => fun _ => trivial)
  cases dft with
  | none => exact .bind (does_add _ _) fun d => (does_lookupEnd ..).mono fun _ _ _ _ _ => trivial
  | some d =>
    refine ⟨fun {B B' a} h => ?_⟩
    dsimp only at h
    split at h
    · rename_i r B1 hb
      have h1 := (hd d rfl).ok hb
      have h2 := (does_lookupEnd ..).ok h
      exact ⟨h1.1.trans h2.1, fun _ _ _ _ => trivial⟩
    · rename_i r B1 hb
      have h1 := (hd d rfl).ok hb
      have h2 := (Does.bind (post := fun _ _ => True) (does_add _ _) fun d => (does_lookupEnd ..).mono fun _ _ _ _ => trivial).ok h
      exact ⟨h1.1.trans h2.1, fun _ _ _ _ => trivial⟩
    · rename_i hb
      cases h
      exact ⟨((hd d rfl).ok hb).1, fun _ hx => by cases hx⟩

theorem does_direct (cfg : Config K) (x : Exp K) {m : C K (PRef K)} (h : Does m fun B p => ∀ r, p = .ref r → refOk B r) :
    Does (direct cfg x m) fun B p => ∀ r, p = .ref r → refOk B r := by
  unfold direct
  split
  · exact .pure fun _ _ r h => by cases h
  · exact .bind (does_freeVar _ _) fun r => .pure fun B _ ⟨_, e, hr⟩ r' h => by cases h; exact hr.mono e.toSub
  · exact .bind (does_intrinsicRef _ _) fun r => .pure fun B _ ⟨_, e, hr⟩ r' h => by cases h; exact hr.mono e.toSub
  · exact h

/-- What holds of a reference taken from a list of references to be. -/
def prefsOk (B : Binder K) (ps : List (PRef K)) : Prop := ∀ r, .ref r ∈ ps → refOk B r

mutual
theorem does_bodyE (cfg : Config K) (x : Exp K) (self : Option String) : Does (bodyE cfg x self) fun _ _ => True := by
  match x with
  | .let_ _ _ | .var _ _ _ | .app _ _ _ | .lit _ | .lam _ _ _ => unfold bodyE; exact .pure fun _ _ => trivial
  | .free name => unfold bodyE; exact .bind (does_freeVar _ _) fun _ => .pure fun _ _ _ => trivial
  | .intrinsic name => unfold bodyE; exact .bind (does_intrinsicRef _ _) fun _ => .pure fun _ _ _ => trivial
  | .list smid xs => unfold bodyE; exact .bind does_ensureRec fun _ => .bind (does_bindItems cfg xs smid).any fun _ => .pure fun _ _ _ _ => trivial
  | .block smid kvs => unfold bodyE; exact .bind does_ensureRec fun _ => .bind (does_bindKvs cfg kvs smid).any fun _ => .pure fun _ _ _ _ => trivial
  | .lookup smid obj key =>
    unfold bodyE
    exact .bind (does_lookupSyn _ _ _ (does_bindE cfg obj _ _ _) (fun _ h => by cases h)) fun _ => .pure fun _ _ _ => trivial
  | .lookupOr smid obj key dft =>
    unfold bodyE
    exact .bind (does_lookupSyn _ _ _ (does_bindE cfg obj _ _ _) (fun _ h => by cases h; exact does_bindE cfg dft _ _ _)) fun _ =>
      .pure fun _ _ _ => trivial
  | .metaOf smid body m =>
    unfold bodyE
    exact .bind (does_bindE cfg m _ _ _).any fun _ => .bind (does_bindE cfg body _ _ _).any fun _ => .pure fun _ _ _ _ => trivial
  | .operator _ body => unfold bodyE; exact does_bodyE cfg body self
  | .other => unfold bodyE; exact .fail
termination_by structural x

theorem does_bindE (cfg : Config K) (x : Exp K) (ann : Nat) (d : Demand) (self : Option String) :
    Does (bindE cfg x ann d self) refOk := by
  match x with
  | .var s i _ =>
    unfold bindE
    refine ⟨fun {B B' a} h => ?_⟩
    split at h
    · split at h
      · rename_i r hr
        cases h
        refine ⟨.refl _, fun x hx hg => ?_⟩
        cases hx
        unfold Binder.running at hr
        split at hr
        · exact hg r (List.mem_of_getElem? hr)
        · cases hr
      · exact (does_addDeferred _).ok h
    · exact (does_addDeferred _).ok h
  | .free name => unfold bindE; exact does_freeVar _ _
  | .intrinsic name => unfold bindE; exact does_intrinsicRef _ _
  | .let_ bs body => unfold bindE; exact does_addDeferred _
  | .lam _ n body => unfold bindE; exact does_addDeferred _
  | .app smid f args => unfold bindE; exact does_addDeferred _
  | .lit p => unfold bindE; exact does_add _ _
  | .list smid xs =>
    unfold bindE
    refine .bind does_ensureRec fun _ => .bind (pre := fun _ _ => True) (does_bindItems cfg xs smid).any fun last => ?_
    cases last with
    | some d => exact (does_add _ _).mono fun _ _ h _ _ => h
    | none => exact .pure fun _ _ _ _ => trivial
  | .block smid kvs =>
    unfold bindE
    exact .bind does_ensureRec fun _ => .bind (does_bindKvs cfg kvs smid).any fun _ => (does_add _ _).mono fun _ _ h _ _ => h
  | .lookup smid obj key =>
    unfold bindE
    exact .bind (does_lookupSyn _ _ _ (does_bindE cfg obj _ _ _) (fun _ h => by cases h)) fun _ =>
      (does_add _ _).mono fun _ _ h _ => h
  | .lookupOr smid obj key dft =>
    unfold bindE
    exact .bind (does_lookupSyn _ _ _ (does_bindE cfg obj _ _ _) (fun _ h => by cases h; exact does_bindE cfg dft _ _ _)) fun _ =>
      (does_add _ _).mono fun _ _ h _ => h
  | .metaOf smid body m =>
    unfold bindE
    exact .bind does_ensureRec fun _ => .bind (does_bindE cfg m _ _ _).any fun _ => .bind (does_bindE cfg body _ _ _).any fun _ =>
      (does_add _ _).mono fun _ _ h _ _ _ => h
  | .operator smid body => unfold bindE; exact does_bindE cfg body _ _ _
  | .other => unfold bindE; exact .fail
termination_by structural x

theorem does_bindArgs (cfg : Config K) (xs : Exps K) (smid : Nat) (sig : Option Sig) (i : Nat) (self : Option String) :
    Does (bindArgs cfg xs smid sig i self) prefsOk := by
  match xs with
  | .nil => unfold bindArgs; exact .pure fun _ _ r h => by cases h
  | .cons x xs =>
    unfold bindArgs
    refine .bind (does_direct cfg x (.bind (does_bindE cfg x _ _ _) fun r => .bind (does_markStrict _ _) fun _ =>
      .pure fun B _ _ ⟨_, e, hr⟩ r' h => by cases h; exact hr.mono e.toSub)) fun p =>
      .bind (does_bindArgs cfg xs smid sig (i + 1) self) fun ps => .pure fun B hg ⟨_, e1, h1⟩ ⟨_, e2, h2⟩ r hr => ?_
    simp only [List.mem_cons] at hr
    rcases hr with hr | hr
    · exact (h2 r hr.symm).mono e2.toSub
    · exact (h1 r hr).mono e1.toSub
termination_by structural xs

theorem does_bindItems (cfg : Config K) (xs : Exps K) (smid : Nat) : Does (bindItems cfg xs smid) fun _ _ => True := by
  match xs with
  | .nil => unfold bindItems; exact .pure fun _ _ => trivial
  | .cons x xs =>
    unfold bindItems
    refine .bind (does_bindItems cfg xs smid) fun last => ?_
    refine .bind (pre := fun _ _ => True) ?_ fun t => .bind (does_bindE cfg x _ _ _).any fun h => .pure fun _ _ _ _ _ => trivial
    cases last with
    | some d => exact (does_add _ _).any
    | none => exact .pure fun _ _ => trivial
termination_by structural xs

theorem does_bindKvs (cfg : Config K) (kvs : Kvs K) (smid : Nat) : Does (bindKvs cfg kvs smid) refOk := by
  match kvs with
  | .nil => unfold bindKvs; exact .pure fun _ _ => trivial
  | .cons k x rest =>
    unfold bindKvs
    exact .bind (does_bindKvs cfg rest smid).any fun t => .bind (does_bindE cfg x _ _ _).any fun v =>
      .bind (does_add _ _).any fun kv => (does_add _ _).mono fun _ _ h _ _ _ => h
termination_by structural kvs
end

theorem bindE_ext {cfg : Config K} {x ann d self B r B'} (h : bindE cfg x ann d self B = (r, B')) : Ext B B' :=
  ((does_bindE cfg x ann d self).ok h).1

theorem bodyE_ext {cfg : Config K} {x self B r B'} (h : bodyE cfg x self B = (r, B')) : Ext B B' :=
  ((does_bodyE cfg x self).ok h).1

theorem bindE_ref {cfg : Config K} {x ann d self B r B'} (h : bindE cfg x ann d self B = (.ok r, B')) (hg : Good B) : refOk B' r :=
  ((does_bindE cfg x ann d self).ok h).2 r rfl hg

theorem bindLets_sub {cfg : Config K} (bs : Binds K) {self B B' r} (h : bindLets cfg bs self B = (r, B')) (hg : Good B) :
    Sub B B' ∧ Good B' ∧ (r = .ok () → ∃ l, B'.refs = B.refs ++ l ∧ l.length = (bindings bs).length) := by
  match bs with
  | .nil =>
    unfold bindLets at h
    cases h
    exact ⟨.refl _, hg, fun _ => ⟨[], by simp, rfl⟩⟩
  | .cons name d x rest =>
    unfold bindLets at h
    unfold C.bind at h
    split at h
    · rename_i r1 B1 h1
      have e1 := bindE_ext h1
      have hr1 := bindE_ref h1 hg
      dsimp only at h
      split at h
      · rename_i u B2 h2
        have e2 := ((does_markStrict d r1).ok h2).1
        simp only [addVar] at h
        have e3 : Sub B2 { B2 with refs := B2.refs ++ [r1] } := ⟨rfl, id, [], by simp⟩
        have hg3 : Good { B2 with refs := B2.refs ++ [r1] } := by
          intro r hr
          have hg2 := (hg.ext e1).ext e2
          simp only [List.mem_append, List.mem_singleton] at hr
          rcases hr with hr | rfl
          · exact (hg2 r hr).mono e3
          · exact (hr1.mono e2.toSub).mono e3
        obtain ⟨a, b, c⟩ := bindLets_sub rest h hg3
        refine ⟨((e1.toSub.trans e2.toSub).trans e3).trans a, b, fun hok => ?_⟩
        obtain ⟨l, hl, hlen⟩ := c hok
        refine ⟨r1 :: l, ?_, by simp [bindings, hlen]⟩
        rw [hl]
        simp only [e2.refs, e1.refs, List.append_assoc, List.singleton_append]
      · rename_i x2 B2 h2
        cases h
        have e2 := ((does_markStrict d r1).ok h2).1
        exact ⟨e1.toSub.trans e2.toSub, (hg.ext e1).ext e2, fun hx => by cases hx⟩
    · rename_i x1 B1 h1
      cases h
      have e1 := bindE_ext h1
      exact ⟨e1.toSub, hg.ext e1, fun hx => by cases hx⟩
termination_by structural bs

end Verif.Comp
