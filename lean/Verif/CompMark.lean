import Verif.CompRel

/-!
# What is marked for forcing

Proofs only.
-/

namespace Verif.Comp
open Verif.Bc
variable {K : Type}

/-! ## Who marks -/

structure Keeps {α} (m : C K α) : Prop where
  eq : ∀ {B B' a}, m B = (a, B') → B'.strict = B.strict

theorem Keeps.pure {α} {a : α} : Keeps (K := K) (C.pure a) := ⟨fun h => by cases h; rfl⟩
theorem Keeps.fail {α} {x} : Keeps (K := K) (α := α) (C.fail x) := ⟨fun h => by cases h; rfl⟩
theorem Keeps.of {α} {x : Except CErr α} : Keeps (K := K) (C.of x) := by
  cases x with
  | error x => exact .fail
  | ok a => exact .pure

theorem Keeps.bind {α β} {m : C K α} {f : α → C K β} (hm : Keeps m) (hf : ∀ a, Keeps (f a)) : Keeps (C.bind m f) := by
  refine ⟨fun {B B' r} h => ?_⟩
  unfold C.bind at h
  split at h
  · rename_i a B1 hb; exact ((hf a).eq h).trans (hm.eq hb)
  · rename_i x B1 hb; cases h; exact hm.eq hb

theorem keeps_ensureRec : Keeps (K := K) ensureRec := ⟨fun h => by cases h; rfl⟩
theorem keeps_addDeferred (f : Ctx K → Except CErr (Form K)) : Keeps (addDeferred f) := ⟨fun h => by cases h; rfl⟩
theorem keeps_add (cfg : Config K) (s : Syn K) : Keeps (add cfg s) := keeps_addDeferred _

theorem keeps_lookupEnd (cfg : Config K) (smid : Nat) (key : K) (o d : Ref K) : Keeps (lookupEnd cfg smid key o d) :=
  .bind (keeps_add _ _) fun _ => .pure

theorem keeps_lookupSyn (cfg : Config K) (smid : Nat) (key : K) {obj : C K (Ref K)} {dft : Option (C K (Ref K))}
    (ho : Keeps obj) (hd : ∀ d, dft = some d → Keeps d) : Keeps (lookupSyn cfg smid key obj dft) := by
  refine .bind keeps_ensureRec fun _ => .bind ho fun o => ?_
  cases dft with
  | none => exact .bind (keeps_add _ _) fun d => keeps_lookupEnd ..
  | some d =>
    refine ⟨fun {B B' a} h => ?_⟩
    dsimp only at h
    split at h
    · rename_i r B1 hb
      exact ((keeps_lookupEnd _ _ _ _ _).eq h).trans ((hd d rfl).eq hb)
    · rename_i r B1 hb
      exact ((Keeps.bind (keeps_add _ _) (fun d => keeps_lookupEnd _ _ _ _ _)).eq h).trans ((hd d rfl).eq hb)
    · rename_i hb
      cases h
      exact (hd d rfl).eq hb

mutual
theorem keeps_bodyE (cfg : Config K) (x : Exp K) (self : Option String) : Keeps (bodyE cfg x self) := by
  match x with
  | .let_ _ _ | .var _ _ _ | .app _ _ _ | .lit _ | .lam _ _ _ => unfold bodyE; exact .pure
  | .free name | .intrinsic name => unfold bodyE; exact .bind .of fun _ => .pure
  | .list smid xs => unfold bodyE; exact .bind keeps_ensureRec fun _ => .bind (keeps_bindItems cfg xs smid) fun _ => .pure
  | .block smid kvs => unfold bodyE; exact .bind keeps_ensureRec fun _ => .bind (keeps_bindKvs cfg kvs smid) fun _ => .pure
  | .lookup smid obj key =>
    unfold bodyE
    exact .bind (keeps_lookupSyn _ _ _ (keeps_bindE cfg obj _ _ _) (fun _ h => by cases h)) fun _ => .pure
  | .lookupOr smid obj key dft =>
    unfold bodyE
    exact .bind (keeps_lookupSyn _ _ _ (keeps_bindE cfg obj _ _ _) (fun _ h => by cases h; exact keeps_bindE cfg dft _ _ _)) fun _ => .pure
  | .metaOf smid body m =>
    unfold bodyE
    exact .bind (keeps_bindE cfg m _ _ _) fun _ => .bind (keeps_bindE cfg body _ _ _) fun _ => .pure
  | .operator _ body => unfold bodyE; exact keeps_bodyE cfg body self
  | .other => unfold bodyE; exact .fail
termination_by structural x

theorem keeps_bindE (cfg : Config K) (x : Exp K) (ann : Nat) (d : Demand) (self : Option String) : Keeps (bindE cfg x ann d self) := by
  match x with
  | .var s i _ =>
    unfold bindE
    refine ⟨fun {B B' a} h => ?_⟩
    split at h
    · split at h
      · cases h; rfl
      · exact (keeps_addDeferred _).eq h
    · exact (keeps_addDeferred _).eq h
  | .free name | .intrinsic name => unfold bindE; exact .of
  | .let_ bs body => unfold bindE; exact keeps_addDeferred _
  | .lam _ n body => unfold bindE; exact keeps_addDeferred _
  | .app smid f args => unfold bindE; exact keeps_addDeferred _
  | .lit p => unfold bindE; exact keeps_add _ _
  | .list smid xs =>
    unfold bindE
    refine .bind keeps_ensureRec fun _ => .bind (keeps_bindItems cfg xs smid) fun last => ?_
    cases last with
    | some d => exact keeps_add _ _
    | none => exact .pure
  | .block smid kvs =>
    unfold bindE
    exact .bind keeps_ensureRec fun _ => .bind (keeps_bindKvs cfg kvs smid) fun _ => keeps_add _ _
  | .lookup smid obj key =>
    unfold bindE
    exact .bind (keeps_lookupSyn _ _ _ (keeps_bindE cfg obj _ _ _) (fun _ h => by cases h)) fun _ => keeps_add _ _
  | .lookupOr smid obj key dft =>
    unfold bindE
    exact .bind (keeps_lookupSyn _ _ _ (keeps_bindE cfg obj _ _ _) (fun _ h => by cases h; exact keeps_bindE cfg dft _ _ _)) fun _ =>
      keeps_add _ _
  | .metaOf smid body m =>
    unfold bindE
    exact .bind keeps_ensureRec fun _ => .bind (keeps_bindE cfg m _ _ _) fun _ => .bind (keeps_bindE cfg body _ _ _) fun _ => keeps_add _ _
  | .operator smid body => unfold bindE; exact keeps_bindE cfg body _ _ _
  | .other => unfold bindE; exact .fail
termination_by structural x

theorem keeps_bindItems (cfg : Config K) (xs : Exps K) (smid : Nat) : Keeps (bindItems cfg xs smid) := by
  match xs with
  | .nil => unfold bindItems; exact .pure
  | .cons x xs =>
    unfold bindItems
    refine .bind (keeps_bindItems cfg xs smid) fun last => ?_
    refine .bind ?_ fun t => .bind (keeps_bindE cfg x _ _ _) fun h => .pure
    cases last with
    | some d => exact keeps_add _ _
    | none => exact .pure
termination_by structural xs

theorem keeps_bindKvs (cfg : Config K) (kvs : Kvs K) (smid : Nat) : Keeps (bindKvs cfg kvs smid) := by
  match kvs with
  | .nil => unfold bindKvs; exact .pure
  | .cons k x rest =>
    unfold bindKvs
    exact .bind (keeps_bindKvs cfg rest smid) fun t => .bind (keeps_bindE cfg x _ _ _) fun v =>
      .bind (keeps_add _ _) fun kv => keeps_add _ _
termination_by structural kvs
end

theorem mark_strict {d : Demand} {r : Ref K} {B B' a} (h : markStrict d r B = (a, B')) {n} (hn : n ∈ B'.strict) :
    n ∈ B.strict ∨ (d.forced = true ∧ r = .l n) := by
  unfold markStrict at h
  split at h
  · split at h <;> cases h
    · rename_i hc
      simp only [List.mem_append, List.mem_singleton] at hn
      rcases hn with hn | rfl
      · exact .inl hn
      · simp only [Bool.and_eq_true] at hc; exact .inr ⟨hc.1, rfl⟩
    · exact .inl hn
  · cases h; exact .inl hn

/-! ## What is not a thunk -/

/-- The binding at this place is never a thunk. -/
def Ready (B : Binder K) (i : Nat) : Prop := ∃ p, B.protos[i]? = some p ∧ ∀ ctx f, p ctx = .ok f → f.head ≠ .thunk

theorem Ready.sub {A B : Binder K} {i} (h : Sub A B) (hr : Ready A i) : Ready B i := by
  obtain ⟨p, hp, hf⟩ := hr
  obtain ⟨l, hl⟩ := h.protos
  exact ⟨p, by rw [hl, List.getElem?_append_left (List.getElem?_eq_some_iff.mp hp).1]; exact hp, hf⟩

theorem deferred_ready {f : Ctx K → Except CErr (Form K)} {B B' r} (h : addDeferred f B = (.ok r, B'))
    (hf : ∀ ctx g, f ctx = .ok g → g.head ≠ .thunk) {i} (hi : r = .l i) : Ready B' i := by
  cases h
  cases hi
  exact ⟨f, by simp, hf⟩

theorem add_ready {cfg : Config K} {s : Syn K} (hs : synWhnf s = true) {B B' r} (h : add cfg s B = (.ok r, B')) {i}
    (hi : r = .l i) : Ready B' i := by
  refine deferred_ready h (fun ctx g hg => ?_) hi
  cases hg
  simp [formOf, hs]

theorem lamForm_head {cfg : Config K} {ann n body ctx f} (h : lamForm cfg ann n body ctx = .ok f) : f.head ≠ .thunk := by
  unfold lamForm at h
  dsimp only at h
  split at h
  · cases h
  · split at h
    · cases h
    · split at h
      · cases h; simp
      · cases h

theorem skip_head {cfg : Config K} {d : Demand} {s : Ctx K → Except CErr (Syn K)} (hd : d.skipUpdate = true) {ctx g}
    (h : (Proto.ofSyn cfg d s).form ctx = .ok g) : g.head ≠ .thunk := by
  simp only [Proto.ofSyn] at h
  cases hs : s ctx with
  | error x => rw [hs] at h; cases h
  | ok c => rw [hs] at h; cases h; simp [formOf, hd]

theorem items_pair {cfg : Config K} {xs : Exps K} {smid B B' d} (h : bindItems cfg xs smid B = (.ok (some d), B')) :
    synWhnf d = true := by
  cases xs with
  | nil => cases h
  | cons x xs =>
    unfold bindItems at h
    obtain ⟨_, _, _, h⟩ := bind_ok h
    obtain ⟨_, _, _, h⟩ := bind_ok h
    obtain ⟨_, _, _, h⟩ := bind_ok h
    cases h
    rfl

theorem free_global {cfg : Config K} {name r} (h : freeVar cfg name = .ok r) : ∃ i, r = .g i := by
  unfold freeVar at h
  split at h
  · cases h; exact ⟨_, rfl⟩
  · cases h

theorem intrinsic_global {cfg : Config K} {name r} (h : intrinsicRef cfg name = .ok r) : ∃ i, r = .g i := by
  unfold intrinsicRef at h
  split at h
  · cases h; exact ⟨_, rfl⟩
  · cases h

theorem bindE_ready {cfg : Config K} (x : Exp K) {ann d self B r B'} (h : bindE cfg x ann d self B = (.ok r, B'))
    (hd : x.delayed d = false) {i} (hi : r = .l i) : Ready B' i := by
  match x with
  | .var _ _ _ | .lookup _ _ _ | .lookupOr _ _ _ _ => cases hd
  | .let_ bs body | .app _ _ _ =>
    simp only [Exp.delayed, Bool.not_eq_false'] at hd
    unfold bindE at h
    exact deferred_ready h (fun ctx g hg => skip_head hd hg) hi
  | .free name =>
    unfold bindE at h
    obtain ⟨j, rfl⟩ := free_global (of_ok h).1
    cases hi
  | .intrinsic name =>
    unfold bindE at h
    obtain ⟨j, rfl⟩ := intrinsic_global (of_ok h).1
    cases hi
  | .lam _ n body =>
    unfold bindE at h
    exact deferred_ready h (fun ctx g hg => lamForm_head hg) hi
  | .lit p =>
    unfold bindE at h
    exact add_ready (by cases p <;> first | rfl | (rename_i b; cases b <;> rfl)) h hi
  | .list smid xs =>
    unfold bindE at h
    obtain ⟨_, _, _, h⟩ := bind_ok h
    obtain ⟨last, _, h1, h⟩ := bind_ok h
    cases last with
    | none => cases h; cases hi
    | some d => exact add_ready (items_pair h1) h hi
  | .block smid kvs =>
    unfold bindE at h
    obtain ⟨_, _, _, h⟩ := bind_ok h
    obtain ⟨_, _, _, h⟩ := bind_ok h
    exact add_ready rfl h hi
  | .metaOf smid body m =>
    unfold bindE at h
    obtain ⟨_, _, _, h⟩ := bind_ok h
    obtain ⟨_, _, _, h⟩ := bind_ok h
    obtain ⟨_, _, _, h⟩ := bind_ok h
    exact add_ready rfl h hi
  | .operator smid body =>
    unfold bindE at h
    exact bindE_ready body h hd hi
  | .other => unfold bindE at h; cases h
termination_by structural x

/-! ## Where marks come from -/

theorem lets_strict {cfg : Config K} (bs : Binds K) {self B B'} (h : bindLets cfg bs self B = (.ok (), B')) (hg : Good B) {n}
    (hn : n ∈ B'.strict) : n ∈ B.strict ∨ Ready B' n ∨ ∃ (j : Nat) (d : Demand) (x : Exp K), (demands bs)[j]? = some (d, x) ∧ d.forced = true ∧
      x.delayed d = true ∧ B'.refs[B.refs.length + j]? = some (.l n) := by
  match bs with
  | .nil => unfold bindLets at h; cases h; exact .inl hn
  | .cons name d x rest =>
    unfold bindLets at h
    obtain ⟨r, B2, h1, h⟩ := bind_ok h
    obtain ⟨_, B3, h2, h⟩ := bind_ok h
    obtain ⟨_, B4, h3, h⟩ := bind_ok h
    have x1 := bindE_ext h1
    have x2 := ((does_markStrict _ _).ok h2).1
    have hgr := bindE_ref h1 hg
    cases h3
    have s3 : Sub B3 { B3 with refs := B3.refs ++ [r] } := ⟨rfl, id, [], by simp⟩
    have hg4 : Good { B3 with refs := B3.refs ++ [r] } := by
      intro q hq
      simp only [List.mem_append, List.mem_singleton] at hq
      rcases hq with hq | rfl
      · exact (((hg.ext x1).ext x2) q hq).mono s3
      · exact (hgr.mono x2.toSub).mono s3
    have hlen : B3.refs.length = B.refs.length := by rw [x2.refs, x1.refs]
    obtain ⟨s4, _, hr4⟩ := bindLets_sub rest h hg4
    rcases lets_strict rest h hg4 hn with hn | hn | ⟨j, d', x', a, b, c, e⟩
    · rcases mark_strict h2 hn with hn | ⟨hd, rfl⟩
      · rw [(keeps_bindE _ _ _ _ _).eq h1] at hn; exact .inl hn
      · cases hx : x.delayed d with
        | false => exact .inr (.inl ((bindE_ready x h1 hx rfl).sub ((x2.toSub.trans s3).trans s4)))
        | true =>
          refine .inr (.inr ⟨0, d, x, rfl, hd, hx, ?_⟩)
          obtain ⟨l, hl, _⟩ := hr4 rfl
          rw [hl, Nat.add_zero, ← hlen]
          simp
    · exact .inr (.inl hn)
    · refine .inr (.inr ⟨j + 1, d', x', by simpa [demands] using a, b, c, ?_⟩)
      simp only [List.length_append, List.length_singleton, hlen] at e
      rw [← e]
      congr 1
      omega
termination_by structural bs

theorem direct_keeps {cfg : Config K} {x : Exp K} {m : C K (PRef K)} (hm : Keeps m) : Keeps (direct cfg x m) := by
  unfold direct
  split
  · exact .pure
  · exact .bind .of fun _ => .pure
  · exact .bind .of fun _ => .pure
  · exact hm

theorem args_strict {cfg : Config K} (xs : Exps K) {smid sig i self B B' ps}
    (h : bindArgs cfg xs smid sig i self B = (.ok ps, B')) {n} (hn : n ∈ B'.strict) :
    n ∈ B.strict ∨ Ready B' n ∨ ∃ (j : Nat) (x : Exp K), (exps xs)[j]? = some x ∧ (argDemand sig (i + j)).forced = true ∧ isVar x = false ∧
      x.delayed (argDemand sig (i + j)) = true ∧ ps[j]? = some (.ref (.l n)) := by
  match xs with
  | .nil => unfold bindArgs at h; cases h; exact .inl hn
  | .cons x xs =>
    unfold bindArgs at h
    obtain ⟨p, B2, h1, h⟩ := bind_ok h
    obtain ⟨ps', B3, h2, h⟩ := bind_ok h
    cases h
    have x2 := ((does_bindArgs ..).ok h2).1
    rcases args_strict xs h2 hn with hn | hn | ⟨j, x', a, b, c, d, e⟩
    · have bound : (bindE cfg x smid (argDemand sig i) self).bind (fun r => (markStrict (argDemand sig i) r).bind fun _ =>
          C.pure (PRef.ref r)) B = (.ok p, B2) → isVar x = false → n ∈ B.strict ∨ Ready B' n ∨ ∃ (j : Nat) (x' : Exp K), (exps (.cons x xs))[j]? = some x' ∧
          (argDemand sig (i + j)).forced = true ∧ isVar x' = false ∧ x'.delayed (argDemand sig (i + j)) = true ∧
          (p :: ps')[j]? = some (.ref (.l n)) := by
        intro hm hv
        obtain ⟨r, B5, hm1, hm⟩ := bind_ok hm
        obtain ⟨_, B6, hm2, hm⟩ := bind_ok hm
        cases hm
        have x6 := ((does_markStrict _ _).ok hm2).1
        rcases mark_strict hm2 hn with hn | ⟨hd, rfl⟩
        · rw [(keeps_bindE _ _ _ _ _).eq hm1] at hn; exact .inl hn
        · cases hx : x.delayed (argDemand sig i) with
          | false => exact .inr (.inl ((bindE_ready x hm1 hx rfl).sub (x6.toSub.trans x2.toSub)))
          | true => exact .inr (.inr ⟨0, x, rfl, hd, hv, hx, rfl⟩)
      unfold direct at h1
      split at h1
      · cases h1; exact .inl hn
      · rw [(Keeps.bind .of (fun _ => .pure)).eq h1] at hn; exact .inl hn
      · rw [(Keeps.bind .of (fun _ => .pure)).eq h1] at hn; exact .inl hn
      · rename_i hv _ _
        refine bound h1 ?_
        cases x <;> first | rfl | exact absurd rfl (hv _ _ _)
    · exact .inr (.inl hn)
    · have : i + 1 + j = i + (j + 1) := by omega
      rw [this] at b d
      exact .inr (.inr ⟨j + 1, x', by simpa [exps] using a, b, c, d, by simpa using e⟩)
termination_by structural xs

end Verif.Comp
