import Verif.MachRun

/-!
# Where black holes come from

Proofs only: unless a step copies a black hole into a new array, every black hole is of a thunk under evaluation.
-/

namespace Verif.Mach
open Verif.Bc Verif.Env Verif.Sem
variable {K : Type}

def HP (σ : Store (MVal K)) (st : List (Cont K)) : Prop :=
  ∀ id p env, content σ id p = some (.clo false 0 .hole env) →
    ∃ uenv i a, Cont.update uenv i ∈ st ∧ cell uenv i = some (a, p) ∧ a.id = id

/-- No black hole in the arrays of `σ'` beyond the first `n`. -/
def NoFresh (n : Nat) (σ' : Store (MVal K)) : Prop :=
  ∀ id p env, n ≤ id → content σ' id p ≠ some (.clo false 0 .hole env)

def Ups (st st' : List (Cont K)) : Prop := ∀ e i, Cont.update e i ∈ st → Cont.update e i ∈ st'

def HStep (s : State K) : Step K → Prop
  | .next s' => HP s.store s.stack → NoFresh s.store.length s'.store → HP s'.store s'.stack
  | _ => True

section
variable {P : Prog K} {s : State K} {fuel : Nat}

theorem content_append {σ rows : Store (MVal K)} {id p} (h : id < σ.length) : content (σ ++ rows) id p = content σ id p := by
  simp [content, List.getElem?_append_left h]

theorem hp_append {σ rows : Store (MVal K)} {st st'} (h : HP σ st) (hu : Ups st st') (hn : NoFresh σ.length (σ ++ rows)) :
    HP (σ ++ rows) st' := by
  intro id p env hc
  by_cases hi : id < σ.length
  · rw [content_append hi] at hc
    obtain ⟨e, i, a, h1, h2, h3⟩ := h id p env hc
    exact ⟨e, i, a, hu e i h1, h2, h3⟩
  · exact absurd hc (hn id p env (by omega))

theorem hstep_append {rows : Store (MVal K)} {v st} (hu : Ups s.stack st) : HStep s (.next ⟨s.store ++ rows, v, st⟩) :=
  fun h hn => hp_append h hu hn

theorem hstep_same {v st} (hu : Ups s.stack st) : HStep s (.next ⟨s.store, v, st⟩) := by
  have := hstep_append (s := s) (rows := []) (v := v) hu
  simpa using this

theorem update_content {σ σ' : Store (MVal K)} {env i v} (h : update σ env i v = some σ') :
    ∃ a p, cell env i = some (a, p) ∧ ∀ id q, content σ' id q =
      if id = a.id ∧ q = p ∧ (content σ a.id p).isSome then some v else content σ id q := by
  unfold Env.update at h
  split at h
  · rename_i a p hc
    refine ⟨a, p, hc, fun id q => ?_⟩
    simp only [Arr.set] at h
    split at h
    · cases h
    · cases h; exact content_modify
  · cases h

theorem update_length {σ σ' : Store (MVal K)} {env i v} (h : update σ env i v = some σ') : σ'.length = σ.length := by
  unfold Env.update at h
  split at h
  · simp only [Arr.set] at h
    split at h
    · cases h
    · cases h; simp
  · cases h

/-- A hole written where an update is pushed. -/
theorem hp_enter {σ σ' : Store (MVal K)} {st st' env e i} (hp : HP σ st) (hu : Ups st st') (hm : Cont.update env i ∈ st')
    (h : update σ env i (.clo false 0 .hole e) = some σ') : HP σ' st' := by
  obtain ⟨a, p, hc, hcont⟩ := update_content h
  intro id q e' hh
  rw [hcont] at hh
  split at hh
  · rename_i hx
    exact ⟨env, i, a, hm, by rw [hx.2.1]; exact hc, hx.1.symm⟩
  · obtain ⟨e1, i1, a1, h1, h2, h3⟩ := hp id q e' hh
    exact ⟨e1, i1, a1, hu _ _ h1, h2, h3⟩

theorem noFresh_enter {n} {σ σ' : Store (MVal K)} {env e i} (h : update σ env i (.clo false 0 .hole e) = some σ')
    (hn : NoFresh n σ') : NoFresh n σ := by
  obtain ⟨a, p, hc, hcont⟩ := update_content h
  intro id q e' hle hh
  have := hcont id q
  split at this
  · exact hn id q _ hle this
  · rw [hh] at this; exact hn id q _ hle this

theorem hstep_enter {rows : Store (MVal K)} {v st env i x} (hu : Ups s.stack st) :
    HStep s (enterSlot ⟨s.store ++ rows, v, st⟩ env i x) := by
  unfold enterSlot
  dsimp only
  split
  · trivial
  · split
    · split
      · trivial
      · rename_i σ hup
        intro hp hn
        refine hp_enter (hp_append hp hu (noFresh_enter hup hn)) ?_ (by simp) hup
        intro e i hm; simp [hm]
    · exact hstep_append hu

theorem hstep_ref {rows : Store (MVal K)} {v st env} (r : Ref K) (hu : Ups s.stack st) :
    HStep s (enterRef P ⟨s.store ++ rows, v, st⟩ env r) := by
  cases r with
  | l i => exact hstep_enter hu
  | g i => exact hstep_enter hu
  | v k => exact hstep_append hu

theorem hstep_ref_same {env} (r : Ref K) : HStep s (enterRef P s env r) := by
  have := hstep_ref (P := P) (s := s) (rows := []) (v := s.cur) (st := s.stack) (env := env) r (fun _ _ h => h)
  simpa using this

theorem hstep_pop {env i st} (hs : s.stack = .update env i :: st) (hc : isHole s.cur = false) :
    HStep s (match update s.store env i s.cur with
      | some σ => .next { s with store := σ, stack := st }
      | none => .error (.badIndex i)) := by
  split
  · rename_i σ hup
    intro hp _
    obtain ⟨a, p, hcell, hcont⟩ := update_content hup
    intro id q e hh
    dsimp only at hh ⊢
    have hq := hcont id q
    rw [hh] at hq
    split at hq
    · simp only [Option.some.injEq] at hq
      rw [← hq] at hc
      cases hc
    · rename_i hne
      obtain ⟨e1, i1, a1, h1, h2, h3⟩ := hp id q e hq.symm
      rw [hs] at h1
      simp only [List.mem_cons, Cont.update.injEq] at h1
      rcases h1 with ⟨rfl, rfl⟩ | h1
      · exfalso
        rw [hcell] at h2
        cases h2
        exact hne ⟨h3.symm, rfl, by rw [h3, ← hq]; rfl⟩
      · exact ⟨e1, i1, a1, h1, h2, h3⟩
  · trivial

theorem ups_pop {k : Cont K} {st st'} (hs : s.stack = k :: st) (hk : ∀ e i, k ≠ .update e i) (h : Ups st st') :
    Ups s.stack st' := by
  intro e i hm
  rw [hs] at hm
  simp only [List.mem_cons] at hm
  rcases hm with h' | h'
  · exact absurd h'.symm (hk e i)
  · exact h e i h'

theorem ups_refl (st : List (Cont K)) : Ups st st := fun _ _ h => h
theorem ups_push (k : Cont K) (st) : Ups st (k :: st) := fun _ _ h => by simp [h]

theorem hstep_bind {v code env st} (hu : Ups s.stack st) : HStep s (bindOne { s with stack := st } v code env) :=
  hstep_append (rows := [[v]]) hu

theorem hstep_prim {id vs st} (hu : Ups s.stack st) : HStep s (runPrim P { s with stack := st } fuel id vs) := by
  unfold runPrim
  split
  · trivial
  · split
    · exact hstep_same hu
    · trivial

theorem dataEnv_append {σ σ' : Store (MVal K)} {cons args next env} (h : dataEnv P σ cons args next = .ok (σ', env)) :
    ∃ rows, σ' = σ ++ rows := by
  unfold dataEnv at h
  split at h
  · cases h
  · split at h
    · cases h; exact ⟨[], by simp⟩
    · cases h; exact ⟨[], by simp⟩
    · split at h
      · cases h
      · cases h; exact ⟨[_], rfl⟩

theorem hstep_native {k} (hcur : s.cur = .native k) : HStep s (returnNative P fuel s k) := by
  unfold returnNative
  split <;> rename_i hs
  · trivial
  · split
    · exact hstep_bind (ups_pop hs (fun _ _ h => nomatch h) (ups_refl _))
    · trivial
  · have := hstep_pop hs (by rw [hcur]; rfl)
    rw [hcur] at this
    rw [hcur]
    exact this
  · trivial
  · exact hstep_bind (ups_pop hs (fun _ _ h => nomatch h) (ups_refl _))
  · exact hstep_same (ups_pop hs (fun _ _ h => nomatch h) (ups_refl _))
  · exact hstep_same (ups_pop hs (fun _ _ h => nomatch h) (ups_push _ _))
  · exact hstep_prim (ups_pop hs (fun _ _ h => nomatch h) (ups_refl _))

theorem hstep_fun {u a code fenv} (hcur : s.cur = .clo u (a + 1) code fenv) :
    HStep s (returnFun P fuel s (a + 1) code fenv) := by
  unfold returnFun
  split <;> rename_i hs
  · trivial
  · rename_i st
    split
    · exact hstep_same (ups_pop hs (fun _ _ h => nomatch h) (ups_refl _))
    · split
      · unfold partially
        dsimp only
        split
        · trivial
        · exact hstep_append (rows := [_]) (ups_pop hs (fun _ _ h => nomatch h) (ups_refl _))
      · simp only [saturate, allocArray, List.append_assoc]
        exact hstep_append (ups_pop hs (fun _ _ h => nomatch h) (ups_push _ _))
  · split
    · exact hstep_bind (ups_pop hs (fun _ _ h => nomatch h) (ups_refl _))
    · trivial
  · exact hstep_pop hs (by rw [hcur]; cases u <;> rfl)
  · exact hstep_bind (ups_pop hs (fun _ _ h => nomatch h) (ups_refl _))
  · exact hstep_same (ups_pop hs (fun _ _ h => nomatch h) (ups_refl _))
  · exact hstep_same (ups_pop hs (fun _ _ h => nomatch h) (ups_push _ _))
  · exact hstep_prim (ups_pop hs (fun _ _ h => nomatch h) (ups_refl _))

theorem hstep_data {u t as cenv} (hcur : s.cur = .clo u 0 (.cons t as) cenv) :
    HStep s (returnData P fuel s t as cenv) := by
  unfold returnData
  split <;> rename_i hs
  · trivial
  · split
    · split
      · rename_i σ env' he
        have : ∃ rows, σ = s.store ++ rows := by
          split at he
          · cases he; exact ⟨[], by simp⟩
          · exact dataEnv_append he
        obtain ⟨rows, rfl⟩ := this
        exact hstep_append (ups_pop hs (fun _ _ h => nomatch h) (ups_refl _))
      · trivial
    · split
      · exact hstep_bind (ups_pop hs (fun _ _ h => nomatch h) (ups_refl _))
      · trivial
  · exact hstep_pop hs (by rw [hcur]; cases u <;> rfl)
  · split
    · simp only [allocArray, enterCallable]
      exact hstep_ref _ (ups_pop hs (fun _ _ h => nomatch h) (ups_push _ _))
    · trivial
  · exact hstep_bind (ups_pop hs (fun _ _ h => nomatch h) (ups_refl _))
  · exact hstep_same (ups_pop hs (fun _ _ h => nomatch h) (ups_refl _))
  · split
    · trivial
    · exact hstep_same (by rw [hs]; exact ups_refl _)
    · exact hstep_same (ups_pop hs (fun _ _ h => nomatch h) (ups_push _ _))
  · split
    · trivial
    · exact hstep_same (by rw [hs]; exact ups_refl _)
    · exact hstep_prim (ups_pop hs (fun _ _ h => nomatch h) (ups_refl _))

theorem hstep_meta {u m b env} (hcur : s.cur = .clo u 0 (.metaOf m b) env) : HStep s (returnMeta P s m b env) := by
  unfold returnMeta
  split <;> rename_i hs
  · split
    · trivial
    · exact hstep_ref_same b
  · split
    · trivial
    · exact hstep_append (rows := [_]) (ups_pop hs (fun _ _ h => nomatch h) (ups_refl _))
  · exact hstep_pop hs (by rw [hcur]; cases u <;> rfl)
  · exact hstep_ref_same b

theorem hstep_direct {env f vs} : HStep s (directApp P s env f vs) := by
  have go : ∀ cenv i x a, HStep s (match get (s.store ++ [vs]) cenv i with
          | none => .error x
          | some (.native _) => .error .notCallable
          | some (.clo upd ar c fenv) =>
            if upd then
              match update (s.store ++ [vs]) cenv i (.new .hole cenv) with
              | none => .error x
              | some σ => .next ⟨σ, .clo upd ar c fenv, .update cenv i :: .applyTo a :: s.stack⟩
            else if ar = a.len then .next ⟨s.store ++ [vs], .new c (Frame.new a 0 :: fenv), s.stack⟩
            else .next ⟨s.store ++ [vs], .clo upd ar c fenv, .applyTo a :: s.stack⟩) := by
    intro cenv i x a
    split
    · trivial
    · trivial
    · split
      · split
        · trivial
        · rename_i σ hup
          intro hp hn
          refine hp_enter (hp_append hp (ups_refl _) (noFresh_enter hup hn)) ?_ (by simp) hup
          intro e i hm; simp [hm]
      · split
        · exact hstep_append (ups_refl _)
        · exact hstep_append (ups_push _ _)
  unfold directApp
  simp only [allocArray]
  cases f with
  | l i => exact go env i _ _
  | g i => exact go (globalsEnv P) i _ _
  | v k => trivial

theorem hstep_op {u code env} (hcur : s.cur = .clo u 0 code env) : HStep s (handleOp P fuel s code env) := by
  unfold handleOp
  cases code with
  | atom r => exact hstep_ref_same r
  | cons t as => exact hstep_data hcur
  | «bif» id args =>
    dsimp only
    split
    · trivial
    · exact hstep_prim (ups_refl _)
  | case => exact hstep_same (ups_push _ _)
  | seq => exact hstep_same (ups_push _ _)
  | fused => exact hstep_same (ups_push _ _)
  | demeta => exact hstep_same (ups_push _ _)
  | ann => exact hstep_same (ups_refl _)
  | hole => trivial
  | lookup => trivial
  | metaOf m b => exact hstep_meta hcur
  | app f args eager =>
    dsimp only
    split
    · trivial
    · simp only [allocArray]
      cases f with
      | v k => trivial
      | l i => exact hstep_ref (P := P) (.l i) (ups_push _ _)
      | g i => exact hstep_ref (P := P) (env := env) (.g i) (ups_push _ _)
  | dapp smid f args eager =>
    dsimp only
    split
    · trivial
    · exact hstep_direct
  | let_ fs body => exact hstep_append (rows := [_]) (ups_refl _)
  | letrec fs body => exact hstep_append (rows := [_]) (ups_refl _)

theorem hstep (P : Prog K) (fuel : Nat) (s : State K) : HStep s (step P fuel s) := by
  unfold step
  rcases hcur : s.cur with k | ⟨u, _ | a, code, env⟩
  · exact hstep_native hcur
  · exact hstep_op hcur
  · exact hstep_fun hcur

end
end Verif.Mach
