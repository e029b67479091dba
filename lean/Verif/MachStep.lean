import Verif.MachSim

/-!
# Each rule of the machine against the reference

Proofs only.
-/

namespace Verif.Mach
open Verif.Bc Verif.Env Verif.Sem
variable {K : Type}

section
variable {P : Prog K} {V : Val K} {A : Ghost K} {s : State K} {c : Val K} {fuel : Nat}

theorem cells_cover {σ} {a : Arr} (h : StoreOk P A σ) (ha : WfArr (lens A) a) :
    CoverAll P.toWorld A (row A a) (cells σ a) ∧ (cells σ a).length = a.len := by
  have hr := row_wf ha
  have hl : (cells σ a).length = a.len := by
    have h1 : WfArr (lens σ) a := by rw [h.lens]; exact ha
    unfold WfArr lens at h1
    rw [List.getElem?_map, Option.map_eq_some_iff] at h1
    obtain ⟨r, hr, hl⟩ := h1
    simp [cells, hr, hl]
  refine ⟨?_, hl⟩
  have hall : ∀ (p : Nat) v, (cells σ a)[p]? = some v → Covers P.toWorld A (((row A a)[p]?).getD nothing) v := by
    intro p v hv
    refine h.cells a p v ?_
    unfold cells at hv
    unfold content
    cases hσ : σ[a.id]? with
    | none => rw [hσ] at hv; simp at hv
    | some r => rw [hσ] at hv; simpa using hv
  have hlen : (row A a).length = (cells σ a).length := by rw [hr.2, hl]
  generalize row A a = ts at *
  generalize cells σ a = vs at *
  clear hr hl
  induction vs generalizing ts with
  | nil => cases ts with
    | nil => exact .nil
    | cons => simp at hlen
  | cons v vs ih => cases ts with
    | nil => simp at hlen
    | cons t ts =>
      refine .cons (by simpa using hall 0 v rfl) (ih ts (fun p w hw => by simpa using hall (p + 1) w (by simpa using hw)) (by simpa using hlen))

theorem nativeArgs_two {σ} {l v : MVal K} {ks} (hn : nativeArgs P σ fuel [l, v] = some ks) :
    ∃ j k, ks = [j, k] ∧ nativeOf P σ fuel l = some j ∧ nativeOf P σ fuel v = some k := by
  simp only [nativeArgs] at hn
  cases hj : nativeOf P σ fuel l with
  | none => rw [hj] at hn; cases hn
  | some j =>
    cases hk : nativeOf P σ fuel v with
    | none => rw [hj, hk] at hn; simp at hn
    | some k =>
      rw [hj, hk] at hn
      simp at hn
      exact ⟨j, k, hn.symm, rfl, rfl⟩

theorem peeled_cons (t : Nat) (as : List (Ref K)) : peeled P (.cons t as) = .cons t as := by simp [peeled]
theorem peeled_meta (m b : Ref K) : peeled P (.metaOf m b) = .metaOf m b := by simp [peeled]

/-- A value from which a native is read, not through a function, is one. -/
theorem native_whnf {σ} {v : MVal K} {k} (hw : Whnf (g A v) = true) (hn : nativeOf P σ fuel v = some k)
    (hf : throughFun P σ fuel v = false) : v = .native k := by
  cases v with
  | native k' =>
    cases fuel <;> simp [nativeOf] at hn <;> rw [hn]
  | clo u a code e =>
    exfalso
    cases fuel with
    | zero => simp [nativeOf] at hn
    | succ n =>
      simp only [nativeOf] at hn
      simp only [throughFun] at hf
      split at hn
      · rename_i r hp
        rw [hp] at hf
        simp only [Bool.or_eq_false_iff, decide_eq_false_iff_not, Nat.not_lt, Nat.le_zero] at hf
        obtain ⟨ha, _⟩ := hf
        subst ha
        rcases whnf_cases hw with ⟨k, h⟩ | ⟨a, c, e, h⟩ | ⟨t, as, e, h⟩ | ⟨m, b, e, h⟩
        · cases h
        · cases h
        · simp only [g] at h; cases h; rw [peeled_cons] at hp; cases hp
        · simp only [g] at h; cases h; rw [peeled_meta] at hp; cases hp
      · cases hn

/-- The second operand comes back and is no box. -/
theorem fusedRight_ok (hI : Inv P V A s c) {id l env rest} (hc : c = g A s.cur) (hs : s.stack = .fusedRight id l env :: rest)
    (hw : Plain c) (hu : unbox P.toWorld c = .ok none) (hf : ∀ v ∈ [l, s.cur], throughFun P s.store fuel v = false) :
    StepOk P V A s c (runPrim P { s with stack := rest } fuel id [l, s.cur]) := by
  have hl : WfCont A (.fusedRight id l env) := hI.stack _ (by rw [hs]; simp)
  refine runPrim_ok (used := [.fusedRight id l env]) hI hs fun ks hks T => ?_
  obtain ⟨j, k, rfl, hj, hk⟩ := nativeArgs_two hks
  have e1 := native_whnf hl.2 hj (hf l (by simp))
  have e2 := native_whnf (hc ▸ hw.1) hk (hf s.cur (by simp))
  refine ⟨_, _, .refl _, ?_⟩
  show sstep P.toWorld (c, .fusedR id (g A l) :: T) = _
  rw [sstep_give hw, give, hu, hc, e1, e2]
  rfl

theorem returnNative_ok (hI : Inv P V A s c) {k} (hcur : s.cur = .native k) (hc : c = g A s.cur)
    (hf : Fair P fuel s) : StepOk P V A s c (returnNative P fuel s k) := by
  have hc' : c = .nat k := by rw [hc, hcur]; rfl
  have hpl : Plain c := by rw [hc']; exact ⟨rfl, fun _ _ _ h => nomatch h⟩
  have hcov : Covers P.toWorld A c (.native k) := by rw [hc']; exact ⟨trivial, .inr (.refl _)⟩
  unfold returnNative
  cases hs : s.stack with
  | nil => exact ⟨rfl, hs, hc ▸ hpl⟩
  | cons fr' st =>
    have hk := hI.stack fr' (by rw [hs]; simp)
    cases fr' with
    | branch bs fb env =>
      cases fb with
      | some b => exact bindOne_ok (used := [.branch bs (.some b) env]) hI hs hk hcov fun T => by subst hc'; rfl
      | none => exact err_ok (used := [.branch bs .none env]) hs fun T => by subst hc'; rfl
    | update env i => have := update_ok hI hc hs hpl.1; rw [hcur] at this; dsimp only; rw [hcur]; exact this
    | applyTo a => exact err_ok (used := [.applyTo a]) hs fun T => by subst hc'; rfl
    | deMeta h o env => exact bindOne_ok (used := [.deMeta h o env]) hI hs hk hcov fun T => by subst hc'; rfl
    | seqBind b env => exact code_ok (used := [.seqBind b env]) (new := []) hI hs hk (by simp) fun T => by subst hc'; rfl
    | fusedLeft id r env =>
      refine code_ok (used := [.fusedLeft id r env]) (new := [.fusedRight id (.native k) env]) hI hs hk ?_
        fun T => by subst hc'; rfl
      intro k' hk'
      simp only [List.mem_singleton] at hk'
      subst hk'
      exact ⟨⟨trivial, rfl⟩, fun _ _ h => nomatch h⟩
    | fusedRight id l env =>
      have := fusedRight_ok (fuel := fuel) hI hc hs hpl (by rw [hc']; rfl) (by
        have := hf.1; simp only [primArgs, hcur, hs] at this; rw [hcur]; exact this)
      rw [hcur] at this
      exact this

theorem drop_take_cover {ts vs} (h : CoverAll P.toWorld A ts vs) (n : Nat) :
    CoverAll P.toWorld (A ++ [ts.take n]) (ts.drop n) (vs.drop n) := (h.drop n).mono

theorem returnFun_ok (hI : Inv P V A s c) {u a code fenv} (hcur : s.cur = .clo u (a + 1) code fenv) (hc : c = g A s.cur)
    (hf : Fair P fuel s) : StepOk P V A s c (returnFun P fuel s (a + 1) code fenv) := by
  have hc' : c = .clo (a + 1) code (G A fenv) := by rw [hc, hcur]; rfl
  have hpl : Plain c := by rw [hc']; exact ⟨rfl, fun _ _ _ h => nomatch h⟩
  have hcov : Covers P.toWorld A c s.cur := by rw [hc]; exact covers_self hI.cur
  have hwf : WfChain (lens A) fenv := by have := hI.cur; rw [hcur] at this; exact this
  unfold returnFun
  cases hs : s.stack with
  | nil => exact ⟨rfl, hs, hc ▸ hpl⟩
  | cons fr' st =>
    have hk := hI.stack fr' (by rw [hs]; simp)
    cases fr' with
    | branch bs fb env =>
      cases fb with
      | some b => exact bindOne_ok (used := [.branch bs (.some b) env]) hI hs hk hcov fun T => by subst hc'; rfl
      | none => exact err_ok (used := [.branch bs .none env]) hs fun T => by subst hc'; rfl
    | update env i => exact update_ok hI hc hs hpl.1
    | applyTo args =>
      have hr := row_wf hk
      obtain ⟨hcc, hcl⟩ := cells_cover hI.store hk
      have hg : ∀ T, sstep P.toWorld (c, frs A [.applyTo args] ++ T) = give P.toWorld c T (.apply (row A args)) :=
        fun T => sstep_give hpl
      simp only [give, onApply] at hg
      rw [hc'] at hg
      simp only [shape, hr.2] at hg
      dsimp only
      split
      · rename_i he
        simp only [he, if_true] at hg
        refine code_ok (used := [.applyTo args]) (new := []) hI hs (wf_arr hk hwf) (by simp) fun T => ?_
        rw [G_arr hk, hc', hg]; rfl
      · rename_i hne
        simp only [hne, if_false] at hg
        split
        · rename_i hlt
          simp only [hlt, if_true] at hg
          unfold partially
          dsimp only
          split
          · exact .inl rfl
          · refine saturate_ok (used := [.applyTo args]) (ts := c :: row A args) hI hs hwf (.cons hcov hcc) fun T => ?_
            rw [hc', hg]
        · rename_i hlt
          simp only [hlt, if_false] at hg
          have h1 := hcc.take (a + 1)
          have h2 := drop_take_cover hcc (a + 1)
          have hσ1 := hI.store.alloc (ts := (row A args).take (a + 1)) h1.mono
          have hσ2 := hσ1.alloc (ts := (row A args).drop (a + 1)) h2.mono
          have hlen := hI.store.length
          simp only [saturate, allocArray]
          have hw1 := wf_new (ts := (row A args).take (a + 1)) hwf
          have hG : G (A ++ [(row A args).take (a + 1)] ++ [(row A args).drop (a + 1)])
              (Frame.new ⟨A.length, ((row A args).take (a + 1)).length⟩ 0 :: fenv) =
              consAll ((row A args).take (a + 1)) (G A fenv) := by
            rw [G_mono hw1, G_new hwf]
          rw [hlen, ← h1.length, ← h2.length]
          have hw2 : WfChain (lens (A ++ [(row A args).take (a + 1), (row A args).drop (a + 1)]))
              (Frame.new ⟨A.length, ((row A args).take (a + 1)).length⟩ 0 :: fenv) := by
            have := WfChain.mono (M := lens [(row A args).drop (a + 1)]) hw1
            rw [← lens_append] at this
            simpa using this
          have hrow : row (A ++ [(row A args).take (a + 1), (row A args).drop (a + 1)])
              ⟨(s.store ++ [(cells s.store args).take (a + 1)]).length, ((row A args).drop (a + 1)).length⟩ =
              (row A args).drop (a + 1) := by
            simp [row, hlen]
          refine hI.go (used := [.applyTo args]) (B := [(row A args).take (a + 1), (row A args).drop (a + 1)])
            (new := [.applyTo _]) hs (by simpa using hσ2) hw2 ?_ fun T _ => ?_
          · intro k' hk'
            simp only [List.mem_singleton] at hk'
            subst hk'
            refine ⟨?_, fun _ _ h => nomatch h⟩
            simp [WfCont, WfArr, lens, hlen]
          · apply Leads.of_step
            rw [hc', hg, frs_cons, frs_nil, fr, hrow, MVal.new, g]
            simp only [List.append_assoc, List.singleton_append] at hG
            rw [hG]
            rfl
    | deMeta h o env => exact bindOne_ok (used := [.deMeta h o env]) hI hs hk hcov fun T => by subst hc'; rfl
    | seqBind b env => exact code_ok (used := [.seqBind b env]) (new := []) hI hs hk (by simp) fun T => by subst hc'; rfl
    | fusedLeft id r env =>
      refine code_ok (used := [.fusedLeft id r env]) (new := [.fusedRight id s.cur env]) hI hs hk ?_
        fun T => ?_
      · intro k' hk'
        simp only [List.mem_singleton] at hk'
        subst hk'
        exact ⟨⟨hI.cur, hc ▸ hpl.1⟩, fun _ _ h => nomatch h⟩
      · have : frs A [.fusedRight id s.cur env] = [.fusedR id c] := by rw [hc]; rfl
        rw [this, hc']; rfl
    | fusedRight id l env =>
      exact fusedRight_ok (fuel := fuel) hI hc hs hpl (by rw [hc']; rfl) (by
        have := hf.1; simp only [primArgs, hcur, hs] at this; rw [hcur]; exact this)

theorem boxedField_ok {t as env} (h : StoreOk P A s.store) (hw : WfChain (lens A) env) :
    RelX (fun (a : Option (Val K)) (b : Option (MVal K)) => match a, b with
      | some u, some v => Covers P.toWorld A u v ∧ ∃ r rest, as = r :: rest ∧ resolveRef P s.store env r = .ok v
      | none, none => True
      | _, _ => False)
      (unbox P.toWorld (.clo 0 (.cons t as) (G A env))) (boxedField P s.store t as env) := by
  simp only [unbox, shape, boxedField]
  split
  · cases as with
    | nil => exact .error _
    | cons r rs =>
      dsimp only
      have := resolve_covers h hw r
      revert this
      generalize Sem.resolve P.toWorld (G A env) r = x
      cases hy : resolveRef P s.store env r with
      | error y => intro h; cases h; exact .error _
      | ok v => intro h; cases h with | ok h => exact .ok ⟨h, r, rs, rfl, hy⟩
  · exact .ok trivial

/-- Something found in a cell becomes current. -/
theorem covers_go (hI : Inv P V A s c) {used rest fs t v} (hs : s.stack = used ++ rest)
    (hfs : ∀ k ∈ fs, WfCont A k ∧ ∀ e i, k ≠ .update e i) (hc : Covers P.toWorld A t v)
    (hh : isHole v = true → ∃ a p, WfArr (lens A) a ∧ t = ghostAt A a p ∧ content s.store a.id p = some v)
    (hL : ∀ T, sstep P.toWorld (c, frs A used ++ T) = .next (t, frs A fs ++ T)) :
    StepOk P V A s c (.next ⟨s.store, v, fs ++ rest⟩) := by
  cases hhv : isHole v with
  | false =>
    have hr : Reds P.toWorld t (g A v) := by
      rcases hc.2 with h | h
      · rw [hhv] at h; cases h
      · exact h
    refine hI.go (B := []) hs hI.store.more (by simpa using hc.1) (by simpa using hfs) fun T _ => ?_
    simp only [List.append_nil]
    exact Leads.step_reds (hL T) hr
  | true =>
    obtain ⟨a, p, ha, ht, hcont⟩ := hh hhv
    refine hI.move (B := []) (c' := t) hs hI.store.more (by simpa using hc.1) (by simpa using fun k hk => (hfs k hk).1)
      (fun T _ => by simpa using Leads.of_step (hL T)) (.inr ⟨⟨hhv, a, p, by simpa using ha, by simpa using ht, hcont⟩, ?_⟩) ?_
    · exact noUpd_ok fun k hk => (hfs k hk).2
    · exact noUpd_ok fun k hk => (hfs k hk).2

theorem resolveRef_place {σ env r v} (hσ : StoreOk P A σ) (hw : WfChain (lens A) env) (h : resolveRef P σ env r = .ok v) :
    (∃ k, v = .native k) ∨ ∃ a p, WfArr (lens A) a ∧ Sem.resolve P.toWorld (G A env) r = .ok (ghostAt A a p) ∧
      content σ a.id p = some v := by
  cases r with
  | v k => simp only [resolveRef] at h; cases h; exact .inl ⟨k, rfl⟩
  | l i =>
    simp only [resolveRef] at h
    cases hg : get σ env i with
    | none => rw [hg] at h; cases h
    | some w =>
      rw [hg] at h; cases h
      obtain ⟨a, p, hc, hcont, _⟩ := get_covers hσ hg
      refine .inr ⟨a, p, (cell_wf hw hc).1, ?_, hcont⟩
      simp [Sem.resolve, lookup_G, hc]
  | g i =>
    simp only [resolveRef] at h
    cases hg : get σ (globalsEnv P) i with
    | none => rw [hg] at h; cases h
    | some w =>
      rw [hg] at h; cases h
      obtain ⟨a, p, hc, hcont, _⟩ := get_covers hσ hg
      refine .inr ⟨a, p, (cell_wf (wf_globals hσ) hc).1, ?_, hcont⟩
      simp [Sem.resolve, global_lookup hσ, lookup_G, hc]

theorem unbox_resolve {t r rs} {E : Env K} {u} (h : unbox P.toWorld (.clo 0 (.cons t (r :: rs)) E) = .ok (some u)) :
    Sem.resolve P.toWorld E r = .ok u := by
  simp only [unbox, shape] at h
  split at h
  · cases hr : Sem.resolve P.toWorld E r with
    | error x => rw [hr] at h; cases h
    | ok v => rw [hr] at h; cases h; rfl
  · cases h

/-- The field of a box becomes current, under the same frame. -/
theorem unboxed_ok (hI : Inv P V A s c) {k st t as cenv u v} (hs : s.stack = k :: st) (hnu : ∀ e i, k ≠ .update e i)
    (hw : WfChain (lens A) cenv) (hu : unbox P.toWorld (.clo 0 (.cons t as) (G A cenv)) = .ok (some u))
    (hv : Covers P.toWorld A u v ∧ ∃ r rest, as = r :: rest ∧ resolveRef P s.store cenv r = .ok v)
    (hL : ∀ T, sstep P.toWorld (c, frs A [k] ++ T) = .next (u, frs A [k] ++ T)) :
    StepOk P V A s c (.next ⟨s.store, v, k :: st⟩) := by
  have := covers_go (fs := [k]) (rest := st) (used := [k]) hI hs ?_ hv.1 ?_ hL
  · exact this
  · intro k' hk'
    simp only [List.mem_singleton] at hk'
    subst hk'
    exact ⟨hI.stack _ (by rw [hs]; simp), hnu⟩
  · intro hh
    obtain ⟨r, rest, rfl, hr⟩ := hv.2
    rcases resolveRef_place hI.store hw hr with ⟨k', rfl⟩ | ⟨a, p, ha, he, hc⟩
    · cases hh
    · have := unbox_resolve hu
      rw [he] at this
      cases this
      exact ⟨a, p, ha, rfl, hc⟩

theorem returnData_ok (hI : Inv P V A s c) {u t as cenv} (hcur : s.cur = .clo u 0 (.cons t as) cenv) (hc : c = g A s.cur)
    (hf : Fair P fuel s) : StepOk P V A s c (returnData P fuel s t as cenv) := by
  have hc' : c = .clo 0 (.cons t as) (G A cenv) := by rw [hc, hcur]; rfl
  have hpl : Plain c := by rw [hc']; exact ⟨rfl, fun _ _ _ h => nomatch h⟩
  have hcov : Covers P.toWorld A c s.cur := by rw [hc]; exact covers_self hI.cur
  have hwf : WfChain (lens A) cenv := by have := hI.cur; rw [hcur] at this; exact this
  unfold returnData
  cases hs : s.stack with
  | nil => exact ⟨rfl, hs, hc ▸ hpl⟩
  | cons fr' st =>
    have hk := hI.stack fr' (by rw [hs]; simp)
    cases fr' with
    | branch bs fb env =>
      have hg : ∀ T, sstep P.toWorld (c, frs A [.branch bs fb env] ++ T) = .of (onCase P.toWorld c bs fb (G A env)) T :=
        fun T => sstep_give hpl
      simp only [onCase] at hg
      rw [hc'] at hg
      simp only [shape] at hg
      dsimp only
      cases hb : branch bs t with
      | some body =>
        rw [hb] at hg
        dsimp only at hg ⊢
        by_cases hne : as = []
        · subst hne
          simp only [List.isEmpty_nil, if_true]
          exact code_ok (used := [.branch bs fb env]) (new := []) hI hs hk (by simp) fun T => by rw [hc', hg]; rfl
        · have : as.isEmpty = false := by simpa using hne
          rw [this]
          simp only [Bool.false_eq_true, if_false]
          rcases dataEnv_spec hI.store hwf hk hne with ⟨x, hx, hx'⟩ | ⟨σ', env', B, ts, hx, hr, hσ, hw', hG⟩
          · rw [hx]
            dsimp only
            rcases hx' with rfl | hx'
            · exact .inl rfl
            · rw [hx'] at hg
              exact err_ok (used := [.branch bs fb env]) hs fun T => by rw [hc', hg]; rfl
          · rw [hx]
            dsimp only
            rw [hr] at hg
            refine hI.go (B := B) (used := [.branch bs fb env]) (new := []) hs hσ hw' (by simp) fun T _ => ?_
            rw [MVal.new, g, hG]
            exact .of_step (by rw [hc', hg]; rfl)
      | none =>
        rw [hb] at hg
        cases fb with
        | some b => exact bindOne_ok (used := [.branch bs (.some b) env]) hI hs hk hcov fun T => by rw [hc', hg]; rfl
        | none => exact err_ok (used := [.branch bs .none env]) hs fun T => by rw [hc', hg]; rfl
    | update env i => exact update_ok hI hc hs hpl.1
    | applyTo args =>
      obtain ⟨hcc, hcl⟩ := cells_cover hI.store hk
      have hg : ∀ T, sstep P.toWorld (c, frs A [.applyTo args] ++ T) = give P.toWorld c T (.apply (row A args)) :=
        fun T => sstep_give hpl
      simp only [give, onApply] at hg
      rw [hc'] at hg
      simp only [shape] at hg
      dsimp only
      split
      · rename_i h8
        simp only [h8, if_true] at hg
        have hcc' := hcc.append (.cons hcov .nil)
        have hlen := hI.store.length
        simp only [allocArray, enterCallable]
        have hrow : row (A ++ [row A args ++ [c]]) ⟨A.length, (row A args ++ [c]).length⟩ = row A args ++ [c] := by
          simp [row]
        rw [hlen, ← hcc'.length]
        refine enterRef_ok (used := [.applyTo args]) (B := [row A args ++ [c]]) (fs := [.applyTo _]) hI _ hs
          (hI.store.alloc hcc'.mono) ?_ (wf_root (hI.store.alloc hcc'.mono)) fun T _ => ?_
        · intro k' hk'
          simp only [List.mem_singleton] at hk'
          subst hk'
          exact ⟨by simp [WfCont, WfArr, lens], fun _ _ h => nomatch h⟩
        · rw [frs_cons (A ++ [row A args ++ [c]]), fr, hrow]
          subst h8
          rw [hc', hg, Sem.resolve]
          cases Sem.global P.toWorld P.merge <;> rfl
      · rename_i h8
        simp only [h8, if_false] at hg
        exact err_ok (used := [.applyTo args]) hs fun T => by rw [hc', hg]
    | deMeta h o env => exact bindOne_ok (used := [.deMeta h o env]) hI hs hk hcov fun T => by subst hc'; rfl
    | seqBind b env => exact code_ok (used := [.seqBind b env]) (new := []) hI hs hk (by simp) fun T => by subst hc'; rfl
    | fusedLeft id r env =>
      have hb := boxedField_ok (t := t) (as := as) hI.store hwf
      have hg : ∀ T, sstep P.toWorld (c, frs A [.fusedLeft id r env] ++ T) = give P.toWorld c T (.fusedL id r (G A env)) :=
        fun T => sstep_give hpl
      simp only [give] at hg
      dsimp only
      rw [← hc'] at hb
      generalize hx : unbox P.toWorld c = x at hb
      generalize boxedField P s.store t as cenv = y at hb ⊢
      cases hb with
      | error x =>
        rw [hx] at hg
        exact err_ok (used := [.fusedLeft id r env]) hs fun T => by rw [hg]
      | @ok a b hb =>
        rw [hx] at hg
        cases a with
        | none =>
          cases b with
          | none =>
            dsimp only at hg ⊢
            refine code_ok (used := [.fusedLeft id r env]) (new := [.fusedRight id s.cur env]) hI hs hk ?_ fun T => ?_
            · intro k' hk'
              simp only [List.mem_singleton] at hk'
              subst hk'
              exact ⟨⟨hI.cur, hc ▸ hpl.1⟩, fun _ _ h => nomatch h⟩
            · have : frs A [.fusedRight id s.cur env] = [.fusedR id c] := by rw [hc]; rfl
              rw [this, hg]; rfl
          | some => cases hb
        | some u' =>
          cases b with
          | none => cases hb
          | some v => exact unboxed_ok (k := .fusedLeft id r env) hI hs (fun _ _ h => nomatch h) hwf (hc' ▸ hx) hb (fun T => by rw [hg]; rfl)
    | fusedRight id l env =>
      have hb := boxedField_ok (t := t) (as := as) hI.store hwf
      have hg : ∀ T, sstep P.toWorld (c, frs A [.fusedRight id l env] ++ T) = give P.toWorld c T (.fusedR id (g A l)) :=
        fun T => sstep_give hpl
      simp only [give] at hg
      dsimp only
      rw [← hc'] at hb
      generalize hx : unbox P.toWorld c = x at hb
      generalize boxedField P s.store t as cenv = y at hb ⊢
      cases hb with
      | error x =>
        rw [hx] at hg
        exact err_ok (used := [.fusedRight id l env]) hs fun T => by rw [hg]
      | @ok a b hb =>
        rw [hx] at hg
        cases a with
        | none =>
          cases b with
          | none =>
            exact fusedRight_ok (fuel := fuel) hI hc hs hpl hx (by
              have := hf.1; simp only [primArgs, hcur, hs] at this; rw [hcur]; exact this)
          | some => cases hb
        | some u' =>
          cases b with
          | none => cases hb
          | some v => exact unboxed_ok (k := .fusedRight id l env) hI hs (fun _ _ h => nomatch h) hwf (hc' ▸ hx) hb (fun T => by rw [hg]; rfl)

theorem returnMeta_ok (hI : Inv P V A s c) {u m b env} (hcur : s.cur = .clo u 0 (.metaOf m b) env) (hc : c = g A s.cur) :
    StepOk P V A s c (returnMeta P s m b env) := by
  have hc' : c = .clo 0 (.metaOf m b) (G A env) := by rw [hc, hcur]; rfl
  have hwf : WfChain (lens A) env := by have := hI.cur; rw [hcur] at this; exact this
  unfold returnMeta
  cases hs : s.stack with
  | nil =>
    dsimp only
    have hm := resolve_covers hI.store hwf m
    have hg : sstep P.toWorld (c, [.top]) = giveMeta P.toWorld m b (G A env) [] .top := by rw [hc']; rfl
    simp only [giveMeta, resolveAll] at hg
    generalize Sem.resolve P.toWorld (G A env) m = x at hm hg
    generalize resolveRef P s.store env m = y at hm
    cases hm with
    | error x =>
      refine .inr ⟨0, .err ?_⟩
      rw [hs]
      exact hg
    | ok _ =>
      dsimp only at hg ⊢
      have := enterRef_ok (B := []) (σ := s.store) (used := []) (fs := []) (rest := []) (v := s.cur) hI b hs
        hI.store.more (by simp) (by simpa using hwf) (fun T hT => by
          rw [hT rfl]
          simp only [List.append_nil]
          refine Eq.trans hg ?_
          cases Sem.resolve P.toWorld (G A env) b <;> rfl)
      rw [List.append_nil, ← hs] at this
      exact this
  | cons fr' st =>
    have hk := hI.stack fr' (by rw [hs]; simp)
    have pass : ∀ (hp : ∀ T, sstep P.toWorld (c, frs A [fr'] ++ T) =
        .of (Sem.resolve P.toWorld (G A env) b) (frs A [fr'] ++ T)) (hnu : ∀ e i, fr' ≠ .update e i),
        StepOk P V A s c (enterRef P s env b) := by
      intro hp hnu
      have := enterRef_ok (B := []) (σ := s.store) (used := [fr']) (fs := [fr']) (rest := st) (v := s.cur) hI b hs
        hI.store.more ?_ (by simpa using hwf) (fun T _ => by simpa using hp T)
      · rw [List.singleton_append, ← hs] at this; exact this
      · intro k' hk'
        simp only [List.mem_singleton] at hk'
        subst hk'
        exact ⟨by simpa using hk, hnu⟩
    cases fr' with
    | update uenv i => exact update_ok hI hc hs (by rw [hc']; rfl)
    | deMeta h o denv =>
      dsimp only
      have hr := resolves_covers hI.store hwf [m, b]
      have hg : ∀ T, sstep P.toWorld (c, frs A [.deMeta h o denv] ++ T) = giveMeta P.toWorld m b (G A env) T (.demeta h o (G A denv)) :=
        fun T => by rw [hc']; rfl
      simp only [giveMeta] at hg
      generalize resolveAll P.toWorld (G A env) [m, b] = x at hr hg
      generalize resolveRefs P s.store env [m, b] = y at hr
      cases hr with
      | error x => exact err_ok (used := [.deMeta h o denv]) hs fun T => by rw [hg]
      | ok hr =>
        exact saturate_ok (used := [.deMeta h o denv]) (upd := false) hI hs hk hr fun T => by rw [hg]
    | branch => exact pass (fun T => by rw [hc']; rfl) (fun _ _ h => nomatch h)
    | applyTo => exact pass (fun T => by rw [hc']; rfl) (fun _ _ h => nomatch h)
    | seqBind => exact pass (fun T => by rw [hc']; rfl) (fun _ _ h => nomatch h)
    | fusedLeft => exact pass (fun T => by rw [hc']; rfl) (fun _ _ h => nomatch h)
    | fusedRight => exact pass (fun T => by rw [hc']; rfl) (fun _ _ h => nomatch h)

/-! ## Arguments -/

theorem atom_covers {env r t v} {E : Env K} (_ : E = G A env) (hr : Sem.resolve P.toWorld E r = .ok t) (hc : Covers P.toWorld A t v) :
    Covers P.toWorld A (.clo 0 (.atom r) E) v := by
  refine ⟨hc.1, ?_⟩
  rcases hc.2 with h | h
  · exact .inl h
  · exact .inr (.cons (.steps (Steps.one (by simp [sstep, exec, hr, SRes.of])) (.refl t)) h)

theorem makeArgs_ok {σ env eager} (h : StoreOk P A σ) (hw : WfChain (lens A) env) (args : List (Ref K)) :
    (∃ i, makeArgs P σ env eager args = .error (.badIndex i) ∧ (if eager then eagerBad (G A env) args else none) = some i) ∨
    ∃ vs, makeArgs P σ env eager args = .ok vs ∧ (if eager then eagerBad (G A env) args else none) = none ∧
      CoverAll P.toWorld A (lazily (G A env) args) vs := by
  induction args with
  | nil => exact .inr ⟨[], rfl, by simp [eagerBad], .nil⟩
  | cons r rs ih =>
    have alias : Covers P.toWorld A (.clo 0 (.atom r) (G A env)) (.new (.atom r) env) :=
      covers_self (v := MVal.new (.atom r) env) hw
    -- one argument at a time
    have one : ∀ v, Covers P.toWorld A (.clo 0 (.atom r) (G A env)) v →
        (if eager then eagerBad (G A env) (r :: rs) else none) = (if eager then eagerBad (G A env) rs else none) →
        (makeArgs P σ env eager (r :: rs) = (match makeArgs P σ env eager rs with
          | .error x => .error x
          | .ok vs => .ok (v :: vs))) →
        (∃ i, makeArgs P σ env eager (r :: rs) = .error (.badIndex i) ∧
          (if eager then eagerBad (G A env) (r :: rs) else none) = some i) ∨
        ∃ vs, makeArgs P σ env eager (r :: rs) = .ok vs ∧ (if eager then eagerBad (G A env) (r :: rs) else none) = none ∧
          CoverAll P.toWorld A (lazily (G A env) (r :: rs)) vs := by
      intro v hv he hm
      rw [he, hm]
      rcases ih with ⟨i, h1, h2⟩ | ⟨vs, h1, h2, h3⟩
      · exact .inl ⟨i, by rw [h1], h2⟩
      · exact .inr ⟨v :: vs, by rw [h1], h2, .cons hv h3⟩
    cases r with
    | g i => exact one _ alias rfl rfl
    | v k => exact one _ alias rfl rfl
    | l i =>
      cases hg : get σ env i with
      | none =>
        have hl : lookup (G A env) i = none := by
          rw [lookup_G, get_none (by rw [h.lens]; exact hw) hg]; rfl
        cases eager with
        | true => exact .inl ⟨i, by simp [makeArgs, hg], by simp [eagerBad, hl]⟩
        | false => exact one _ alias rfl (by simp only [makeArgs, hg]; rfl)
      | some v =>
        obtain ⟨a, p, hc, _, hv⟩ := get_covers h hg
        have hl : lookup (G A env) i = some (ghostAt A a p) := by rw [lookup_G, hc]; rfl
        have he : (if eager then eagerBad (G A env) (.l i :: rs) else none) = (if eager then eagerBad (G A env) rs else none) := by
          simp [eagerBad, hl]
        by_cases hb : (eager || settled P v) = true
        · exact one v (atom_covers (env := env) rfl (by simp [Sem.resolve, hl]) hv) he (by simp only [makeArgs, hg, hb, if_true]; rfl)
        · exact one _ alias he (by simp only [makeArgs, hg, hb]; rfl)

theorem app_spec {E : Env K} {f args eager} (h : (if eager = true then eagerBad E args else none) = none) :
    app P.toWorld E f args eager = (match callee P.toWorld E f with | .ok v => .ok (v, lazily E args) | .error x => .error x) := by
  simp only [app, h]; rfl

theorem app_ok (hI : Inv P V A s c) {env f args eager} (hw : WfChain (lens A) env) (_ : c = g A s.cur)
    (hg : ∀ T, sstep P.toWorld (c, T) = (match app P.toWorld (G A env) f args eager with
      | .ok (v, vs) => .next (v, .apply vs :: T)
      | .error x => .err x)) :
    StepOk P V A s c (match makeArgs P s.store env eager args with
      | .error x => .error x
      | .ok vs => enterCallable P { s with store := (allocArray s.store vs).1, stack := .applyTo (allocArray s.store vs).2 :: s.stack } env f) := by
  rcases makeArgs_ok (eager := eager) hI.store hw args with ⟨i, h1, h2⟩ | ⟨vs, h1, h2, h3⟩
  · rw [h1]
    exact err_ok (used := []) (rest := s.stack) rfl fun T => by
      show sstep P.toWorld (c, T) = _
      rw [hg]; simp only [app, h2]
  · rw [h1]
    dsimp only
    have hlen := hI.store.length
    rw [app_spec h2] at hg
    have hl : vs.length = (lazily (G A env) args).length := h3.length.symm
    simp only [allocArray, hlen, hl]
    have hrow : row (A ++ [lazily (G A env) args]) ⟨A.length, (lazily (G A env) args).length⟩ = lazily (G A env) args := by
      simp [row]
    have hgo : ∀ r, callee P.toWorld (G A env) f = Sem.resolve P.toWorld (G A env) r →
        StepOk P V A s c (enterRef P ⟨s.store ++ [vs], s.cur, .applyTo ⟨A.length, (lazily (G A env) args).length⟩ :: s.stack⟩ env r) := by
      intro r hr
      refine enterRef_ok (used := []) (B := [lazily (G A env) args]) (fs := [.applyTo _]) (rest := s.stack) hI r rfl
        (hI.store.alloc h3.mono) ?_ (by rw [lens_append]; exact hw.mono) fun T _ => ?_
      · intro k' hk'
        simp only [List.mem_singleton] at hk'
        subst hk'
        exact ⟨by simp [WfCont, WfArr, lens], fun _ _ h => nomatch h⟩
      · rw [frs_cons, fr, hrow, G_mono hw, ← hr]
        show sstep P.toWorld (c, T) = _
        rw [hg]
        cases callee P.toWorld (G A env) f <;> rfl
    cases f with
    | v k =>
      exact err_ok (used := []) (rest := s.stack) rfl fun T => by
        show sstep P.toWorld (c, T) = _
        rw [hg]; rfl
    | l i => exact hgo (.l i) rfl
    | g i => exact hgo (.g i) rfl

theorem directApp_ok (hI : Inv P V A s c) {env f args eager} (hw : WfChain (lens A) env) (hne : args ≠ [])
    (hg : ∀ T, sstep P.toWorld (c, T) = (match app P.toWorld (G A env) f args eager with
      | .ok (v, vs) => .next (v, .apply vs :: T)
      | .error x => .err x)) :
    StepOk P V A s c (match makeArgs P s.store env eager args with
      | .error x => .error x
      | .ok vs => directApp P s env f vs) := by
  rcases makeArgs_ok (eager := eager) hI.store hw args with ⟨i, h1, h2⟩ | ⟨vs, h1, h2, h3⟩
  · rw [h1]
    exact err_ok (used := []) (rest := s.stack) rfl fun T => by
      show sstep P.toWorld (c, T) = _
      rw [hg]; simp only [app, h2]
  · rw [h1]
    dsimp only
    have hlen := hI.store.length
    rw [app_spec h2] at hg
    have hl : vs.length = (lazily (G A env) args).length := h3.length.symm
    have hpos : 0 < (lazily (G A env) args).length := by
      simp only [lazily, List.length_map]; exact List.length_pos_iff.2 hne
    unfold directApp
    simp only [allocArray, hlen, hl]
    generalize hts : lazily (G A env) args = ts at *
    have hσ := hI.store.alloc h3.mono
    have hrow : row (A ++ [ts]) ⟨A.length, ts.length⟩ = ts := by simp [row]
    have harr : WfArr (lens (A ++ [ts])) ⟨A.length, ts.length⟩ := by simp [WfArr, lens]
    have hgo : ∀ cenv i x, WfChain (lens A) cenv → (∀ T, sstep P.toWorld (c, T) = (match lookup (G A cenv) i with
          | some t => .next (t, .apply ts :: T)
          | none => .err x)) →
        StepOk P V A s c (match get (s.store ++ [vs]) cenv i with
          | none => .error x
          | some (.native _) => .error .notCallable
          | some (.clo upd ar c fenv) =>
            if upd then
              match update (s.store ++ [vs]) cenv i (.new .hole cenv) with
              | none => .error x
              | some σ => .next ⟨σ, .clo upd ar c fenv, .update cenv i :: .applyTo ⟨A.length, ts.length⟩ :: s.stack⟩
            else if ar = ts.length then .next ⟨s.store ++ [vs], .new c (Frame.new ⟨A.length, ts.length⟩ 0 :: fenv), s.stack⟩
            else .next ⟨s.store ++ [vs], .clo upd ar c fenv, .applyTo ⟨A.length, ts.length⟩ :: s.stack⟩) := by
      intro cenv i x hcw hspec
      have henter := enterSlot_ok (used := []) (B := [ts]) (fs := [.applyTo ⟨A.length, ts.length⟩]) (rest := s.stack)
        (env := cenv) (i := i) (x := x) (v := s.cur) hI rfl hσ (by
          intro k' hk'
          simp only [List.mem_singleton] at hk'
          subst hk'
          exact ⟨harr, fun _ _ h => nomatch h⟩) (by rw [lens_append]; exact hcw.mono) (by
          intro T _
          rw [frs_cons, fr, hrow, G_mono hcw]
          show sstep P.toWorld (c, T) = _
          rw [hspec]
          cases lookup (G A cenv) i <;> rfl)
      unfold enterSlot at henter
      dsimp only at henter
      cases hget : get (s.store ++ [vs]) cenv i with
      | none => rw [hget] at henter; exact henter
      | some w =>
        rw [hget] at henter
        obtain ⟨a, p, hc, hcont, hv⟩ := get_covers hσ hget
        have hlk : lookup (G A cenv) i = some (ghostAt (A ++ [ts]) a p) := by
          rw [lookup_G, hc]
          simp only [Option.map_some, ghostAt_mono (cell_wf hcw hc).1]
        rw [hlk] at hspec
        dsimp only at hspec
        rcases w with k | ⟨_ | _, ar, code, fenv⟩
        · dsimp only
          have hr : Reds P.toWorld (ghostAt (A ++ [ts]) a p) (.nat k) := by
            rcases hv.2 with h | h
            · cases h
            · exact h
          have hL := Leads.step_reds (hspec (frs A s.stack ++ [.top])) hr
          obtain ⟨n, r, ht, he⟩ := hL.bwd 0 (.error .notCallable) (.err rfl)
          cases he
          exact .inr ⟨n, ht⟩
        · simp only [Bool.false_eq_true, if_false]
          by_cases har : ar = ts.length
          · rw [if_pos har]
            have hpos' : 0 < ar := by omega
            obtain ⟨ar', rfl⟩ : ∃ m, ar = m + 1 := ⟨ar - 1, by omega⟩
            have hr : Reds P.toWorld (ghostAt (A ++ [ts]) a p) (.clo (ar' + 1) code (G (A ++ [ts]) fenv)) := by
              rcases hv.2 with h | h
              · cases h
              · exact h
            have hfw : WfChain (lens (A ++ [ts])) fenv := hv.1
            refine hI.go (used := []) (new := []) (B := [ts]) (rest := s.stack) rfl hσ (wf_arr harr hfw) (by simp) fun T _ => ?_
            have hL := Leads.step_reds (hspec T) hr
            have hL2 : Leads P.toWorld 1 (.clo (ar' + 1) code (G (A ++ [ts]) fenv), .apply ts :: T)
                (.clo 0 code (consAll ts (G (A ++ [ts]) fenv)), T) :=
              .of_step (by simp [sstep, give, onApply, shape, har])
            rw [MVal.new, g, G_arr harr, hrow]
            exact (hL.trans hL2).weaken (by omega)
          · rw [if_neg har]; exact henter
        · exact henter
    cases f with
    | v k =>
      exact err_ok (used := []) (rest := s.stack) rfl fun T => by
        show sstep P.toWorld (c, T) = _
        rw [hg]; rfl
    | l i =>
      refine hgo env i (.badIndex i) hw fun T => ?_
      rw [hg, callee, Sem.resolve]
      cases lookup (G A env) i <;> rfl
      all_goals simp
    | g i =>
      refine hgo (globalsEnv P) i (.badGlobal i) (wf_globals hI.store) fun T => ?_
      rw [hg, callee, Sem.resolve, global_lookup hI.store]
      cases lookup (G A (globalsEnv P)) i <;> rfl
      all_goals simp

/-! ## Bindings -/

theorem g_closeForm (f : Form K) (env : Chain) : g A (closeForm f env) = close f (G A env) := by
  unfold closeForm close arity
  cases f.head <;> rfl

theorem wf_closeForm {L} (f : Form K) {env : Chain} (h : WfChain L env) : WfVal L (closeForm f env) := by
  unfold closeForm
  cases f.head <;> exact h

theorem covers_forms {env E ts} (fs : List (Form K)) (hw : WfChain (lens A) env)
    (hE : ∀ f ∈ fs, Reds P.toWorld (close f E) (close f (G A env))) (hts : ts = fs.map (close · E)) :
    CoverAll P.toWorld A ts (fs.map (closeForm · env)) := by
  subst hts
  induction fs with
  | nil => exact .nil
  | cons f fs ih =>
    refine .cons ⟨wf_closeForm f hw, .inr ?_⟩ (ih fun f hf => hE f (by simp [hf]))
    rw [g_closeForm]
    exact hE f (by simp)

theorem lookup_recs (fs : Forms K) (E : Env K) (i : Nat) :
    lookup (.recs fs E) i = lookup (consAll ((forms fs).map (close · (.recs fs E))) E) i := by
  rw [lookup_consAll, Sem.lookup]
  by_cases hi : i < (forms fs).length
  · simp [hi]
  · have : (forms fs)[i]? = none := by simp; omega
    simp [hi]

theorem unroll (fs : Forms K) (E : Env K) :
    ERed P.toWorld (.recs fs E) (consAll ((forms fs).map (close · (.recs fs E))) E) :=
  .ext (fun i => by rw [lookup_recs]) fun i v v' h h' => by
    rw [lookup_recs, h'] at h; cases h; exact .refl _

theorem handleOp_ok (hI : Inv P V A s c) {u code env} (hcur : s.cur = .clo u 0 code env) (hc : c = g A s.cur)
    (hf : Fair P fuel s) : StepOk P V A s c (handleOp P fuel s code env) := by
  have hc' : c = .clo 0 code (G A env) := by rw [hc, hcur]; rfl
  have hwf : WfChain (lens A) env := by have := hI.cur; rw [hcur] at this; exact this
  have push : ∀ (scr : Syn K) (k : Cont K), WfCont A k → (∀ e i, k ≠ .update e i) →
      (∀ T, sstep P.toWorld (c, T) = .next (.clo 0 scr (G A env), frs A [k] ++ T)) →
      StepOk P V A s c (.next ⟨s.store, .new scr env, k :: s.stack⟩) := by
    intro scr k hk hnu hsp
    refine code_ok (used := []) (new := [k]) (rest := s.stack) hI rfl hwf ?_ hsp
    intro k' hk'
    simp only [List.mem_singleton] at hk'
    subst hk'
    exact ⟨hk, hnu⟩
  unfold handleOp
  cases code with
  | atom r =>
    have := enterRef_ok (B := []) (σ := s.store) (used := []) (fs := []) (rest := s.stack) (v := s.cur) hI r rfl
      hI.store.more (by simp) (by simpa using hwf) (fun T _ => by
        rw [hc']; simp only [List.append_nil]; rfl)
    exact this
  | cons t as => exact returnData_ok hI hcur hc hf
  | «bif» id args =>
    dsimp only
    have hr := resolves_covers hI.store hwf args
    have hfa := hf.1
    simp only [primArgs, hcur] at hfa
    have hg : ∀ T, sstep P.toWorld (c, T) = exec P.toWorld (.bif id args) (G A env) T := fun T => by rw [hc']; rfl
    simp only [exec] at hg
    generalize resolveAll P.toWorld (G A env) args = x at hr hg
    generalize resolveRefs P s.store env args = y at hr hfa
    cases hr with
    | error x => exact .inl rfl
    | @ok ts vs hr =>
      dsimp only at hfa ⊢
      refine runPrim_ok (used := []) (rest := s.stack) hI rfl fun ks hks T => ?_
      cases hr with
      | nil =>
        simp only [nativeArgs, Option.some.injEq] at hks
        subst hks
        exact ⟨c, T, .refl _, hg T⟩
      | cons h1 h2 =>
        obtain ⟨k, dn, hl, he⟩ := prim_leads (id := id) hI.store (.cons h1 h2) hks hfa [] T
        refine ⟨_, _, ((Leads.of_step (hg T)).trans hl).weaken (Nat.zero_le _), ?_⟩
        simp only [sstep, give, he, List.nil_append]
  | case scr bs fb => exact push scr _ hwf (fun _ _ h => nomatch h) fun T => by rw [hc']; rfl
  | seq scr body => exact push scr _ hwf (fun _ _ h => nomatch h) fun T => by rw [hc']; rfl
  | fused id l r => exact push (.atom l) _ hwf (fun _ _ h => nomatch h) fun T => by rw [hc']; rfl
  | demeta scr h o => exact push scr _ hwf (fun _ _ h => nomatch h) fun T => by rw [hc']; rfl
  | ann smid body =>
    exact code_ok (used := []) (new := []) (rest := s.stack) hI rfl hwf (by simp) fun T => by rw [hc']; rfl
  | hole => exact .inr ⟨0, .err (by rw [hc']; rfl)⟩
  | lookup => exact .inl rfl
  | metaOf m b => exact returnMeta_ok hI hcur hc
  | app f args eager =>
    exact app_ok hI hwf hc fun T => by rw [hc']; rfl
  | dapp smid f args eager =>
    refine directApp_ok hI hwf ?_ fun T => by rw [hc']; rfl
    rintro rfl
    have := hf.2
    simp [emptyCall, hcur] at this
  | let_ fs body =>
    refine saturate_ok (used := []) (rest := s.stack) (upd := false) (ts := (forms fs).map (close · (G A env))) hI rfl hwf ?_
      fun T => by rw [hc']; rfl
    exact covers_forms _ hwf (fun f _ => .refl _) rfl
  | letrec fs body =>
    dsimp only
    have hlen := hI.store.length
    have hlf : (forms fs).length = ((forms fs).map (close · (.recs fs (G A env)))).length := by simp
    rw [hlen, hlf]
    have hw' := wf_new (ts := (forms fs).map (close · (.recs fs (G A env)))) hwf
    have hG := G_new (ts := (forms fs).map (close · (.recs fs (G A env)))) hwf
    have hcov := covers_forms (P := P) (E := .recs fs (G A env)) (forms fs) hw'
      (fun f _ => .one (.env (by rw [hG]; exact unroll fs _))) rfl
    refine hI.go (used := []) (new := []) (rest := s.stack) rfl (hI.store.alloc hcov) hw' (by simp) fun T _ => ?_
    rw [MVal.new, g, hG]
    exact Leads.step_red (S := T) (by rw [hc']; rfl) (.env (unroll fs _)) (reds2_refl _)

/-- Every step keeps the run and the reference together. -/
theorem step_ok (hI : Inv P V A s c) (hf : Fair P fuel s) :
    StepOk P V A s c (step P fuel s) ∨ step P fuel s = .error .hole ∧ HoleAt A s c ∧ UpdOk P.toWorld A c 1 [] s.stack := by
  rcases hI.now with hc | ⟨hh, hu⟩
  · left
    unfold step
    rcases hcur : s.cur with k | ⟨u, _ | a, code, env⟩
    · exact returnNative_ok hI hcur hc hf
    · exact handleOp_ok hI hcur hc hf
    · exact returnFun_ok hI hcur hc hf
  · right
    refine ⟨?_, hh, hu⟩
    have := hh.hole
    unfold isHole at this
    split at this
    · rename_i hcur; simp [step, hcur, handleOp]
    · cases this

end

end Verif.Mach
