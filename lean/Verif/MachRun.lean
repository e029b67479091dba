import Verif.MachStep

/-!
# Runs

Proofs only.
-/

namespace Verif.Mach
open Verif.Bc Verif.Env Verif.Sem
variable {K : Type}

section proofs
variable {P : Prog K} {V : Val K} {A : Ghost K} {s : State K} {c : Val K} {fuel : Nat}

theorem init_inv (P : Prog K) (root : Syn K) :
    Inv P (.clo 0 root .nil) [[], P.globals.map (close · .nil)] (init P root) (.clo 0 root .nil) := by
  have hempty : StoreOk P [[], P.globals.map (close · .nil)] (init P root).store := by
    refine ⟨by simp [lens, init], ?_, rfl, rfl⟩
    intro a p v hv
    unfold content init at hv
    dsimp only at hv
    have hw : WfChain (lens ([[], P.globals.map (close · .nil)] : Ghost K)) rootEnv := by
      intro f hf
      simp only [rootEnv, List.mem_singleton] at hf
      subst hf
      exact ⟨by simp [WfArr, Frame.new, lens], by simp [Frame.new, Frame.logicalLen]⟩
    match ha : a.id with
    | 0 => rw [ha] at hv; simp at hv
    | 1 =>
      rw [ha] at hv
      simp only [List.getElem?_cons_succ, List.getElem?_cons_zero, Option.bind_some, List.getElem?_map,
        Option.map_eq_some_iff] at hv
      obtain ⟨f, hf, rfl⟩ := hv
      refine ⟨wf_closeForm f hw, .inr ?_⟩
      have : ghostAt ([[], P.globals.map (close · .nil)] : Ghost K) a p = close f .nil := by
        simp [ghostAt, ha, hf]
      rw [this, g_closeForm]
      have : G ([[], P.globals.map (close · .nil)] : Ghost K) rootEnv = .nil := by
        simp [G, rootEnv, frameVals, Frame.new, Frame.logicalLen, consAll]
      rw [this]
      exact .refl _
    | n + 2 => rw [ha] at hv; simp at hv
  have hG := G_root hempty
  refine ⟨hempty, wf_root hempty, by simp [init], .inl ?_, trivial, ?_⟩
  · simp [init, MVal.new, g, hG]
  · simp only [init, frs_nil, List.nil_append]; exact .refl _

theorem not_plain_hole {v : MVal K} (h : isHole v = true) : ¬ Plain (g A v) := by
  unfold isHole at h
  split at h
  · intro hp; have := hp.1; simp [g, Whnf, shape] at this
  · cases h

theorem showOf_plain {v : MVal K} (h : Plain (g A v)) : showOf v = seen (.ok (g A v)) := by
  rcases v with k | ⟨u, _ | a, code, e⟩
  · rfl
  · rcases plain_cases h with ⟨k, h⟩ | ⟨a, c, e, h⟩ | ⟨t, as, e', h⟩ <;> simp only [g] at h <;> cases h
    rfl
  · rfl

theorem FairRun.next {s'} (h : FairRun P fuel s) (hs : step P fuel s = .next s') : FairRun P fuel s' :=
  fun _ hr => h _ (.step hs hr)

/-- What a run says of the reference. -/
theorem run_sound (hI : Inv P V A s c) (hf : FairRun P fuel s) {n o} (hr : run P fuel n s = some o) :
    match (generalizing := false) o with
    | .value s' => ∃ m w, Term P.toWorld m (V, [.top]) (.ok w) ∧ seen (.ok w) = showOf s'.cur ∧ (showOf s'.cur).isSome
    | .error x => Err.limit x = true ∨ x = .hole ∨ ∃ m, Term P.toWorld m (V, [.top]) (.error x) := by
  induction n generalizing s c A with
  | zero => simp [run] at hr
  | succ n ih =>
    rw [run] at hr
    have hst := step_ok hI (hf s (.refl s))
    cases hs : step P fuel s with
    | next s' =>
      rw [hs] at hr hst
      rcases hst with ⟨A', c', hI', _⟩ | ⟨h, _⟩
      · exact ih hI' (hf.next hs) hr
      · cases h
    | done s' =>
      rw [hs] at hr hst
      simp only [Option.some.injEq] at hr
      subst hr
      rcases hst with ⟨rfl, he, hp⟩ | ⟨h, _⟩
      · have hc : c = g A s'.cur := by
          rcases hI.now with h | ⟨h, _⟩
          · exact h
          · exact absurd hp (not_plain_hole h.hole)
        have htop := hI.top
        rw [he, hc] at htop
        obtain ⟨m, r, ht, hr⟩ := htop.bwd 1 (.ok (g A s'.cur)) (.next (c' := (g A s'.cur, [])) (sstep_give hp) (term_whnf hp.1))
        cases hr with
        | @ok w _ hr =>
          obtain ⟨_, hw⟩ := ht.done_steps rfl
          refine ⟨m, w, ht, ?_, ?_⟩
          · rw [hr.seen hw, showOf_plain hp]
          · rw [showOf_plain hp]
            rcases plain_cases hp with ⟨k, h⟩ | ⟨a, c, e, h⟩ | ⟨t, as, e', h⟩ <;> rw [h] <;> rfl
      · cases h
    | error x =>
      rw [hs] at hr hst
      simp only [Option.some.injEq] at hr
      subst hr
      rcases hst with (h | ⟨m, h⟩) | ⟨h, _⟩
      · exact .inl h
      · obtain ⟨m', r, ht, he⟩ := hI.top.bwd m _ h
        cases he
        exact .inr (.inr ⟨m', ht⟩)
      · cases h; exact .inr (.inl rfl)

theorem run_ends (hI : Inv P V A s c) (hf : FairRun P fuel s) {m r}
    (ht : Term P.toWorld m (c, frs A s.stack ++ [.top]) r) : ∃ n o, run P fuel n s = some o := by
  induction m using Nat.strongRecOn generalizing s c A r with
  | ind m ihm =>
    generalize hu : updates s.stack = k
    induction k using Nat.strongRecOn generalizing s c A r with
    | ind k ihk =>
      have hst := step_ok hI (hf s (.refl s))
      cases hs : step P fuel s with
      | next s' =>
        rw [hs] at hst
        rcases hst with ⟨A', c', hI', hA⟩ | ⟨h, _⟩
        · have : ∃ n o, run P fuel n s' = some o := by
            rcases hA with hL | ⟨hL, hlt⟩
            · obtain ⟨m', r', hle, ht', _⟩ := hL.fwd m r ht
              exact ihm m' (by omega) hI' (hf.next hs) ht'
            · obtain ⟨m', r', hle, ht', _⟩ := hL.fwd m r ht
              rcases Nat.lt_or_ge m' m with h | h
              · exact ihm m' h hI' (hf.next hs) ht'
              · have : m' = m := by omega
                subst this
                exact ihk _ (by omega) hI' (hf.next hs) ht' rfl
          obtain ⟨n, o, h⟩ := this
          exact ⟨n + 1, o, by rw [run, hs]; exact h⟩
        · cases h
      | done s' => exact ⟨1, .value s', by rw [run, hs]⟩
      | error x => exact ⟨1, .error x, by rw [run, hs]⟩

theorem no_term_loop {acc} (hL : Leads P.toWorld 1 (c, []) (c, acc)) {k t} : ¬ Term P.toWorld k (c, []) t := by
  induction k using Nat.strongRecOn generalizing t with
  | ind k ih =>
    intro h
    obtain ⟨n', r', hle, ht, _⟩ := hL.fwd k t h
    obtain ⟨j, t', hj, hjt, _⟩ := Term.split (S' := []) (S := acc) ht rfl
    exact ih j (by omega) hjt

end proofs
end Verif.Mach
