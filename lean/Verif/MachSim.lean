import Verif.MachLemmas
import Verif.MachSpec
import Verif.SemAdequacy

/-!
# One step of the machine against the reference

Proofs only.
-/

namespace Verif.Mach
open Verif.Bc Verif.Env Verif.Sem
variable {K : Type}

/-! ## The stack, read as frames -/

def fr (A : Ghost K) : Cont K → List (Fr K)
  | .branch bs fb env => [.case bs fb (G A env)]
  | .update _ _ => []
  | .applyTo a => [.apply (row A a)]
  | .deMeta h o env => [.demeta h o (G A env)]
  | .seqBind b env => [.seq b (G A env)]
  | .fusedLeft id r env => [.fusedL id r (G A env)]
  | .fusedRight id l _ => [.fusedR id (g A l)]

def frs (A : Ghost K) (st : List (Cont K)) : List (Fr K) := st.flatMap (fr A)

theorem frs_nil (A : Ghost K) : frs A [] = [] := rfl
theorem frs_cons (A : Ghost K) (k st) : frs A (k :: st) = fr A k ++ frs A st := rfl
theorem frs_append (A : Ghost K) (s t) : frs A (s ++ t) = frs A s ++ frs A t := by simp [frs]

def WfCont (A : Ghost K) : Cont K → Prop
  | .branch _ _ env => WfChain (lens A) env
  | .update env i => WfChain (lens A) env ∧ (cell env i).isSome
  | .applyTo a => WfArr (lens A) a
  | .deMeta _ _ env => WfChain (lens A) env
  | .seqBind _ env => WfChain (lens A) env
  | .fusedLeft _ _ env => WfChain (lens A) env
  | .fusedRight _ l _ => WfVal (lens A) l ∧ Whnf (g A l) = true

theorem WfCont.mono {A B : Ghost K} {k} (h : WfCont A k) : WfCont (A ++ B) k := by
  cases k <;> simp only [WfCont, lens_append] at h ⊢
  case applyTo => exact WfArr.mono h
  case update => exact ⟨WfChain.mono h.1, h.2⟩
  case fusedRight => exact ⟨WfVal.mono h.1, by rw [g_mono h.1]; exact h.2⟩
  all_goals exact WfChain.mono h

theorem fr_mono {A B : Ghost K} {k} (h : WfCont A k) : fr (A ++ B) k = fr A k := by
  cases k <;> simp only [WfCont] at h <;> simp only [fr]
  case applyTo => rw [row_mono h]
  case fusedRight => rw [g_mono h.1]
  all_goals rw [G_mono h]

theorem frs_mono {A B : Ghost K} {st} (h : ∀ k ∈ st, WfCont A k) : frs (A ++ B) st = frs A st := by
  induction st with
  | nil => rfl
  | cons k st ih => rw [frs_cons, frs_cons, fr_mono (h k (by simp)), ih fun k hk => h k (by simp [hk])]

/-- Each cell awaiting an update stands for something that leads here, with the frames above it. -/
def UpdOk (P : World K) (A : Ghost K) (c : Val K) (δ : Nat) : List (Fr K) → List (Cont K) → Prop
  | _, [] => True
  | acc, .update env i :: st =>
    (∀ a p, cell env i = some (a, p) → Leads P δ (ghostAt A a p, []) (c, acc)) ∧ UpdOk P A c δ acc st
  | acc, k :: st => UpdOk P A c δ (acc ++ fr A k) st

theorem UpdOk.append {P : World K} {A : Ghost K} {c δ acc st st'} :
    UpdOk P A c δ acc (st ++ st') ↔ UpdOk P A c δ acc st ∧ UpdOk P A c δ (acc ++ frs A st) st' := by
  induction st generalizing acc with
  | nil => simp [UpdOk, frs]
  | cons k st ih =>
    cases k <;> simp only [List.cons_append, UpdOk, ih, frs_cons, List.append_assoc, fr, List.nil_append]
    case update => exact and_assoc.symm

theorem UpdOk.move {P : World K} {A B : Ghost K} {c c' δ ε acc acc' mid st}
    (h : UpdOk P A c δ (acc ++ mid) st) (hw : ∀ k ∈ st, WfCont A k)
    (hL : ∀ T, Leads P ε (c, acc ++ T) (c', acc' ++ T)) : UpdOk P (A ++ B) c' (δ + ε) (acc' ++ mid) st := by
  induction st generalizing mid with
  | nil => trivial
  | cons k st ih =>
    have hw' : ∀ k ∈ st, WfCont A k := fun k hk => hw k (by simp [hk])
    have hk := hw k (by simp)
    have hf := fr_mono (B := B) hk
    cases k
    case update env i =>
      simp only [UpdOk] at h ⊢
      refine ⟨fun a p hc => ?_, ih h.2 hw'⟩
      rw [ghostAt_mono (cell_wf hk.1 hc).1]
      exact (h.1 a p hc).trans (hL mid)
    all_goals
      simp only [UpdOk, hf, List.append_assoc] at h ⊢
      exact ih h hw'

theorem UpdOk.find {P : World K} {A : Ghost K} {c δ acc st env i a p} (h : UpdOk P A c δ acc st)
    (hm : Cont.update env i ∈ st) (hc : cell env i = some (a, p)) : ∃ acc', Leads P δ (ghostAt A a p, []) (c, acc') := by
  induction st generalizing acc with
  | nil => simp at hm
  | cons k st ih =>
    simp only [List.mem_cons] at hm
    rcases hm with rfl | hm
    · exact ⟨acc, h.1 a p hc⟩
    · cases k
      case update => exact ih h.2 hm
      all_goals exact ih h hm

theorem UpdOk.weaken {P : World K} {A : Ghost K} {c δ ε acc st} (h : UpdOk P A c δ acc st) (hle : ε ≤ δ) :
    UpdOk P A c ε acc st := by
  induction st generalizing acc with
  | nil => trivial
  | cons k st ih =>
    cases k
    case update => exact ⟨fun a p hc => (h.1 a p hc).weaken hle, ih h.2⟩
    all_goals exact ih h

structure HoleAt (A : Ghost K) (s : State K) (c : Val K) : Prop where
  hole : isHole s.cur = true
  place : ∃ a p, WfArr (lens A) a ∧ c = ghostAt A a p ∧ content s.store a.id p = some s.cur

structure Inv (P : Prog K) (V : Val K) (A : Ghost K) (s : State K) (c : Val K) : Prop where
  store : StoreOk P A s.store
  cur : WfVal (lens A) s.cur
  stack : ∀ k ∈ s.stack, WfCont A k
  now : c = g A s.cur ∨ (HoleAt A s c ∧ UpdOk P.toWorld A c 1 [] s.stack)
  upd : UpdOk P.toWorld A c 0 [] s.stack
  top : Leads P.toWorld 0 (V, [.top]) (c, frs A s.stack ++ [.top])

def updates (st : List (Cont K)) : Nat := (st.filter fun | .update _ _ => true | _ => false).length

def Ahead (P : Prog K) (A : Ghost K) (s : State K) (c : Val K) (A' : Ghost K) (s' : State K) (c' : Val K) : Prop :=
  Leads P.toWorld 1 (c, frs A s.stack ++ [.top]) (c', frs A' s'.stack ++ [.top]) ∨
    (Leads P.toWorld 0 (c, frs A s.stack ++ [.top]) (c', frs A' s'.stack ++ [.top]) ∧ updates s'.stack < updates s.stack)

def StepOk (P : Prog K) (V : Val K) (A : Ghost K) (s : State K) (c : Val K) : Step K → Prop
  | .next s' => ∃ A' c', Inv P V A' s' c' ∧ Ahead P A s c A' s' c'
  | .done s' => s' = s ∧ s.stack = [] ∧ Plain (g A s.cur)
  | .error x => Err.limit x = true ∨ ∃ n, Term P.toWorld n (c, frs A s.stack ++ [.top]) (.error x)

theorem Inv.move {P : Prog K} {V : Val K} {A : Ghost K} {s : State K} {c} (hI : Inv P V A s c)
    {B σ' cur' used new rest c'} (hs : s.stack = used ++ rest) (hσ : StoreOk P (A ++ B) σ')
    (hcur : WfVal (lens (A ++ B)) cur') (hnew : ∀ k ∈ new, WfCont (A ++ B) k)
    (hL : ∀ T, (rest = [] → T = [.top]) → Leads P.toWorld 1 (c, frs A used ++ T) (c', frs (A ++ B) new ++ T))
    (hnow : c' = g (A ++ B) cur' ∨ (HoleAt (A ++ B) ⟨σ', cur', new ++ rest⟩ c' ∧ UpdOk P.toWorld (A ++ B) c' 1 [] new))
    (hU : UpdOk P.toWorld (A ++ B) c' 0 [] new) : StepOk P V A s c (.next ⟨σ', cur', new ++ rest⟩) := by
  have hrest : ∀ k ∈ rest, WfCont A k := fun k hk => hI.stack k (by rw [hs]; simp [hk])
  have hu := hI.upd
  rw [hs, UpdOk.append, List.nil_append] at hu
  have hu1 : UpdOk P.toWorld (A ++ B) c' 1 (frs (A ++ B) new) rest := by
    cases rest with
    | nil => trivial
    | cons k rest =>
      have := UpdOk.move (B := B) (mid := []) (by simpa using hu.2) hrest fun T => hL T (nomatch ·)
      simpa using this
  have ht : Leads P.toWorld 1 (c, frs A s.stack ++ [.top]) (c', frs (A ++ B) (new ++ rest) ++ [.top]) := by
    have := hL (frs A rest ++ [.top]) (by rintro rfl; rfl)
    rw [hs, frs_append, frs_append, frs_mono hrest]
    simpa using this
  refine ⟨A ++ B, c', ⟨hσ, hcur, ?_, ?_, ?_, ?_⟩, .inl ht⟩
  · intro k hk
    rcases List.mem_append.1 hk with h | h
    · exact hnew k h
    · exact (hrest k h).mono
  · rcases hnow with h | ⟨h, h'⟩
    · exact .inl h
    · exact .inr ⟨h, UpdOk.append.2 ⟨h', by simpa using hu1⟩⟩
  · exact UpdOk.append.2 ⟨hU, by simpa using hu1.weaken (Nat.zero_le 1)⟩
  · exact (hI.top.trans ht).weaken (Nat.zero_le _)

/-- As `move`, with no update pushed and what is current standing for itself. -/
theorem Inv.go {P : Prog K} {V : Val K} {A : Ghost K} {s : State K} {c} (hI : Inv P V A s c)
    {B σ' cur' used new rest} (hs : s.stack = used ++ rest) (hσ : StoreOk P (A ++ B) σ')
    (hcur : WfVal (lens (A ++ B)) cur') (hnew : ∀ k ∈ new, WfCont (A ++ B) k ∧ ∀ e i, k ≠ .update e i)
    (hL : ∀ T, (rest = [] → T = [.top]) →
      Leads P.toWorld 1 (c, frs A used ++ T) (g (A ++ B) cur', frs (A ++ B) new ++ T)) :
    StepOk P V A s c (.next ⟨σ', cur', new ++ rest⟩) := by
  refine hI.move hs hσ hcur (fun k hk => (hnew k hk).1) hL (.inl rfl) ?_
  have : ∀ acc, UpdOk P.toWorld (A ++ B) (g (A ++ B) cur') 0 acc new := by
    clear hL
    induction new with
    | nil => intro; trivial
    | cons k new ih =>
      intro acc
      have hk := (hnew k (by simp)).2
      have ih := ih fun k hk => hnew k (by simp [hk])
      cases k
      case update e i => exact absurd rfl (hk e i)
      all_goals exact ih _
  exact this []

theorem noUpd_ok {P : World K} {A : Ghost K} {c δ acc fs} (h : ∀ k ∈ fs, ∀ e i, k ≠ Cont.update e i) :
    UpdOk P A c δ acc fs := by
  induction fs generalizing acc with
  | nil => trivial
  | cons k new ih =>
    have hk := h k (by simp)
    have ih := fun acc => ih (acc := acc) fun k hk => h k (by simp [hk])
    cases k
    case update e i => exact absurd rfl (hk e i)
    all_goals exact ih _

/-- Entering a slot, however it was found. -/
theorem enterSlot_ok {P : Prog K} {V : Val K} {A : Ghost K} {s : State K} {c} (hI : Inv P V A s c)
    {B σ used fs rest env i x v} (hs : s.stack = used ++ rest) (hσ : StoreOk P (A ++ B) σ)
    (hfs : ∀ k ∈ fs, WfCont (A ++ B) k ∧ ∀ e i, k ≠ .update e i) (hw : WfChain (lens (A ++ B)) env)
    (hspec : ∀ T, (rest = [] → T = [.top]) → sstep P.toWorld (c, frs A used ++ T) =
      (match lookup (G (A ++ B) env) i with
        | some t => .next (t, frs (A ++ B) fs ++ T)
        | none => .err x)) :
    StepOk P V A s c (enterSlot ⟨σ, v, fs ++ rest⟩ env i x) := by
  unfold enterSlot
  dsimp only
  have hlk := lookup_G (A ++ B) env i
  cases hg : get σ env i with
  | none =>
    rw [get_none (by rw [hσ.lens]; exact hw) hg] at hlk
    simp only [Option.map_none] at hlk
    refine .inr ⟨0, .err ?_⟩
    have := hspec (frs A rest ++ [.top]) (by rintro rfl; rfl)
    rw [hlk] at this
    rw [hs, frs_append, List.append_assoc, this]
  | some w =>
    obtain ⟨a, p, hc, hcont, hv⟩ := get_covers hσ hg
    rw [hc] at hlk
    simp only [Option.map_some] at hlk
    have hL : ∀ T, (rest = [] → T = [.top]) →
        Leads P.toWorld 1 (c, frs A used ++ T) (ghostAt (A ++ B) a p, frs (A ++ B) fs ++ T) := by
      intro T hT
      apply Leads.of_step
      have := hspec T hT
      rw [hlk] at this
      exact this
    have hlens : WfChain (lens σ) env := by rw [hσ.lens]; exact hw
    have key : ∀ (hup : isHole w = false), ∃ h : Reds P.toWorld (ghostAt (A ++ B) a p) (g (A ++ B) w),
        ∀ T, (rest = [] → T = [.top]) →
          Leads P.toWorld 1 (c, frs A used ++ T) (g (A ++ B) w, frs (A ++ B) fs ++ T) := by
      intro hup
      rcases hv.2 with h | h
      · rw [hup] at h; cases h
      · exact ⟨h, fun T hT => Leads.trans (δ := 1) (ε := 0) (hL T hT) (.of_reds h _)⟩
    have keep : StepOk P V A s c (.next ⟨σ, w, fs ++ rest⟩) := by
      cases hh : isHole w with
      | false => exact hI.go hs hσ hv.1 hfs (key hh).2
      | true =>
        refine hI.move hs hσ hv.1 (fun k hk => (hfs k hk).1) hL ?_ (noUpd_ok fun k hk => (hfs k hk).2)
        exact .inr ⟨⟨hh, a, p, (cell_wf hw hc).1, rfl, hcont⟩, noUpd_ok fun k hk => (hfs k hk).2⟩
    rcases w with k | ⟨_ | _, ar, code, e⟩
    · exact keep
    · exact keep
    · dsimp only
      obtain ⟨σ', hu, _⟩ := update_some (v := MVal.new .hole env) hlens hc
      rw [hu]
      have hk := key rfl
      have := hI.move (new := .update env i :: fs) (cur' := .clo true ar code e) (σ' := σ') hs
        (hσ.update hc ⟨(show WfVal _ (MVal.new .hole env) from hw), .inl rfl⟩ hu) hv.1 ?_ hk.2 (.inl rfl) ?_
      · exact this
      · intro k hk'
        simp only [List.mem_cons] at hk'
        rcases hk' with rfl | hk'
        · exact ⟨hw, by simp [hc]⟩
        · exact (hfs k hk').1
      · refine ⟨fun a' p' hc' => ?_, noUpd_ok fun k hk => (hfs k hk).2⟩
        rw [hc] at hc'
        cases hc'
        exact .of_reds hk.1 []

theorem global_lookup {P : Prog K} {A : Ghost K} {σ} (h : StoreOk P A σ) (i : Nat) :
    Sem.global P.toWorld i = (match lookup (G A (globalsEnv P)) i with | some t => .ok t | none => .error (.badGlobal i)) := by
  rw [lookup_G, ghost_globals h i, Sem.global]
  cases P.globals[i]? <;> rfl

theorem enterRef_ok {P : Prog K} {V : Val K} {A : Ghost K} {s : State K} {c} (hI : Inv P V A s c)
    {B σ used fs rest env v} (r : Ref K) (hs : s.stack = used ++ rest) (hσ : StoreOk P (A ++ B) σ)
    (hfs : ∀ k ∈ fs, WfCont (A ++ B) k ∧ ∀ e i, k ≠ .update e i) (hw : WfChain (lens (A ++ B)) env)
    (hspec : ∀ T, (rest = [] → T = [.top]) → sstep P.toWorld (c, frs A used ++ T) =
      .of (Sem.resolve P.toWorld (G (A ++ B) env) r) (frs (A ++ B) fs ++ T)) :
    StepOk P V A s c (enterRef P ⟨σ, v, fs ++ rest⟩ env r) := by
  cases r with
  | v k =>
    exact hI.go hs hσ trivial hfs fun T hT => .of_step (hspec T hT)
  | l i =>
    refine enterSlot_ok hI hs hσ hfs hw fun T hT => ?_
    rw [hspec T hT]
    simp only [Sem.resolve]
    cases lookup (G (A ++ B) env) i <;> rfl
  | g i =>
    refine enterSlot_ok hI hs hσ hfs (wf_globals hσ) fun T hT => ?_
    rw [hspec T hT]
    simp only [Sem.resolve, global_lookup hσ]
    cases lookup (G (A ++ B) (globalsEnv P)) i <;> rfl

/-- An error at once. -/
theorem err_ok {P : Prog K} {V : Val K} {A : Ghost K} {s : State K} {c} {used rest x} (hs : s.stack = used ++ rest)
    (hspec : ∀ T, sstep P.toWorld (c, frs A used ++ T) = .err x) : StepOk P V A s c (.error x) := by
  refine .inr ⟨0, .err ?_⟩
  rw [hs, frs_append, List.append_assoc, hspec]

theorem StoreOk.more {P : Prog K} {A : Ghost K} {σ} (h : StoreOk P A σ) : StoreOk P (A ++ []) σ := by simpa using h

theorem StoreOk.length {P : Prog K} {A : Ghost K} {σ} (h : StoreOk P A σ) : σ.length = A.length := by
  have := congrArg List.length h.lens; simpa [Mach.lens] using this

theorem covers_self {P : World K} {A : Ghost K} {v} (h : WfVal (lens A) v) : Covers P A (g A v) v := ⟨h, .inr (.refl _)⟩

/-- Code with values bound around it, as a new frame. -/
theorem saturate_ok {P : Prog K} {V : Val K} {A : Ghost K} {s : State K} {c} (hI : Inv P V A s c)
    {used rest vs ts env} {upd : Bool} {ar : Nat} {code : Syn K} (hs : s.stack = used ++ rest)
    (hw : WfChain (lens A) env) (hc : CoverAll P.toWorld A ts vs)
    (hspec : ∀ T, sstep P.toWorld (c, frs A used ++ T) = .next (.clo ar code (consAll ts (G A env)), T)) :
    StepOk P V A s c (.next ⟨(saturate s.store vs 0 env).1, .clo upd ar code (saturate s.store vs 0 env).2, rest⟩) := by
  simp only [saturate, allocArray]
  rw [hI.store.length, ← hc.length]
  refine hI.go (new := []) (B := [ts]) hs (hI.store.alloc hc.mono) (wf_new hw) (by simp) fun T _ => ?_
  rw [g, G_new hw]
  exact .of_step (hspec T)

theorem bindOne_ok {P : Prog K} {V : Val K} {A : Ghost K} {s : State K} {c} (hI : Inv P V A s c)
    {used rest v t env} {code : Syn K} (hs : s.stack = used ++ rest)
    (hw : WfChain (lens A) env) (hc : Covers P.toWorld A t v)
    (hspec : ∀ T, sstep P.toWorld (c, frs A used ++ T) = .next (.clo 0 code (.cons t (G A env)), T)) :
    StepOk P V A s c (bindOne { s with stack := rest } v code env) :=
  saturate_ok (vs := [v]) (ts := [t]) (upd := false) hI hs hw (.cons hc .nil) hspec

/-- Code already closed over an environment at hand. -/
theorem code_ok {P : Prog K} {V : Val K} {A : Ghost K} {s : State K} {c} (hI : Inv P V A s c)
    {used rest new env} {code : Syn K} (hs : s.stack = used ++ rest)
    (hw : WfChain (lens A) env) (hnew : ∀ k ∈ new, WfCont A k ∧ ∀ e i, k ≠ .update e i)
    (hspec : ∀ T, sstep P.toWorld (c, frs A used ++ T) = .next (.clo 0 code (G A env), frs A new ++ T)) :
    StepOk P V A s c (.next ⟨s.store, .new code env, new ++ rest⟩) := by
  refine hI.go (B := []) hs hI.store.more (by simpa [MVal.new, WfVal] using hw) (by simpa using hnew) fun T _ => ?_
  simp only [List.append_nil, MVal.new, g]
  exact .of_step (hspec T)

/-- A value comes back to a cell that awaits it. -/
theorem update_ok {P : Prog K} {V : Val K} {A : Ghost K} {s : State K} {c} (hI : Inv P V A s c) {env i rest}
    (hc : c = g A s.cur) (hs : s.stack = .update env i :: rest) (hwh : Whnf c = true) :
    StepOk P V A s c (match update s.store env i s.cur with
      | some σ => .next { s with store := σ, stack := rest }
      | none => .error (.badIndex i)) := by
  have hk : WfCont A (.update env i) := hI.stack _ (by rw [hs]; simp)
  obtain ⟨⟨a, p⟩, hcell⟩ := Option.isSome_iff_exists.1 hk.2
  obtain ⟨σ', hu, _⟩ := update_some (v := s.cur) (by rw [hI.store.lens]; exact hk.1) hcell
  rw [hu]
  have hupd := hI.upd
  rw [hs] at hupd
  obtain ⟨n, r, ht, he⟩ := (hupd.1 a p hcell).bwd 0 _ (term_whnf hwh)
  have hcov : Covers P.toWorld A (ghostAt A a p) s.cur := by
    refine ⟨hI.cur, .inr ?_⟩
    cases he with
    | ok he =>
      obtain ⟨hst, _⟩ := ht.done_steps rfl
      rw [← hc]
      exact (Reds.one (.steps hst (.refl _))).trans he
  refine ⟨A, c, ⟨hI.store.update hcell hcov hu, hI.cur, ?_, .inl hc, hupd.2, ?_⟩, .inr ⟨?_, ?_⟩⟩
  · intro k hk; exact hI.stack k (by rw [hs]; simp [hk])
  · have := hI.top
    rw [hs] at this
    exact this
  · rw [hs]; exact .refl _
  · rw [hs]; simp [updates]

/-! ## Intrinsics -/

theorem peeled_leads {P : Prog K} {c : Syn K} {E : Env K} {S} :
    Leads P.toWorld 0 (.clo 0 c E, S) (.clo 0 (peeled P c) E, S) := by
  fun_induction peeled P c with
  | case1 smid body h ih => exact ((Leads.of_step (d := (.clo 0 (.ann smid body) E, S)) rfl).trans ih).weaken (Nat.zero_le _)
  | case2 => exact .refl _
  | case3 => exact .refl _

theorem peeled_hole {P : Prog K} {env} {v : MVal K} (h : isHole v = true) (hv : ∃ u a c, v = .clo u a c env) :
    ∃ u a, v = .clo u a .hole env ∧ peeled P (.hole : Syn K) = .hole := by
  obtain ⟨u, a, c, rfl⟩ := hv
  unfold isHole at h
  split at h
  · rename_i e
    cases e
    exact ⟨_, _, rfl, by simp [peeled]⟩
  · cases h

/-- What is read through references is what they lead to. -/
theorem native_leads {P : Prog K} {A : Ghost K} {σ fuel t v k} (h : StoreOk P A σ) (hc : Covers P.toWorld A t v)
    (hn : nativeOf P σ fuel v = some k) (hf : throughFun P σ fuel v = false) (S) :
    Leads P.toWorld 0 (t, S) (.nat k, S) := by
  induction fuel generalizing t v with
  | zero =>
    cases v with
    | native k' =>
      simp only [nativeOf, Option.some.injEq] at hn
      subst hn
      rcases hc.2 with h' | h'
      · cases h'
      · exact .of_reds h' S
    | clo u a c e => simp [nativeOf] at hn
  | succ n ih =>
    cases v with
    | native k' =>
      simp only [nativeOf, Option.some.injEq] at hn
      subst hn
      rcases hc.2 with h' | h'
      · cases h'
      · exact .of_reds h' S
    | clo u a c e =>
      simp only [nativeOf] at hn
      simp only [throughFun] at hf
      split at hn
      · rename_i r hp
        rw [hp] at hf
        simp only [Bool.or_eq_false_iff, decide_eq_false_iff_not, Nat.not_lt, Nat.le_zero] at hf
        obtain ⟨ha, hf⟩ := hf
        subst ha
        have hr : Reds P.toWorld t (.clo 0 c (G A e)) := by
          rcases hc.2 with h' | h'
          · exfalso
            obtain ⟨u', a', hv, hpp⟩ := peeled_hole (P := P) h' ⟨_, _, _, rfl⟩
            cases hv
            rw [hpp] at hp; cases hp
          · exact h'
        have hres := resolve_covers h hc.1 r
        revert hres hn hf
        cases hx : resolveRef P σ e r with
        | error x => intro hn; cases hn
        | ok w =>
          intro hn hf hres
          dsimp only at hn hf
          generalize hy : Sem.resolve P.toWorld (G A e) r = y at hres
          cases hres with
          | ok hcov =>
            have h1 := Leads.of_reds hr S
            have h2 := h1.trans (peeled_leads (P := P) (c := c) (E := G A e) (S := S))
            rw [hp] at h2
            have h3 := h2.trans (Leads.of_step (P := P.toWorld) (d' := (_, S)) (by simp only [sstep, exec, hy, SRes.of]; rfl))
            exact (h3.trans (ih hcov hn hf)).weaken (Nat.zero_le _)
      · cases hn

theorem natives_nat (ks : List K) : natives (ks.map .nat) = some ks := by
  induction ks with
  | nil => rfl
  | cons k ks ih => simp [natives, ih]

theorem prim_leads {P : Prog K} {A : Ghost K} {σ fuel id t v ts vs ks} (h : StoreOk P A σ)
    (hc : CoverAll P.toWorld A (t :: ts) (v :: vs)) (hn : nativeArgs P σ fuel (v :: vs) = some ks)
    (hf : ∀ w ∈ v :: vs, throughFun P σ fuel w = false) (ds : List K) (S) :
    ∃ k dn, Leads P.toWorld 0 (t, .prim id (ds.map .nat) ts :: S) (.nat k, .prim id dn [] :: S) ∧
      dn ++ [.nat k] = (ds ++ ks).map .nat := by
  induction vs generalizing t v ts ks ds with
  | nil =>
    cases hc with
    | cons h1 h2 =>
      cases h2
      simp only [nativeArgs] at hn
      cases hk : nativeOf P σ fuel v with
      | none => rw [hk] at hn; cases hn
      | some k =>
        rw [hk] at hn
        simp at hn
        subst hn
        exact ⟨k, ds.map .nat, native_leads h h1 hk (hf v (by simp)) _, by simp⟩
  | cons v' vs ih =>
    cases hc with
    | cons h1 h2 =>
      cases ts with
      | nil => cases h2
      | cons t' ts =>
        rw [nativeArgs] at hn
        cases hk : nativeOf P σ fuel v with
        | none => rw [hk] at hn; cases hn
        | some k =>
          rw [hk] at hn
          simp only [Option.map_eq_some_iff] at hn
          obtain ⟨ks', hks, rfl⟩ := hn
          obtain ⟨k', dn, hl, he⟩ := ih h2 hks (fun w hw => hf w (by simp [hw])) (ds ++ [k])
          have hnl := native_leads h h1 hk (hf v (by simp)) (.prim id (ds.map .nat) (t' :: ts) :: S)
          have hst : Leads P.toWorld 1 (.nat k, .prim id (ds.map .nat) (t' :: ts) :: S)
              (t', .prim id ((ds ++ [k]).map .nat) ts :: S) := .of_step (by simp [sstep, give])
          exact ⟨k', dn, ((hnl.trans hst).trans hl).weaken (Nat.zero_le _), by simpa using he⟩

/-- An intrinsic once its arguments are known. -/
theorem runPrim_ok {P : Prog K} {V : Val K} {A : Ghost K} {s : State K} {c fuel} (hI : Inv P V A s c)
    {used rest id vs} (hs : s.stack = used ++ rest)
    (hspec : ∀ ks, nativeArgs P s.store fuel vs = some ks → ∀ T, ∃ v S,
      Leads P.toWorld 0 (c, frs A used ++ T) (v, S) ∧ sstep P.toWorld (v, S) = .of (intrinsic P.toWorld id (ks.map .nat)) T) :
    StepOk P V A s c (runPrim P { s with stack := rest } fuel id vs) := by
  unfold runPrim
  dsimp only
  cases hn : nativeArgs P s.store fuel vs with
  | none => exact .inl rfl
  | some ks =>
    have hspec := hspec ks hn
    dsimp only
    simp only [intrinsic, natives_nat] at hspec
    cases hp : P.prim id ks with
    | ok c' =>
      rw [hp] at hspec
      refine hI.go (new := []) (B := []) hs hI.store.more (wf_root hI.store.more) (by simp) fun T _ => ?_
      obtain ⟨v, S, h1, h2⟩ := hspec T
      simp only [MVal.new, g, G_root hI.store.more]
      have := h1.trans (.of_step h2)
      simpa [frs_nil] using this
    | error x =>
      rw [hp] at hspec
      obtain ⟨v, S, h1, h2⟩ := hspec (frs A rest ++ [.top])
      obtain ⟨n, r, ht, he⟩ := h1.bwd 0 (.error (.prim x)) (.err h2)
      cases he
      refine .inr ⟨n, ?_⟩
      rw [hs, frs_append, List.append_assoc]
      exact ht

end Verif.Mach
