import Verif.MachProps

/-!
# Programs whose runs are fair

A condition on the text of a program under which every run is fair: no function has a bare reference for a body, and no
direct call is without arguments.
-/

namespace Verif.Mach
open Verif.Bc Verif.Env Verif.Sem
variable {K : Type}

/-- A reference, under annotations or not. -/
def bare : Syn K → Bool
  | .ann _ b => bare b
  | .atom _ => true
  | _ => false

mutual
/-- No function in `c` has a bare reference for a body, and no direct call in it is without arguments. -/
def plain : Syn K → Bool
  | .case scr bs fb => plain scr && plainBrs bs && plainFb fb
  | .let_ fs b => plainForms fs && plain b
  | .letrec fs b => plainForms fs && plain b
  | .ann _ b => plain b
  | .demeta s h o => plain s && plain h && plain o
  | .seq s b => plain s && plain b
  | .dapp _ _ args _ => !args.isEmpty
  | _ => true
def plainBrs : Brs K → Bool
  | .nil => true
  | .cons _ b rest => plain b && plainBrs rest
def plainFb : Fb K → Bool
  | .none => true
  | .some b => plain b
def plainForms : Forms K → Bool
  | .nil => true
  | .cons h b rest => plain b && (decide (arity h = 0) || !bare b) && plainForms rest
end

def plainForm (f : Form K) : Bool := plain f.body && (decide (arity f.head = 0) || !bare f.body)

/-- So are the program, its globals, and the code its intrinsics give back. -/
def PlainProg (P : Prog K) (root : Syn K) : Prop :=
  plain root = true ∧ (∀ f ∈ P.globals, plainForm f = true) ∧ ∀ id ks c, P.prim id ks = .ok c → plain c = true

/-! ## What every state keeps -/

def PV : MVal K → Prop
  | .native _ => True
  | .clo _ a c _ => plain c = true ∧ (0 < a → bare c = false)

def PS (σ : Store (MVal K)) : Prop := ∀ row ∈ σ, ∀ v ∈ row, PV v

def PC : Cont K → Prop
  | .branch bs fb _ => plainBrs bs = true ∧ plainFb fb = true
  | .deMeta h o _ => plain h = true ∧ plain o = true
  | .seqBind b _ => plain b = true
  | .fusedRight _ l _ => PV l
  | _ => True

def PState (s : State K) : Prop := PS s.store ∧ PV s.cur ∧ ∀ k ∈ s.stack, PC k

def PStep : Step K → Prop
  | .next s => PState s
  | _ => True

theorem PV.new {c : Syn K} {env} (h : plain c = true) : PV (.new c env) := ⟨h, fun h => absurd h (by simp)⟩

theorem plainForms_mem {fs : Forms K} (h : plainForms fs = true) : ∀ f ∈ forms fs, plainForm f = true := by
  match fs with
  | .nil => intro f hf; simp [forms] at hf
  | .cons hd b rest =>
    simp only [plainForms, Bool.and_eq_true] at h
    intro f hf
    simp only [forms, List.mem_cons] at hf
    rcases hf with rfl | hf
    · simp [plainForm, h.1.1, h.1.2]
    · exact plainForms_mem h.2 f hf

theorem closeForm_pv {f : Form K} {env} (h : plainForm f = true) : PV (closeForm f env) := by
  obtain ⟨hd, b⟩ := f
  simp only [plainForm, Bool.and_eq_true, Bool.or_eq_true, decide_eq_true_eq, Bool.not_eq_true'] at h
  unfold closeForm
  cases hd with
  | thunk => exact ⟨h.1, fun h => absurd h (by simp)⟩
  | value => exact ⟨h.1, fun h => absurd h (by simp)⟩
  | lambda a ann =>
    refine ⟨h.1, fun ha => ?_⟩
    rcases h.2 with h2 | h2
    · simp [arity] at h2; omega
    · exact h2

theorem closeAll_pv {fs : Forms K} {env} (h : plainForms fs = true) :
    ∀ v ∈ (forms fs).map (closeForm · env), PV v := by
  intro v hv
  simp only [List.mem_map] at hv
  obtain ⟨f, hf, rfl⟩ := hv
  exact closeForm_pv (plainForms_mem h f hf)

theorem branch_plain {bs : Brs K} {t b} (h : plainBrs bs = true) (hb : branch bs t = some b) : plain b = true := by
  match bs with
  | .nil => simp [branch] at hb
  | .cons t' b' rest =>
    simp only [plainBrs, Bool.and_eq_true] at h
    simp only [branch] at hb
    split at hb
    · rename_i c hc
      cases hb
      exact branch_plain h.2 hc
    · split at hb
      · cases hb; exact h.1
      · cases hb

theorem PS.append {σ : Store (MVal K)} {vs} (h : PS σ) (hv : ∀ v ∈ vs, PV v) : PS (σ ++ [vs]) := by
  intro row hr
  simp only [List.mem_append, List.mem_singleton] at hr
  rcases hr with hr | rfl
  · exact h row hr
  · exact hv

theorem PS.get {σ : Store (MVal K)} {env i v} (h : PS σ) (hg : get σ env i = some v) : PV v := by
  unfold Env.get at hg
  split at hg
  · unfold Arr.get at hg
    split at hg
    · rw [Option.bind_eq_some_iff] at hg
      obtain ⟨row, hr, hv⟩ := hg
      exact h row (List.mem_of_getElem? hr) v (List.mem_of_getElem? hv)
    · cases hg
  · cases hg

theorem PS.update {σ σ' : Store (MVal K)} {env i v} (h : PS σ) (hv : PV v) (hu : update σ env i v = some σ') : PS σ' := by
  unfold Env.update at hu
  split at hu
  · unfold Arr.set at hu
    split at hu
    · cases hu
    · cases hu
      intro row hr w hw
      obtain ⟨n, hn⟩ := List.mem_iff_getElem?.1 hr
      rw [List.getElem?_modify] at hn
      cases hσ : σ[n]? with
      | none => rw [hσ] at hn; simp at hn
      | some row0 =>
        rw [hσ] at hn
        have h0 := h row0 (List.mem_of_getElem? hσ)
        simp only [Option.map_eq_map, Option.map_some, Option.some.injEq] at hn
        split at hn
        · subst hn
          rcases List.mem_or_eq_of_mem_set hw with hw | rfl
          · exact h0 w hw
          · exact hv
        · subst hn; exact h0 w hw
  · cases hu

theorem PS.cells {σ : Store (MVal K)} (h : PS σ) (a : Arr) : ∀ v ∈ cells σ a, PV v := by
  unfold Mach.cells
  intro v hv
  cases hr : σ[a.id]? with
  | none => rw [hr] at hv; simp at hv
  | some row => rw [hr] at hv; exact h row (List.mem_of_getElem? hr) v hv

section
variable {P : Prog K} {s : State K} {fuel : Nat}

theorem PS.resolve {σ : Store (MVal K)} {env r v} (h : PS σ) (hr : resolveRef P σ env r = .ok v) : PV v := by
  cases r with
  | l i =>
    simp only [resolveRef] at hr
    split at hr
    · rename_i w hg; cases hr; exact h.get hg
    · cases hr
  | g i =>
    simp only [resolveRef] at hr
    split at hr
    · rename_i w hg; cases hr; exact h.get hg
    · cases hr
  | v k => simp only [resolveRef, Except.ok.injEq] at hr; subst hr; trivial

theorem PS.resolves {σ : Store (MVal K)} {env rs vs} (h : PS σ) (hr : resolveRefs P σ env rs = .ok vs) :
    ∀ v ∈ vs, PV v := by
  induction rs generalizing vs with
  | nil => simp only [resolveRefs, Except.ok.injEq] at hr; subst hr; simp
  | cons r rs ih =>
    simp only [resolveRefs] at hr
    split at hr
    · cases hr
    · rename_i v hv
      split at hr
      · cases hr
      · rename_i ws hws
        cases hr
        intro w hw
        simp only [List.mem_cons] at hw
        rcases hw with rfl | hw
        · exact h.resolve hv
        · exact ih hws w hw

theorem pstep_slot {env i x} (h : PState s) : PStep (enterSlot s env i x) := by
  unfold enterSlot
  split
  · trivial
  · rename_i v hg
    split
    · split
      · trivial
      · rename_i σ hup
        refine ⟨h.1.update (PV.new (by rfl)) hup, h.1.get hg, ?_⟩
        intro k hk
        simp only [List.mem_cons] at hk
        rcases hk with rfl | hk
        · trivial
        · exact h.2.2 k hk
    · exact ⟨h.1, h.1.get hg, h.2.2⟩

theorem pstep_ref {env} (r : Ref K) (h : PState s) : PStep (enterRef P s env r) := by
  cases r with
  | l i => exact pstep_slot h
  | g i => exact pstep_slot h
  | v k => exact ⟨h.1, trivial, h.2.2⟩

theorem pstep_callable {env} (r : Ref K) (h : PState s) : PStep (enterCallable P s env r) := by
  cases r with
  | l i => exact pstep_slot h
  | g i => exact pstep_slot h
  | v k => trivial

theorem pstep_bind {v code env} (h : PS s.store) (hk : ∀ k ∈ s.stack, PC k) (hv : PV v) (hc : plain code = true) :
    PStep (bindOne s v code env) := by
  unfold bindOne fromValue allocArray
  exact ⟨h.append (by simpa using hv), PV.new hc, hk⟩

theorem pstep_prim {id vs} (hp : ∀ id ks c, P.prim id ks = .ok c → plain c = true) (h : PS s.store)
    (hk : ∀ k ∈ s.stack, PC k) : PStep (runPrim P s fuel id vs) := by
  unfold runPrim
  split
  · trivial
  · split
    · rename_i c hc
      exact ⟨h, PV.new (hp _ _ _ hc), hk⟩
    · trivial

theorem pstep_pop {env i st} (h : PState s) (hk : ∀ k ∈ st, PC k) (x : Err) :
    PStep (match update s.store env i s.cur with
      | some σ => .next { s with store := σ, stack := st }
      | none => .error x) := by
  split
  · rename_i σ hup
    exact ⟨h.1.update h.2.1 hup, h.2.1, hk⟩
  · trivial

theorem tail_pc {k : Cont K} {st} (h : PState s) (hs : s.stack = k :: st) : PC k ∧ ∀ k ∈ st, PC k := by
  have := h.2.2
  rw [hs] at this
  exact ⟨this k (by simp), fun k' hk' => this k' (by simp [hk'])⟩

theorem push_pc {k : Cont K} {st : List (Cont K)} (hk : PC k) (h : ∀ k ∈ st, PC k) : ∀ k' ∈ k :: st, PC k' := by
  intro k' hk'
  simp only [List.mem_cons] at hk'
  rcases hk' with rfl | hk'
  · exact hk
  · exact h k' hk'

variable (hp : ∀ id ks c, P.prim id ks = .ok c → plain c = true)
include hp

theorem pstep_native {k} (h : PState s) (hcur : s.cur = .native k) : PStep (returnNative P fuel s k) := by
  unfold returnNative
  split <;> rename_i hs
  · trivial
  · obtain ⟨hc, ht⟩ := tail_pc h hs
    split
    · exact pstep_bind h.1 ht trivial hc.2
    · trivial
  · obtain ⟨hc, ht⟩ := tail_pc h hs
    have := pstep_pop (env := by assumption) (i := by assumption) h ht
    rw [← hcur]
    exact this _
  · trivial
  · obtain ⟨hc, ht⟩ := tail_pc h hs
    exact pstep_bind h.1 ht trivial hc.2
  · obtain ⟨hc, ht⟩ := tail_pc h hs
    exact ⟨h.1, PV.new hc, ht⟩
  · obtain ⟨hc, ht⟩ := tail_pc h hs
    exact ⟨h.1, PV.new (by rfl), push_pc trivial ht⟩
  · obtain ⟨hc, ht⟩ := tail_pc h hs
    exact pstep_prim hp h.1 ht

theorem pstep_fun {u a code fenv} (h : PState s) (hcur : s.cur = .clo u (a + 1) code fenv) :
    PStep (returnFun P fuel s (a + 1) code fenv) := by
  have hcode : plain code = true := by have := h.2.1; rw [hcur] at this; exact this.1
  unfold returnFun
  split <;> rename_i hs
  · trivial
  · rename_i args st
    obtain ⟨hc, ht⟩ := tail_pc h hs
    split
    · exact ⟨h.1, PV.new hcode, ht⟩
    · split
      · unfold partially
        dsimp only
        split
        · trivial
        · refine ⟨h.1.append ?_, ⟨by rfl, fun _ => rfl⟩, ht⟩
          intro v hv
          simp only [List.mem_cons] at hv
          rcases hv with rfl | hv
          · exact h.2.1
          · exact h.1.cells _ v hv
      · simp only [saturate, allocArray]
        refine ⟨(h.1.append ?_).append ?_, PV.new hcode, push_pc trivial ht⟩
        · intro v hv; exact h.1.cells args v (List.mem_of_mem_take hv)
        · intro v hv; exact h.1.cells args v (List.mem_of_mem_drop hv)
  · obtain ⟨hc, ht⟩ := tail_pc h hs
    split
    · exact pstep_bind h.1 ht h.2.1 hc.2
    · trivial
  · obtain ⟨hc, ht⟩ := tail_pc h hs
    exact pstep_pop h ht _
  · obtain ⟨hc, ht⟩ := tail_pc h hs
    exact pstep_bind h.1 ht h.2.1 hc.2
  · obtain ⟨hc, ht⟩ := tail_pc h hs
    exact ⟨h.1, PV.new hc, ht⟩
  · obtain ⟨hc, ht⟩ := tail_pc h hs
    exact ⟨h.1, PV.new (by rfl), push_pc h.2.1 ht⟩
  · obtain ⟨hc, ht⟩ := tail_pc h hs
    exact pstep_prim hp h.1 ht

omit hp in
theorem dataEnv_ps {σ σ' : Store (MVal K)} {cons args next env} (hσ : PS σ)
    (h : dataEnv P σ cons args next = .ok (σ', env)) : PS σ' := by
  unfold dataEnv at h
  split at h
  · cases h
  · split at h
    · cases h; exact hσ
    · cases h; exact hσ
    · split at h
      · cases h
      · rename_i vs hvs
        cases h
        exact hσ.append (hσ.resolves hvs)

omit hp in
theorem boxed_pv {tag args env v} {σ : Store (MVal K)} (hσ : PS σ) (h : boxedField P σ tag args env = .ok (some v)) : PV v := by
  unfold boxedField at h
  split at h
  · split at h
    · cases h
    · split at h
      · rename_i w hw; cases h; exact hσ.resolve hw
      · cases h
  · cases h

theorem pstep_data {u t as cenv} (h : PState s) (_ : s.cur = .clo u 0 (.cons t as) cenv) :
    PStep (returnData P fuel s t as cenv) := by
  unfold returnData
  split <;> rename_i hs
  · trivial
  · obtain ⟨hc, ht⟩ := tail_pc h hs
    split
    · rename_i body hb
      split
      · rename_i σ env' he
        refine ⟨?_, PV.new (branch_plain hc.1 hb), ht⟩
        split at he
        · cases he; exact h.1
        · exact dataEnv_ps h.1 he
      · trivial
    · split
      · exact pstep_bind h.1 ht h.2.1 hc.2
      · trivial
  · obtain ⟨hc, ht⟩ := tail_pc h hs
    exact pstep_pop h ht _
  · rename_i args st
    obtain ⟨hc, ht⟩ := tail_pc h hs
    split
    · simp only [allocArray]
      refine pstep_callable _ ⟨h.1.append ?_, h.2.1, push_pc trivial ht⟩
      intro v hv
      simp only [List.mem_append, List.mem_singleton] at hv
      rcases hv with hv | rfl
      · exact h.1.cells args v hv
      · exact h.2.1
    · trivial
  · obtain ⟨hc, ht⟩ := tail_pc h hs
    exact pstep_bind h.1 ht h.2.1 hc.2
  · obtain ⟨hc, ht⟩ := tail_pc h hs
    exact ⟨h.1, PV.new hc, ht⟩
  · obtain ⟨hc, ht⟩ := tail_pc h hs
    split
    · trivial
    · rename_i v hv
      exact ⟨h.1, boxed_pv h.1 hv, h.2.2⟩
    · exact ⟨h.1, PV.new (by rfl), push_pc h.2.1 ht⟩
  · obtain ⟨hc, ht⟩ := tail_pc h hs
    split
    · trivial
    · rename_i v hv
      exact ⟨h.1, boxed_pv h.1 hv, h.2.2⟩
    · exact pstep_prim hp h.1 ht

omit hp in
theorem pstep_meta {m b env} (h : PState s) : PStep (returnMeta P s m b env) := by
  unfold returnMeta
  split <;> rename_i hs
  · split
    · trivial
    · exact pstep_ref b h
  · obtain ⟨hc, ht⟩ := tail_pc h hs
    split
    · trivial
    · rename_i vs hvs
      exact ⟨h.1.append (h.1.resolves hvs), PV.new hc.1, ht⟩
  · obtain ⟨hc, ht⟩ := tail_pc h hs
    exact pstep_pop h ht _
  · exact pstep_ref b h

omit hp in
theorem makeArgs_pv {σ : Store (MVal K)} {env eager rs vs} (hσ : PS σ) (h : makeArgs P σ env eager rs = .ok vs) :
    ∀ v ∈ vs, PV v := by
  induction rs generalizing vs with
  | nil => simp only [makeArgs, Except.ok.injEq] at h; subst h; simp
  | cons r rs ih =>
    simp only [makeArgs] at h
    split at h
    · cases h
    · rename_i v hv
      split at h
      · cases h
      · rename_i ws hws
        cases h
        intro w hw
        simp only [List.mem_cons] at hw
        rcases hw with rfl | hw
        · cases r with
          | l i =>
            dsimp only at hv
            split at hv
            · rename_i x hg
              split at hv
              · cases hv; exact hσ.get hg
              · cases hv; exact PV.new rfl
            · split at hv
              · cases hv
              · cases hv; exact PV.new rfl
          | g i => cases hv; exact PV.new rfl
          | v k => cases hv; exact PV.new rfl
        · exact ih hws w hw

omit hp in
theorem pstep_direct {env f vs} (h : PState s) (hv : ∀ v ∈ vs, PV v) : PStep (directApp P s env f vs) := by
  have hσ : PS (s.store ++ [vs]) := h.1.append hv
  have go : ∀ cenv i x a, PStep (match get (s.store ++ [vs]) cenv i with
          | none => .error x
          | some (.native _) => .error .notCallable
          | some (.clo upd ar c fenv) =>
            if upd then
              match update (s.store ++ [vs]) cenv i (.new .hole cenv) with
              | none => .error x
              | some σ => .next ⟨σ, .clo upd ar c fenv, .update cenv i :: .applyTo a :: s.stack⟩
            else if ar = a.len then .next ⟨s.store ++ [vs], .new c (Frame.new a 0 :: fenv), s.stack⟩
            else .next ⟨s.store ++ [vs], .clo upd ar c fenv, .applyTo a :: s.stack⟩) := by
    intro cenv i x a
    split
    · trivial
    · trivial
    · rename_i upd ar c fenv hg
      have hvv := hσ.get hg
      split
      · split
        · trivial
        · rename_i σ hup
          exact ⟨hσ.update (PV.new rfl) hup, hvv, push_pc trivial (push_pc trivial h.2.2)⟩
      · split
        · exact ⟨hσ, PV.new hvv.1, h.2.2⟩
        · exact ⟨hσ, hvv, push_pc trivial h.2.2⟩
  unfold directApp
  simp only [allocArray]
  cases f with
  | l i => exact go env i _ _
  | g i => exact go (globalsEnv P) i _ _
  | v k => trivial

theorem pstep_op {u code env} (h : PState s) (hcur : s.cur = .clo u 0 code env) : PStep (handleOp P fuel s code env) := by
  have hcode : plain code = true := by have := h.2.1; rw [hcur] at this; exact this.1
  unfold handleOp
  cases code with
  | atom r => exact pstep_ref r h
  | cons t as => exact pstep_data hp h hcur
  | «bif» id args =>
    dsimp only
    split
    · trivial
    · exact pstep_prim hp h.1 h.2.2
  | case scr bs fb =>
    simp only [plain, Bool.and_eq_true] at hcode
    exact ⟨h.1, PV.new hcode.1.1, push_pc ⟨hcode.1.2, hcode.2⟩ h.2.2⟩
  | seq scr b =>
    simp only [plain, Bool.and_eq_true] at hcode
    exact ⟨h.1, PV.new hcode.1, push_pc hcode.2 h.2.2⟩
  | fused => exact ⟨h.1, PV.new rfl, push_pc trivial h.2.2⟩
  | demeta scr hd o =>
    simp only [plain, Bool.and_eq_true] at hcode
    exact ⟨h.1, PV.new hcode.1.1, push_pc ⟨hcode.1.2, hcode.2⟩ h.2.2⟩
  | ann _ b => exact ⟨h.1, PV.new (by simpa [plain] using hcode), h.2.2⟩
  | hole => trivial
  | lookup => trivial
  | metaOf m b => exact pstep_meta h
  | app f args eager =>
    dsimp only
    split
    · trivial
    · rename_i vs hvs
      simp only [allocArray]
      exact pstep_callable f ⟨h.1.append (makeArgs_pv h.1 hvs), h.2.1, push_pc trivial h.2.2⟩
  | dapp smid f args eager =>
    dsimp only
    split
    · trivial
    · rename_i vs hvs
      exact pstep_direct h (makeArgs_pv h.1 hvs)
  | let_ fs body =>
    simp only [plain, Bool.and_eq_true] at hcode
    exact ⟨h.1.append (closeAll_pv hcode.1), PV.new hcode.2, h.2.2⟩
  | letrec fs body =>
    simp only [plain, Bool.and_eq_true] at hcode
    exact ⟨h.1.append (closeAll_pv hcode.1), PV.new hcode.2, h.2.2⟩

theorem pstep (h : PState s) : PStep (step P fuel s) := by
  unfold step
  rcases hcur : s.cur with k | ⟨u, _ | a, code, env⟩
  · exact pstep_native hp h hcur
  · exact pstep_op hp h hcur
  · exact pstep_fun hp h hcur

theorem preaches {s' : State K} (h : PState s) (hr : Reaches P fuel s s') : PState s' := by
  induction hr with
  | refl => exact h
  | step hs _ ih =>
    refine ih ?_
    have := pstep (fuel := fuel) hp h
    rw [hs] at this
    exact this
end

theorem bare_peeled {P : Prog K} {c : Syn K} {r} (h : peeled P c = .atom r) : bare c = true := by
  induction c using peeled.induct P with
  | case1 smid body hp ih =>
    simp only [peeled, hp, if_true] at h
    simpa [bare] using ih h
  | case2 smid body hp => simp [peeled, hp] at h
  | case3 c hc =>
    cases c <;> simp_all [peeled, bare]

theorem through_plain {P : Prog K} {σ : Store (MVal K)} (hσ : PS σ) (n : Nat) {v : MVal K} (hv : PV v) :
    throughFun P σ n v = false := by
  induction n generalizing v with
  | zero => rfl
  | succ n ih =>
    cases v with
    | native => rfl
    | clo u a c env =>
      simp only [throughFun]
      split
      · rename_i r hr
        have hb := bare_peeled hr
        have ha : ¬ 0 < a := fun ha => by rw [hv.2 ha] at hb; cases hb
        simp only [gt_iff_lt, ha, decide_false, Bool.false_or]
        split
        · rename_i w hw; exact ih (hσ.resolve hw)
        · rfl
      · rfl

theorem init_pstate {P : Prog K} {root : Syn K} (h : PlainProg P root) : PState (init P root) := by
  refine ⟨?_, PV.new h.1, by simp [init]⟩
  intro row hr v hv
  simp only [init, List.mem_cons, List.not_mem_nil, or_false] at hr
  rcases hr with rfl | rfl
  · simp at hv
  · simp only [List.mem_map] at hv
    obtain ⟨f, hf, rfl⟩ := hv
    exact closeForm_pv (h.2.1 f hf)

theorem fair_plain {P : Prog K} {s : State K} (fuel : Nat) (h : PState s) : Fair P fuel s := by
  constructor
  · intro v hv
    refine through_plain h.1 fuel ?_
    unfold primArgs at hv
    split at hv
    · split at hv
      · rename_i vs hvs; exact h.1.resolves hvs v hv
      · simp at hv
    · rename_i hs _
      have := (tail_pc h hs).1
      simp only [List.mem_cons, List.not_mem_nil, or_false] at hv
      rcases hv with rfl | rfl
      · exact this
      · exact h.2.1
    · simp at hv
  · unfold emptyCall
    split
    · rename_i hcur
      have := h.2.1
      rw [hcur] at this
      simp [PV, plain] at this
    · rfl

/-- Every run of a plain program is fair. -/
theorem plain_fair (P : Prog K) (root : Syn K) (fuel : Nat) (h : PlainProg P root) : FairRun P fuel (init P root) :=
  fun _ hr => fair_plain fuel (preaches h.2.2 (init_pstate h) hr)

/-! ## C50 and C52 for plain programs -/

/-- C50 from the text of the program alone: a value is the program's value. -/
theorem plain_value (P : Prog K) (root : Syn K) (hp : PlainProg P root) (fuel n : Nat) (s : State K)
    (h : run P fuel n (init P root) = some (.value s)) : ∃ x, showOf s.cur = some x ∧ Means P.toWorld root x :=
  machine_value_partial P root fuel n s (plain_fair P root fuel hp) h

/-- C50 from the text of the program alone: an end that is no limit of the machine and no black hole is what the program
means, and the only thing it means. -/
theorem plain_complete_partial (P : Prog K) (root : Syn K) (hp : PlainProg P root) (fuel : Nat) (x : Seen K)
    (h : Means P.toWorld root x) :
    (∃ n s, run P fuel n (init P root) = some (.value s) ∧ showOf s.cur = some x) ∨
    (∃ n e, run P fuel n (init P root) = some (.error e) ∧ (x = .error e ∨ Err.limit e = true ∨ e = .hole)) :=
  machine_complete_partial P root fuel x (plain_fair P root fuel hp) h

/-- C52 where it holds: in a run of a plain program an intrinsic given a function does not read it. -/
theorem prim_refuses_function_partial (P : Prog K) (root : Syn K) (hp : PlainProg P root) (fuel : Nat) (s : State K)
    (hr : Reaches P fuel (init P root) s) (v : MVal K) (hv : v ∈ primArgs P s) (u : Bool) (a : Nat) (c : Syn K)
    (env : Chain) (he : v = .clo u (a + 1) c env) (n : Nat) : nativeOf P s.store n v = none := by
  have hf := plain_fair P root (n + 1) hp
  have h : PState s := preaches hp.2.2 (init_pstate hp) hr
  have ht := (fair_plain (P := P) (n + 1) h).1 v hv
  subst he
  cases n with
  | zero => rfl
  | succ n =>
    simp only [throughFun] at ht
    simp only [nativeOf]
    split
    · rename_i r hr'
      rw [hr'] at ht
      simp at ht
    · rfl

open Ex in
theorem double_plain : PlainProg (world double) shared := by
  refine ⟨by decide +kernel, by decide +kernel, ?_⟩
  intro id ks c h
  simp only [world] at h
  split at h
  · cases h; rfl
  · cases h

/-- `1 + (\ x y -> x + y)`: an intrinsic given a function it does not read. -/
def Ex.refused : Syn Nat := .letrec (.cons (.lambda 2 0) (.fused 0 (.l 0) (.l 1)) .nil) (.bif 0 [.v 1, .l 0])

open Ex in
example : PlainProg (world double) refused ∧ out (world double) refused = some (.error .argShape) :=
  ⟨⟨by decide +kernel, double_plain.2⟩, by decide +kernel⟩

end Verif.Mach
