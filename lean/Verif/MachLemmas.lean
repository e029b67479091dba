import Verif.MachModel
import Verif.SemRed

/-!
# The machine's heap, read as values

Proofs only.  Every cell of every array is given once and for all the value it stands for (`Ghost`); what is in the cell
may change, but always stands for that value or is a black hole (`StoreOk`).
-/

namespace Verif.Mach
open Verif.Bc Verif.Env Verif.Sem
variable {K : Type}

abbrev Ghost (K : Type) := List (List (Val K))

def nothing : Val K := .clo 0 .hole .nil

def ghostAt (A : Ghost K) (a : Arr) (i : Nat) : Val K := (((A[a.id]?).getD [])[i]?).getD nothing

def row (A : Ghost K) (a : Arr) : List (Val K) := (A[a.id]?).getD []

def frameVals (A : Ghost K) (f : Frame) : List (Val K) :=
  (List.range f.logicalLen).map fun i => ghostAt A f.bindings (f.physicalIndex i)

/-- What the names of an environment stand for. -/
def G (A : Ghost K) : Chain → Env K
  | [] => .nil
  | f :: ch => consAll (frameVals A f) (G A ch)

/-- What a value stands for. -/
def g (A : Ghost K) : MVal K → Val K
  | .native k => .nat k
  | .clo _ a c env => .clo a c (G A env)

def lens {C : Type} (σ : List (List C)) : List Nat := σ.map List.length

def WfArr (L : List Nat) (a : Arr) : Prop := L[a.id]? = some a.len

def WfFrame (L : List Nat) (f : Frame) : Prop :=
  WfArr L f.bindings ∧ ∀ i, i < f.logicalLen → f.physicalIndex i < f.bindings.len

def WfChain (L : List Nat) (ch : Chain) : Prop := ∀ f ∈ ch, WfFrame L f

def WfVal (L : List Nat) : MVal K → Prop
  | .native _ => True
  | .clo _ _ _ env => WfChain L env

def isHole : MVal K → Bool
  | .clo false 0 .hole _ => true
  | _ => false

/-- `v` may be in a cell that stands for `t`. -/
def Covers (P : World K) (A : Ghost K) (t : Val K) (v : MVal K) : Prop :=
  WfVal (lens A) v ∧ (isHole v = true ∨ Reds P t (g A v))

def content (σ : Store (MVal K)) (id p : Nat) : Option (MVal K) := (σ[id]?).bind (·[p]?)

structure StoreOk (P : Prog K) (A : Ghost K) (σ : Store (MVal K)) : Prop where
  lens : lens σ = lens A
  cells : ∀ a p v, content σ a.id p = some v → Covers P.toWorld A (ghostAt A a p) v
  root : A[0]? = some []
  globals : A[1]? = some (P.globals.map (close · .nil))

/-! ## Environments -/

theorem lookup_consAll (vs : List (Val K)) (e : Env K) (i : Nat) :
    lookup (consAll vs e) i = if i < vs.length then vs[i]? else lookup e (i - vs.length) := by
  induction vs generalizing i with
  | nil => simp [consAll]
  | cons v vs ih =>
    cases i with
    | zero => simp [consAll, lookup]
    | succ i =>
      have : consAll (v :: vs) e = .cons v (consAll vs e) := rfl
      rw [this, lookup]
      simp only [Nat.succ_ne_zero, if_false, Nat.add_sub_cancel, ih, List.length_cons, Nat.add_lt_add_iff_right,
        List.getElem?_cons_succ, Nat.add_sub_add_right]

theorem frameVals_length (A : Ghost K) (f : Frame) : (frameVals A f).length = f.logicalLen := by simp [frameVals]

theorem lookup_G (A : Ghost K) (ch : Chain) (i : Nat) :
    lookup (G A ch) i = (cell ch i).map fun (a, p) => ghostAt A a p := by
  induction ch generalizing i with
  | nil => rfl
  | cons f ch ih =>
    simp only [G, lookup_consAll, frameVals_length, cell]
    split
    · rename_i h; simp [frameVals, h]
    · exact ih _

theorem cell_wf {L : List Nat} {ch : Chain} {i a p} (h : WfChain L ch) (hc : cell ch i = some (a, p)) :
    WfArr L a ∧ p < a.len := by
  induction ch generalizing i with
  | nil => simp [cell] at hc
  | cons f ch ih =>
    simp only [cell] at hc
    split at hc
    · rename_i hi
      simp only [Option.some.injEq, Prod.mk.injEq] at hc
      obtain ⟨rfl, rfl⟩ := hc
      have := h f (by simp)
      exact ⟨this.1, this.2 i hi⟩
    · exact ih (fun f hf => h f (by simp [hf])) hc

theorem arr_get {σ : Store (MVal K)} {a : Arr} {p} (h : WfArr (lens σ) a) (hp : p < a.len) :
    ∃ v, a.get σ p = some v ∧ content σ a.id p = some v := by
  unfold WfArr lens at h
  rw [List.getElem?_map, Option.map_eq_some_iff] at h
  obtain ⟨r, hr, hl⟩ := h
  have : p < r.length := by omega
  refine ⟨r[p], ?_, ?_⟩
  · simp [Arr.get, hp, hr, this]
  · simp [content, hr, this]

theorem get_none {σ : Store (MVal K)} {ch i} (h : WfChain (lens σ) ch) (hg : get σ ch i = none) : cell ch i = none := by
  unfold Env.get at hg
  split at hg
  · rename_i a p hc
    obtain ⟨h1, h2⟩ := cell_wf h hc
    obtain ⟨v, hv, _⟩ := arr_get h1 h2
    rw [hv] at hg; cases hg
  · assumption

theorem get_some {σ : Store (MVal K)} {ch i v} (hg : get σ ch i = some v) :
    ∃ a p, cell ch i = some (a, p) ∧ content σ a.id p = some v := by
  unfold Env.get at hg
  split at hg
  · rename_i a p hc
    refine ⟨a, p, hc, ?_⟩
    unfold Arr.get at hg
    split at hg
    · exact hg
    · cases hg
  · cases hg

/-! ## More arrays -/

theorem lens_append {C : Type} (a b : List (List C)) : lens (a ++ b) = lens a ++ lens b := by simp [lens]

theorem WfArr.mono {L M : List Nat} {a} (h : WfArr L a) : WfArr (L ++ M) a := by
  unfold WfArr at h ⊢
  rw [List.getElem?_append_left (by have := List.getElem?_eq_some_iff.1 h; exact this.1), h]

theorem WfFrame.mono {L M : List Nat} {a} (h : WfFrame L a) : WfFrame (L ++ M) a := ⟨h.1.mono, h.2⟩
theorem WfChain.mono {L M : List Nat} {a} (h : WfChain L a) : WfChain (L ++ M) a := fun f hf => (h f hf).mono

theorem WfVal.mono {L M : List Nat} {v : MVal K} (h : WfVal L v) : WfVal (L ++ M) v := by
  cases v with
  | native k => trivial
  | clo u a c e => exact WfChain.mono h

theorem wfArr_lt {A : Ghost K} {a} (h : WfArr (lens A) a) : a.id < A.length := by
  have := List.getElem?_eq_some_iff.1 h
  simpa [lens] using this.1

theorem ghostAt_mono {A B : Ghost K} {a p} (h : WfArr (lens A) a) : ghostAt (A ++ B) a p = ghostAt A a p := by
  simp [ghostAt, List.getElem?_append_left (wfArr_lt h)]

theorem row_mono {A B : Ghost K} {a} (h : WfArr (lens A) a) : row (A ++ B) a = row A a := by
  simp [row, List.getElem?_append_left (wfArr_lt h)]

theorem G_mono {A B : Ghost K} {ch} (h : WfChain (lens A) ch) : G (A ++ B) ch = G A ch := by
  induction ch with
  | nil => rfl
  | cons f ch ih =>
    have h1 := h f (by simp)
    have h2 := ih fun f hf => h f (by simp [hf])
    simp only [G, h2, frameVals, ghostAt_mono h1.1]

theorem g_mono {A B : Ghost K} {v : MVal K} (h : WfVal (lens A) v) : g (A ++ B) v = g A v := by
  cases v with
  | native k => rfl
  | clo u a c e => simp only [g, G_mono h]

theorem Covers.mono {P : World K} {A B : Ghost K} {t v} (h : Covers P A t v) : Covers P (A ++ B) t v := by
  refine ⟨by rw [lens_append]; exact h.1.mono, ?_⟩
  rw [g_mono h.1]; exact h.2

theorem row_wf {A : Ghost K} {a} (h : WfArr (lens A) a) : A[a.id]? = some (row A a) ∧ (row A a).length = a.len := by
  unfold WfArr lens at h
  rw [List.getElem?_map, Option.map_eq_some_iff] at h
  obtain ⟨r, hr, hl⟩ := h
  simp [row, hr, hl]

/-! ## Cells -/

inductive CoverAll (P : World K) (A : Ghost K) : List (Val K) → List (MVal K) → Prop where
  | nil : CoverAll P A [] []
  | cons {t v ts vs} : Covers P A t v → CoverAll P A ts vs → CoverAll P A (t :: ts) (v :: vs)

theorem CoverAll.length {P : World K} {A : Ghost K} {ts vs} (h : CoverAll P A ts vs) : ts.length = vs.length := by
  induction h with
  | nil => rfl
  | cons _ _ ih => simp [ih]

theorem CoverAll.get {P : World K} {A : Ghost K} {ts vs} (h : CoverAll P A ts vs) {p : Nat} {v} (hv : vs[p]? = some v) :
    Covers P A ((ts[p]?).getD nothing) v := by
  induction h generalizing p with
  | nil => simp at hv
  | cons h _ ih => cases p with
    | zero => simp at hv; subst hv; simpa using h
    | succ p => simpa using ih (by simpa using hv)

theorem CoverAll.mono {P : World K} {A B : Ghost K} {ts vs} (h : CoverAll P A ts vs) : CoverAll P (A ++ B) ts vs := by
  induction h with
  | nil => exact .nil
  | cons h _ ih => exact .cons h.mono ih

theorem CoverAll.append {P : World K} {A : Ghost K} {ts vs ts' vs'} (h : CoverAll P A ts vs) (h' : CoverAll P A ts' vs') :
    CoverAll P A (ts ++ ts') (vs ++ vs') := by
  induction h with
  | nil => exact h'
  | cons h _ ih => exact .cons h ih

theorem CoverAll.take {P : World K} {A : Ghost K} {ts vs} (h : CoverAll P A ts vs) (n : Nat) :
    CoverAll P A (ts.take n) (vs.take n) := by
  induction h generalizing n with
  | nil => simpa using CoverAll.nil
  | cons h _ ih => cases n with
    | zero => exact .nil
    | succ n => exact .cons h (ih n)

theorem CoverAll.drop {P : World K} {A : Ghost K} {ts vs} (h : CoverAll P A ts vs) (n : Nat) :
    CoverAll P A (ts.drop n) (vs.drop n) := by
  induction h generalizing n with
  | nil => simpa using CoverAll.nil
  | cons h t ih => cases n with
    | zero => exact .cons h t
    | succ n => exact ih n

/-- A new array. -/
theorem StoreOk.alloc {P : Prog K} {A : Ghost K} {σ ts vs} (h : StoreOk P A σ)
    (hc : CoverAll P.toWorld (A ++ [ts]) ts vs) : StoreOk P (A ++ [ts]) (σ ++ [vs]) := by
  have hlen : σ.length = A.length := by have := congrArg List.length h.lens; simpa [Mach.lens] using this
  refine ⟨?_, ?_, ?_, ?_⟩
  · rw [lens_append, lens_append, h.lens]; simp [Mach.lens, hc.length]
  · intro a p v hv
    unfold content at hv
    by_cases ha : a.id < σ.length
    · rw [List.getElem?_append_left ha] at hv
      have := h.cells a p v hv
      have e : ghostAt (A ++ [ts]) a p = ghostAt A a p := by
        simp [ghostAt, List.getElem?_append_left (show a.id < A.length by omega)]
      rw [e]; exact this.mono
    · rw [List.getElem?_append_right (by omega)] at hv
      by_cases he : a.id = σ.length
      · simp only [he, Nat.sub_self, List.getElem?_cons_zero, Option.bind_some] at hv
        have := hc.get hv
        have e : ghostAt (A ++ [ts]) a p = (ts[p]?).getD nothing := by
          simp [ghostAt, he, hlen]
        rw [e]; exact this
      · have : ([vs] : Store (MVal K))[a.id - σ.length]? = none := by simp; omega
        rw [this] at hv; simp at hv
  · have := h.root
    rw [List.getElem?_append_left (by have := List.getElem?_eq_some_iff.1 this; exact this.1), this]
  · have := h.globals
    rw [List.getElem?_append_left (by have := List.getElem?_eq_some_iff.1 this; exact this.1), this]

theorem lens_modify_set {σ : Store (MVal K)} {id p v} : lens (σ.modify id (·.set p v)) = lens σ := by
  apply List.ext_getElem?
  intro i
  simp only [lens, List.getElem?_map, List.getElem?_modify]
  cases σ[i]? <;> simp
  split <;> simp

theorem content_modify {σ : Store (MVal K)} {id p v id' p'} :
    content (σ.modify id (·.set p v)) id' p' =
      if id' = id ∧ p' = p ∧ (content σ id p).isSome then some v else content σ id' p' := by
  unfold content
  rw [List.getElem?_modify]
  by_cases h : id = id'
  · subst h
    cases hr : σ[id]? with
    | none => simp
    | some r =>
      simp only [Option.map_eq_map, Option.map_some, Option.bind_some, if_true, true_and]
      rw [List.getElem?_set]
      by_cases hp : p = p'
      · subst hp
        by_cases hl : p < r.length <;> simp [hl]
      · have hp' : ¬ p' = p := fun h => hp h.symm
        simp [hp, hp']
  · have h' : ¬ id' = id := fun h2 => h h2.symm
    simp [h, h']

/-- A cell changed for something that stands for the same. -/
theorem StoreOk.update {P : Prog K} {A : Ghost K} {σ σ' ch i a p v} (h : StoreOk P A σ) (hcell : cell ch i = some (a, p))
    (hv : Covers P.toWorld A (ghostAt A a p) v) (hu : update σ ch i v = some σ') : StoreOk P A σ' := by
  unfold Env.update at hu
  rw [hcell] at hu
  simp only [Arr.set] at hu
  split at hu
  · cases hu
  · simp only [Option.some.injEq] at hu
    subst hu
    refine ⟨by rw [lens_modify_set]; exact h.lens, ?_, h.root, h.globals⟩
    intro b q w hw
    rw [content_modify] at hw
    split at hw
    · rename_i hb
      simp only [Option.some.injEq] at hw
      subst hw
      have e : ghostAt A b q = ghostAt A a p := by simp [ghostAt, hb.1, hb.2.1]
      rw [e]; exact hv
    · exact h.cells b q w hw

theorem update_some {σ : Store (MVal K)} {ch i a p v} (h : WfChain (lens σ) ch) (hcell : cell ch i = some (a, p)) :
    ∃ σ', update σ ch i v = some σ' ∧ content σ' a.id p = some v := by
  obtain ⟨h1, h2⟩ := cell_wf h hcell
  obtain ⟨w, _, hw⟩ := arr_get h1 h2
  refine ⟨σ.modify a.id (·.set p v), ?_, ?_⟩
  · simp [Env.update, hcell, Arr.set, Nat.not_le.2 h2]
  · rw [content_modify, hw]; simp

/-! ## Names -/

theorem G_root {P : Prog K} {A : Ghost K} {σ} (_ : StoreOk P A σ) : G A rootEnv = .nil := by
  simp [G, rootEnv, frameVals, Frame.new, Frame.logicalLen, consAll]

theorem wf_root {P : Prog K} {A : Ghost K} {σ} (h : StoreOk P A σ) : WfChain (lens A) rootEnv := by
  intro f hf
  simp only [rootEnv, List.mem_singleton] at hf
  subst hf
  refine ⟨?_, ?_⟩
  · simp [WfArr, Frame.new, lens, h.root]
  · simp [Frame.new, Frame.logicalLen]

theorem wf_globals {P : Prog K} {A : Ghost K} {σ} (h : StoreOk P A σ) : WfChain (lens A) (globalsEnv P) := by
  intro f hf
  simp only [globalsEnv, List.mem_cons] at hf
  rcases hf with rfl | hf
  · refine ⟨?_, ?_⟩
    · simp [WfArr, Frame.new, lens, h.globals]
    · simp [Frame.new, Frame.logicalLen, Frame.physicalIndex]
  · exact wf_root h f hf

theorem ghost_globals {P : Prog K} {A : Ghost K} {σ} (h : StoreOk P A σ) (i : Nat) :
    (cell (globalsEnv P) i).map (fun (a, p) => ghostAt A a p) = (P.globals[i]?).map (close · .nil) := by
  by_cases hi : i < P.globals.length
  · simp [globalsEnv, rootEnv, cell, Frame.new, Frame.logicalLen, Frame.physicalIndex, hi, ghostAt, h.globals]
  · have : P.globals[i]? = none := by simp; omega
    simp [globalsEnv, rootEnv, cell, Frame.new, Frame.logicalLen, hi]

theorem get_covers {P : Prog K} {A : Ghost K} {σ ch i v} (h : StoreOk P A σ) (hg : get σ ch i = some v) :
    ∃ a p, cell ch i = some (a, p) ∧ content σ a.id p = some v ∧ Covers P.toWorld A (ghostAt A a p) v := by
  obtain ⟨a, p, hc, hv⟩ := get_some hg
  exact ⟨a, p, hc, hv, h.cells a p v hv⟩

inductive RelX {A B : Type} (R : A → B → Prop) : Except Err A → Except Err B → Prop where
  | ok {v v'} : R v v' → RelX R (.ok v) (.ok v')
  | error (x) : RelX R (.error x) (.error x)

theorem resolve_covers {P : Prog K} {A : Ghost K} {σ env} (h : StoreOk P A σ) (hw : WfChain (lens A) env) (r : Ref K) :
    RelX (Covers P.toWorld A) (Sem.resolve P.toWorld (G A env) r) (resolveRef P σ env r) := by
  cases r with
  | v k => exact .ok ⟨trivial, .inr (.refl _)⟩
  | l i =>
    simp only [Sem.resolve, resolveRef, lookup_G]
    cases hg : get σ env i with
    | none =>
      rw [get_none (by rw [h.lens]; exact hw) hg]
      exact .error _
    | some v =>
      obtain ⟨a, p, hc, _, hv⟩ := get_covers h hg
      rw [hc]
      exact .ok hv
  | g i =>
    simp only [Sem.resolve, resolveRef, global]
    have hgl := ghost_globals h i
    cases hg : get σ (globalsEnv P) i with
    | none =>
      rw [get_none (by rw [h.lens]; exact wf_globals h) hg] at hgl
      cases hf : P.globals[i]? with
      | none => exact .error _
      | some f => rw [hf] at hgl; simp at hgl
    | some v =>
      obtain ⟨a, p, hc, _, hv⟩ := get_covers h hg
      rw [hc] at hgl
      cases hf : P.globals[i]? with
      | none => rw [hf] at hgl; simp at hgl
      | some f =>
        rw [hf] at hgl
        simp only [Option.map_some, Option.some.injEq] at hgl
        rw [hgl] at hv
        exact .ok hv

theorem resolves_covers {P : Prog K} {A : Ghost K} {σ env} (h : StoreOk P A σ) (hw : WfChain (lens A) env)
    (rs : List (Ref K)) :
    RelX (CoverAll P.toWorld A) (resolveAll P.toWorld (G A env) rs) (resolveRefs P σ env rs) := by
  induction rs with
  | nil => exact .ok .nil
  | cons r rs ih =>
    simp only [resolveAll, resolveRefs]
    have := resolve_covers h hw r
    revert this
    generalize Sem.resolve P.toWorld (G A env) r = x
    generalize resolveRef P σ env r = y
    intro this
    cases this with
    | error x => exact .error x
    | ok hv =>
      revert ih
      generalize resolveAll P.toWorld (G A env) rs = x
      generalize resolveRefs P σ env rs = y
      intro ih
      cases ih with
      | error x => exact .error x
      | ok hs => exact .ok (.cons hv hs)

/-! ## The frame of a constructor's arguments -/

theorem G_new {A : Ghost K} {ts : List (Val K)} {next} (hn : WfChain (lens A) next) :
    G (A ++ [ts]) (Frame.new ⟨A.length, ts.length⟩ 0 :: next) = consAll ts (G A next) := by
  have hf : frameVals (A ++ [ts]) (Frame.new ⟨A.length, ts.length⟩ 0) = ts := by
    apply List.ext_getElem
    · simp [frameVals, Frame.new, Frame.logicalLen]
    · intro i h1 h2
      simp [frameVals, Frame.new, Frame.physicalIndex, ghostAt, h2]
  simp only [G, hf, G_mono hn]

theorem wf_new {A : Ghost K} {ts : List (Val K)} {next} (hn : WfChain (lens A) next) :
    WfChain (lens (A ++ [ts])) (Frame.new ⟨A.length, ts.length⟩ 0 :: next) := by
  intro f hf
  simp only [List.mem_cons] at hf
  rcases hf with rfl | hf
  · refine ⟨?_, ?_⟩
    · simp [WfArr, Frame.new, lens]
    · simp [Frame.new, Frame.logicalLen, Frame.physicalIndex]
  · rw [lens_append]; exact (hn f hf).mono

theorem G_arr {A : Ghost K} {a : Arr} {next} (ha : WfArr (lens A) a) :
    G A (Frame.new a 0 :: next) = consAll (row A a) (G A next) := by
  have hr := row_wf ha
  have hf : frameVals A (Frame.new a 0) = row A a := by
    apply List.ext_getElem
    · simp [frameVals, Frame.new, Frame.logicalLen, hr.2]
    · intro i h1 h2
      have : (row A a)[i]? = some (row A a)[i] := by simp
      simp [frameVals, Frame.new, Frame.physicalIndex, ghostAt, hr.1, this]
  simp only [G, hf]

theorem wf_arr {A : Ghost K} {a : Arr} {next} (ha : WfArr (lens A) a) (hn : WfChain (lens A) next) :
    WfChain (lens A) (Frame.new a 0 :: next) := by
  intro f hf
  simp only [List.mem_cons] at hf
  rcases hf with rfl | hf
  · exact ⟨ha, by simp [Frame.new, Frame.logicalLen, Frame.physicalIndex]⟩
  · exact hn f hf

theorem physicals_spec {A : Ghost K} {f : Frame} {ch : Chain} {P : World K} (hf : WfFrame (lens A) f)
    {args : List (Ref K)} {ps : List Nat} (h : physicals f (args.map toArg) = some ps) :
    resolveAll P (G A (f :: ch)) args = .ok (ps.map (ghostAt A f.bindings)) ∧ ps.length = args.length ∧
      ∀ p ∈ ps, p < f.bindings.len := by
  induction args generalizing ps with
  | nil => simp [physicals] at h; subst h; simp [resolveAll]
  | cons r args ih =>
    cases r with
    | g i => simp [toArg, physicals] at h
    | v k => simp [toArg, physicals] at h
    | l i =>
      simp only [List.map_cons, toArg, physicals] at h
      split at h
      · rename_i hi
        split at h
        · cases h
        · cases hq : physicals f (args.map toArg) with
          | none => rw [hq] at h; simp at h
          | some qs =>
            rw [hq] at h
            simp only [Option.map_some, Option.some.injEq] at h
            subst h
            obtain ⟨h1, h2, h3⟩ := ih hq
            have hl : Sem.resolve P (G A (f :: ch)) (.l i) = .ok (ghostAt A f.bindings (f.physicalIndex i)) := by
              simp [Sem.resolve, lookup_G, cell, hi]
            refine ⟨?_, by simp [h2], ?_⟩
            · simp only [resolveAll, hl, h1, List.map_cons]
            · intro p hp
              simp only [List.mem_cons] at hp
              rcases hp with rfl | hp
              · exact hf.2 i hi
              · exact h3 p hp
      · cases h

/-- `dataEnv` binds what the arguments stand for. -/
theorem dataEnv_spec {P : Prog K} {A : Ghost K} {σ cenv args next} (h : StoreOk P A σ) (hc : WfChain (lens A) cenv)
    (hn : WfChain (lens A) next) (hne : args ≠ []) :
    (∃ x, dataEnv P σ cenv args next = .error x ∧ (x = .outside ∨ resolveAll P.toWorld (G A cenv) args = .error x)) ∨
    ∃ σ' env' B ts, dataEnv P σ cenv args next = .ok (σ', env') ∧ resolveAll P.toWorld (G A cenv) args = .ok ts ∧
      StoreOk P (A ++ B) σ' ∧ WfChain (lens (A ++ B)) env' ∧ G (A ++ B) env' = consAll ts (G A next) := by
  cases cenv with
  | nil => exact .inl ⟨.outside, rfl, .inl rfl⟩
  | cons f ch =>
    have hlen : σ.length = A.length := by have := congrArg List.length h.lens; simpa [Mach.lens] using this
    have hf := hc f (by simp)
    cases hcl : classify (args.map toArg) f with
    | copy =>
      simp only [dataEnv, hcl]
      have := resolves_covers h hc args
      revert this
      generalize resolveAll P.toWorld (G A (f :: ch)) args = x
      generalize resolveRefs P σ (f :: ch) args = y
      intro this
      cases this with
      | error x => exact .inl ⟨x, rfl, .inr rfl⟩
      | @ok ts vs hs =>
        refine .inr ⟨σ ++ [vs], _, [ts], ts, rfl, rfl, h.alloc hs.mono, ?_, ?_⟩
        · rw [hlen, ← hs.length]; exact wf_new hn
        · rw [hlen, ← hs.length]; exact G_new hn
    | sequential =>
      right
      simp only [dataEnv, hcl]
      unfold Env.classify at hcl
      split at hcl
      · cases hcl
      · split at hcl
        · cases hcl
        · rename_i ps hps
          split at hcl
          · rename_i hseq
            obtain ⟨h1, h2, h3⟩ := physicals_spec (P := P.toWorld) (ch := ch) hf hps
            refine ⟨σ, _, [], _, rfl, h1, by simpa using h, by simpa using wf_arr hf.1 hn, ?_⟩
            have : ps.map (ghostAt A f.bindings) = row A f.bindings := by
              have hr := row_wf hf.1
              have hl : ps.length = (row A f.bindings).length := by rw [hr.2, ← hseq.2, h2]; simp
              apply List.ext_getElem
              · simpa using hl
              · intro i hi1 hi2
                have hpi : ps[i]'(by simpa using hi1) = i := by
                  have := congrArg (fun l => l[i]?) hseq.1
                  simp at hi1
                  simpa [List.getElem?_range, hi1] using this
                have : (row A f.bindings)[i]? = some (row A f.bindings)[i] := by simp
                simp [hpi, ghostAt, hr.1, this]
            simp only [List.append_nil, G_arr hf.1, this]
          · cases hcl
    | remapped rm =>
      right
      simp only [dataEnv, hcl]
      unfold Env.classify at hcl
      split at hcl
      · cases hcl
      · split at hcl
        · cases hcl
        · rename_i ps hps
          split at hcl
          · cases hcl
          · cases hcl
            obtain ⟨h1, h2, h3⟩ := physicals_spec (P := P.toWorld) (ch := ch) hf hps
            have hpos : 0 < rm.length := by rw [h2]; exact List.length_pos_iff.2 hne
            refine ⟨σ, _, [], _, rfl, h1, by simpa using h, ?_, ?_⟩
            · simp only [List.append_nil]
              intro f' hf'
              simp only [List.mem_cons] at hf'
              rcases hf' with rfl | hf'
              · refine ⟨hf.1, fun i hi => ?_⟩
                simp only [Frame.newRemapped, Frame.logicalLen, hpos, if_true] at hi
                simp only [Frame.newRemapped, Frame.physicalIndex, hpos, if_true]
                have : rm[i]? = some rm[i] := by simp
                rw [this]
                exact h3 _ (by simp)
              · exact hn f' hf'
            · simp only [List.append_nil, G]
              congr 1
              apply List.ext_getElem
              · simp [frameVals, Frame.newRemapped, Frame.logicalLen, hpos]
              · intro i hi1 hi2
                simp at hi2
                simp [frameVals, Frame.newRemapped, Frame.physicalIndex, hpos, hi2]

end Verif.Mach
