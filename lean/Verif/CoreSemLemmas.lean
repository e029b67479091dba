import Verif.CoreLemmas

/-! Helper lemmas about unfolding: congruence, and renaming of bound variables. -/

namespace Verif.Core

/-! ## Renaming at a depth -/

/-- A variable seen from inside `d` more binders. -/
def Var.up (d : Nat) : Var → Var
  | .free x => .free x
  | .bound s i n => .bound (s + d) i n

/-- Acting like `φ` on variables not bound by the `d` innermost binders. -/
def liftV (φ : Var → Var) (d : Nat) : Var → Var
  | .free x => (φ (.free x)).up d
  | .bound s i n => if s < d then .bound s i n else (φ (.bound (s - d) i n)).up d

def liftOk (Ok : Var → Prop) (d : Nat) : Var → Prop
  | .free x => Ok (.free x)
  | .bound s i n => if s < d then True else Ok (.bound (s - d) i n)

theorem up_up (a b : Nat) (v : Var) : (v.up a).up b = v.up (a + b) := by
  cases v <;> simp [Var.up, Nat.add_assoc]

theorem up_zero (v : Var) : v.up 0 = v := by cases v <;> rfl

theorem liftV_zero (φ : Var → Var) : liftV φ 0 = φ := by
  funext v
  cases v <;> simp [liftV, up_zero]

theorem liftV_liftV (φ : Var → Var) (a d : Nat) (v : Var) : liftV (liftV φ a) d v = liftV φ (d + a) v := by
  cases v with
  | free x => simp [liftV, up_up, Nat.add_comm]
  | bound s i n =>
    simp only [liftV]
    by_cases h1 : s < d
    · rw [if_pos h1, if_pos (by omega)]
    · rw [if_neg h1]
      by_cases h2 : s - d < a
      · rw [if_pos h2, if_pos (by omega)]
        simp only [Var.up]; congr 1; omega
      · rw [if_neg h2, if_neg (by omega), up_up, Nat.add_comm a d, Nat.sub_sub]

theorem liftOk_liftOk (Ok : Var → Prop) (a d : Nat) (v : Var) : liftOk (liftOk Ok a) d v = liftOk Ok (d + a) v := by
  cases v with
  | free x => simp [liftOk]
  | bound s i n =>
    simp only [liftOk]
    by_cases h1 : s < d
    · rw [if_pos h1, if_pos (by omega)]
    · rw [if_neg h1]
      by_cases h2 : s - d < a
      · rw [if_pos h2, if_pos (by omega)]
      · rw [if_neg h2, if_neg (by omega), Nat.sub_sub]

/-- Renaming the free variables and the variables bound outside. -/
def ren (φ : Var → Var) (e : Core) : Core := e.mapVars (liftV φ) 0

def AllOk (Ok : Var → Prop) (e : Core) : Prop := e.All (liftOk Ok) 0

theorem mapVars_shift (f : Nat → Var → Var) (a d : Nat) (e : Core) :
    e.mapVars f (d + a) = e.mapVars (fun d => f (d + a)) d := by
  induction e using Core.ind generalizing d with
  | hv v => rfl
  | hlet ns vs b t ihv ihb =>
    simp only [Core.mapVars, mapVarsL_eq]
    rw [show d + a + 1 = d + 1 + a by omega, ihb]
    congr 1
    exact List.map_congr_left fun v hv => ihv v hv _
  | hlam ps b ih =>
    simp only [Core.mapVars]
    rw [show d + a + 1 = d + 1 + a by omega, ih]
  | hn k xs ih =>
    simp only [Core.mapVars, mapVarsL_eq]
    congr 1
    exact List.map_congr_left fun v hv => ih v hv _

theorem All_shift (P : Nat → Var → Prop) (a d : Nat) (e : Core) :
    e.All P (d + a) ↔ e.All (fun d => P (d + a)) d := by
  induction e using Core.ind generalizing d with
  | hv v => exact Iff.rfl
  | hlet ns vs b t ihv ihb =>
    rw [All_let, All_let, show d + a + 1 = d + 1 + a by omega, ihb]
    refine and_congr_left fun _ => ?_
    exact ⟨fun h v hv => (ihv v hv _).mp (h v hv), fun h v hv => (ihv v hv _).mpr (h v hv)⟩
  | hlam ps b ih =>
    rw [All_lam, All_lam, show d + a + 1 = d + 1 + a by omega, ih]
  | hn k xs ih =>
    rw [All_node, All_node]
    exact ⟨fun h v hv => (ih v hv _).mp (h v hv), fun h v hv => (ih v hv _).mpr (h v hv)⟩

theorem mapVars_lift (φ : Var → Var) (d : Nat) (e : Core) : e.mapVars (liftV φ) d = ren (liftV φ d) e := by
  have := mapVars_shift (liftV φ) d 0 e
  rw [Nat.zero_add] at this
  rw [this, ren]
  congr 1
  funext d' v
  rw [liftV_liftV]

theorem All_lift (Ok : Var → Prop) (d : Nat) (e : Core) : e.All (liftOk Ok) d ↔ AllOk (liftOk Ok d) e := by
  have := All_shift (liftOk Ok) d 0 e
  rw [Nat.zero_add] at this
  rw [this, AllOk]
  have : (fun d' => liftOk Ok (d' + d)) = liftOk (liftOk Ok d) := by
    funext d' v
    rw [liftOk_liftOk]
  rw [this]

theorem ren_var (φ : Var → Var) (v : Var) : ren φ (.var v) = .var (φ v) := by
  simp [ren, Core.mapVars, liftV_zero]
theorem ren_let (φ : Var → Var) (ns vs b t) :
    ren φ (.letE ns vs b t) = .letE ns (vs.map (ren (liftV φ 1))) (ren (liftV φ 1) b) t := by
  simp only [ren, Core.mapVars, mapVarsL_eq, Nat.zero_add]
  rw [mapVars_lift]
  congr 1
  exact List.map_congr_left fun v _ => by rw [mapVars_lift]
theorem ren_lam (φ : Var → Var) (ps b) : ren φ (.lam ps b) = .lam ps (ren (liftV φ 1) b) := by
  simp only [ren, Core.mapVars, Nat.zero_add]
  rw [mapVars_lift]
  rfl
theorem ren_node (φ : Var → Var) (k xs) : ren φ (.node k xs) = .node k (xs.map (ren φ)) := by
  simp only [ren, Core.mapVars, mapVarsL_eq]
  rfl

section
variable {Ok : Var → Prop}
theorem AllOk_var {v} : AllOk Ok (.var v) ↔ Ok v := by
  unfold AllOk; rw [All_var]; cases v <;> simp [liftOk]
theorem AllOk_let {ns vs b t} :
    AllOk Ok (.letE ns vs b t) ↔ (∀ v ∈ vs, AllOk (liftOk Ok 1) v) ∧ AllOk (liftOk Ok 1) b := by
  unfold AllOk; rw [All_let, Nat.zero_add, All_lift]
  refine and_congr_left fun _ => ?_
  exact ⟨fun h v hv => (All_lift ..).mp (h v hv), fun h v hv => (All_lift ..).mpr (h v hv)⟩
theorem AllOk_lam {ps b} : AllOk Ok (.lam ps b) ↔ AllOk (liftOk Ok 1) b := by
  unfold AllOk; rw [All_lam, Nat.zero_add, All_lift]; rfl
theorem AllOk_node {k xs} : AllOk Ok (.node k xs) ↔ ∀ x ∈ xs, AllOk Ok x := by
  unfold AllOk; rw [All_node]
end

/-! ## Renaming and unfolding -/

/-- Environments related by a renaming of their variables. -/
abbrev EnvRel := Env → Env → (Var → Var) → (Var → Prop) → Prop

/-- What a variable and its renaming stand for is the same, or a value and its renaming. -/
def RefRel (B : EnvRel) : Ref → Ref → Prop
  | .free x, .free y => x = y
  | .param l i, .param l' i' => l = l' ∧ i = i'
  | .dangling, .dangling => True
  | .val E e, .val E' e' => (E = E' ∧ e = e') ∨ ∃ φ Ok, B E E' φ Ok ∧ AllOk Ok e ∧ e' = ren φ e
  | _, _ => False

theorem RefRel_refl (B : EnvRel) (r : Ref) : RefRel B r r := by
  cases r <;> simp [RefRel]

theorem RefRel.mono {B B' : EnvRel} (h : ∀ E E' φ Ok, B E E' φ Ok → B' E E' φ Ok) {r r' : Ref}
    (hr : RefRel B r r') : RefRel B' r r' := by
  cases r <;> cases r' <;> simp only [RefRel] at hr ⊢ <;> try exact hr
  rcases hr with hr | ⟨φ, Ok, hB, ho, he⟩
  · exact Or.inl hr
  · exact Or.inr ⟨φ, Ok, h _ _ _ _ hB, ho, he⟩

/-- The relation is kept when variables are looked up. -/
def Closed (B : EnvRel) : Prop :=
  ∀ E E' φ Ok, B E E' φ Ok → lamCount E = lamCount E' ∧ ∀ v, Ok v → RefRel B (look E v) (look E' (φ v))

/-- Binders passed on the way. -/
inductive Push (B : EnvRel) : EnvRel
  | base {E E' φ Ok} : B E E' φ Ok → Push B E E' φ Ok
  | lam {E E' φ Ok} (l : Nat) : Push B E E' φ Ok →
      Push B (.lam l :: E) (.lam l :: E') (liftV φ 1) (liftOk Ok 1)
  | letF {E E' φ Ok} (vs : List Core) : Push B E E' φ Ok → (∀ v ∈ vs, AllOk (liftOk Ok 1) v) →
      Push B (.letF vs :: E) (.letF (vs.map (ren (liftV φ 1))) :: E') (liftV φ 1) (liftOk Ok 1)

theorem look_up_one (fr : Frame) (E : Env) (v : Var) : look (fr :: E) (v.up 1) = look E v := by
  cases v with
  | free x => rfl
  | bound s i n => simp [look, Var.up]

theorem look_up (F E : Env) (v : Var) : look (F ++ E) (v.up F.length) = look E v := by
  induction F with
  | nil => simp [up_zero]
  | cons fr F ih => rw [List.length_cons, ← up_up, List.cons_append, look_up_one, ih]

theorem Push.closed {B : EnvRel} (hB : Closed B) : Closed (Push B) := by
  intro E E' φ Ok h
  induction h with
  | base h =>
    obtain ⟨h1, h2⟩ := hB _ _ _ _ h
    exact ⟨h1, fun v hv => (h2 v hv).mono fun _ _ _ _ => Push.base⟩
  | @lam E E' φ Ok l h ih =>
    refine ⟨by simp [lamCount, ih.1], ?_⟩
    intro v hv
    cases v with
    | free x =>
      simp only [liftV]
      rw [look_up_one]
      exact ih.2 (.free x) (by simpa [liftOk] using hv)
    | bound s i n =>
      simp only [liftV, liftOk] at hv ⊢
      by_cases hs : s < 1
      · have : s = 0 := by omega
        subst this
        simp [look, RefRel]
      · rw [if_neg hs] at hv ⊢
        rw [look_up_one]
        have := ih.2 _ hv
        have he : look (.lam l :: E) (.bound s i n) = look E (.bound (s - 1) i n) := by
          rw [← look_up_one (.lam l) E]
          simp only [Var.up]
          rw [show s - 1 + 1 = s by omega]
        rw [he]
        exact this
  | @letF E E' φ Ok vs h hvs ih =>
    refine ⟨by simp [lamCount, ih.1], ?_⟩
    intro v hv
    cases v with
    | free x =>
      simp only [liftV]
      rw [look_up_one]
      exact ih.2 (.free x) (by simpa [liftOk] using hv)
    | bound s i n =>
      simp only [liftV, liftOk] at hv ⊢
      by_cases hs : s < 1
      · have : s = 0 := by omega
        subst this
        simp only [look, List.drop_zero, Nat.lt_add_one, if_true, List.getElem?_map]
        cases hi : vs[i]? with
        | none => simp [RefRel]
        | some e =>
          simp only [Option.map_some, RefRel]
          exact Or.inr ⟨_, _, Push.letF vs h hvs, hvs e (List.mem_of_getElem? hi), rfl⟩
      · rw [if_neg hs] at hv ⊢
        rw [look_up_one]
        have := ih.2 _ hv
        have he : look (.letF vs :: E) (.bound s i n) = look E (.bound (s - 1) i n) := by
          rw [← look_up_one (.letF vs) E]
          simp only [Var.up]
          rw [show s - 1 + 1 = s by omega]
        rw [he]
        exact this

theorem unfoldWith_ren {B : EnvRel} (hB : Closed B) {k : Env → Core → Tree}
    (hk : ∀ E E' φ Ok e, Push B E E' φ Ok → AllOk Ok e → k E e = k E' (ren φ e)) (e : Core) :
    ∀ {E E' φ Ok}, Push B E E' φ Ok → AllOk Ok e → unfoldWith k E e = unfoldWith k E' (ren φ e) := by
  induction e using Core.ind with
  | hv v =>
    intro E E' φ Ok h ho
    rw [ren_var]
    simp only [unfoldWith]
    have := (Push.closed hB _ _ _ _ h).2 v (AllOk_var.mp ho)
    cases h1 : look E v <;> cases h2 : look E' (φ v) <;> rw [h1, h2] at this <;> simp only [RefRel] at this <;>
      simp only [seen] <;> grind
  | hlet ns vs b t ihv ihb =>
    intro E E' φ Ok h ho
    rw [AllOk_let] at ho
    rw [ren_let]
    simp only [unfoldWith]
    exact ihb (Push.letF vs h ho.1) ho.2
  | hlam ps b ih =>
    intro E E' φ Ok h ho
    rw [AllOk_lam] at ho
    rw [ren_lam]
    simp only [unfoldWith]
    rw [(Push.closed hB _ _ _ _ h).1, ih (Push.lam _ h) ho]
  | hn kd xs ih =>
    intro E E' φ Ok h ho
    rw [AllOk_node] at ho
    rw [ren_node]
    simp only [unfoldWith, unfoldWithL_eq, List.map_map]
    congr 1
    exact List.map_congr_left fun x hx => ih x hx h (ho x hx)

/-- A renaming that keeps what variables stand for keeps the unfolding. -/
theorem unfold_ren {B : EnvRel} (hB : Closed B) (n : Nat) : ∀ {E E' φ Ok e}, Push B E E' φ Ok → AllOk Ok e →
    unfold n E e = unfold n E' (ren φ e) := by
  induction n with
  | zero =>
    intro E E' φ Ok e h ho
    exact unfoldWith_ren hB (fun _ _ _ _ _ _ _ => rfl) e h ho
  | succ n ih =>
    intro E E' φ Ok e h ho
    exact unfoldWith_ren hB (fun _ _ _ _ _ h ho => ih h ho) e h ho

/-! ## Congruence -/

inductive FrameSame : Frame → Frame → Prop
  | lam (l : Nat) : FrameSame (.lam l) (.lam l)
  | letF {vs vs' : List Core} (hl : vs.length = vs'.length)
      (h : ∀ (i : Nat) e e', vs[i]? = some e → vs'[i]? = some e' → Same e e') : FrameSame (.letF vs) (.letF vs')

inductive EnvSame : Env → Env → Prop
  | nil : EnvSame [] []
  | cons {f f' E E'} : FrameSame f f' → EnvSame E E' → EnvSame (f :: E) (f' :: E')

theorem Same.refl (e : Core) : Same e e := fun _ _ => rfl
theorem Same.symm {e e' : Core} (h : Same e e') : Same e' e := fun n E => (h n E).symm
theorem Same.trans {a b c : Core} (h : Same a b) (h' : Same b c) : Same a c := fun n E => (h n E).trans (h' n E)

theorem FrameSame.refl (f : Frame) : FrameSame f f := by
  cases f with
  | lam l => exact .lam l
  | letF vs => exact .letF rfl fun i e e' h h' => by rw [h] at h'; cases h'; exact Same.refl e

theorem EnvSame.refl (E : Env) : EnvSame E E := by
  induction E with
  | nil => exact .nil
  | cons f E ih => exact .cons (.refl f) ih

theorem EnvSame.lamCount {E E' : Env} (h : EnvSame E E') : lamCount E = lamCount E' := by
  induction h with
  | nil => rfl
  | cons hf _ ih => cases hf <;> simp [Core.lamCount, ih]

theorem EnvSame.drop {E E' : Env} (h : EnvSame E E') (s : Nat) : EnvSame (E.drop s) (E'.drop s) := by
  induction h generalizing s with
  | nil => simp; exact .nil
  | cons hf h ih =>
    cases s with
    | zero => exact .cons hf h
    | succ s => exact ih s

theorem unfoldWith_env {k : Env → Core → Tree}
    (hk : ∀ E E' e e', EnvSame E E' → Same e e' → k E e = k E' e') (e : Core) :
    ∀ {E E'}, EnvSame E E' → unfoldWith k E e = unfoldWith k E' e := by
  induction e using Core.ind with
  | hv v =>
    intro E E' h
    simp only [unfoldWith]
    cases v with
    | free x => rfl
    | bound s i n =>
      simp only [look]
      have := h.drop s
      generalize E.drop s = F at this
      generalize E'.drop s = F' at this
      cases this with
      | nil => rfl
      | cons hf hE =>
        cases hf with
        | lam l => rfl
        | @letF vs vs' hl hs =>
          dsimp only
          by_cases hi : i < vs.length
          · rw [List.getElem?_eq_getElem hi, List.getElem?_eq_getElem (by omega)]
            dsimp only [seen]
            exact hk _ _ _ _ (.cons (.letF hl hs) hE)
              (hs i _ _ (List.getElem?_eq_getElem hi) (List.getElem?_eq_getElem (by omega)))
          · rw [List.getElem?_eq_none (by omega), List.getElem?_eq_none (by omega)]
  | hlet ns vs b t ihv ihb =>
    intro E E' h
    simp only [unfoldWith]
    exact ihb (.cons (.refl _) h)
  | hlam ps b ih =>
    intro E E' h
    simp only [unfoldWith]
    rw [h.lamCount, ih (.cons (.refl _) h)]
  | hn kd xs ih =>
    intro E E' h
    simp only [unfoldWith, unfoldWithL_eq]
    congr 1
    exact List.map_congr_left fun x hx => ih x hx h

theorem unfold_env (n : Nat) : ∀ {E E' e}, EnvSame E E' → unfold n E e = unfold n E' e := by
  induction n with
  | zero => intro E E' e h; exact unfoldWith_env (fun _ _ _ _ _ _ => rfl) e h
  | succ n ih =>
    intro E E' e h
    exact unfoldWith_env (fun _ _ e e' hE hs => (ih hE).trans (hs n _)) e h

theorem Same.env {e e' : Core} (h : Same e e') {E E' : Env} (hE : EnvSame E E') (n : Nat) :
    unfold n E e = unfold n E' e' := (unfold_env n hE).trans (h n E')

/-! Unfolding, without the fuel in the way. -/

theorem unfold_let (n : Nat) (E : Env) (ns vs b t) :
    unfold n E (.letE ns vs b t) = unfold n (.letF vs :: E) b := by
  cases n <;> simp [unfold, unfoldWith]
theorem unfold_lam (n : Nat) (E : Env) (ps b) :
    unfold n E (.lam ps b) = .lam ps.length (unfold n (.lam (lamCount E) :: E) b) := by
  cases n <;> simp [unfold, unfoldWith]
theorem unfold_node (n : Nat) (E : Env) (k xs) : unfold n E (.node k xs) = .node k (xs.map (unfold n E)) := by
  cases n <;> simp [unfold, unfoldWith, unfoldWithL_eq]

theorem Same.letE {ns ns' vs vs' b b' t t'} (hl : vs.length = vs'.length)
    (hv : ∀ (i : Nat) e e', vs[i]? = some e → vs'[i]? = some e' → Same e e') (hb : Same b b') :
    Same (.letE ns vs b t) (.letE ns' vs' b' t') := by
  intro n E
  rw [unfold_let, unfold_let]
  exact hb.env (.cons (.letF hl hv) (.refl E)) n

theorem Same.lam {ps ps' b b'} (hl : ps.length = ps'.length) (hb : Same b b') : Same (.lam ps b) (.lam ps' b') := by
  intro n E
  rw [unfold_lam, unfold_lam, hl, hb n]

theorem Same.map {f : Core → Core} {xs : List Core} (h : ∀ x ∈ xs, Same x (f x)) (i : Nat) (e e' : Core)
    (h1 : xs[i]? = some e) (h2 : (xs.map f)[i]? = some e') : Same e e' := by
  rw [List.getElem?_map, h1] at h2
  cases h2
  exact h e (List.mem_of_getElem? h1)

theorem Same.node {k} {f : Core → Core} {xs : List Core} (h : ∀ x ∈ xs, Same x (f x)) :
    Same (.node k xs) (.node k (xs.map f)) := by
  intro n E
  rw [unfold_node, unfold_node, List.map_map]
  congr 1
  exact List.map_congr_left fun x hx => h x hx n E

end Verif.Core
