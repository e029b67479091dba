import Verif.CoreSemLemmas

/-!
# Properties of scoping: closing and opening (C05), well-scoped expressions (C06), units as scopes (C43)
-/

namespace Verif.Core

/-! ## C05 -/

/-- Binding names and opening the scope again with the same names gives back the expression. -/
theorem open_close (names : List String) (d : Nat) (e : Core) : opn names d (close names d e) = e := by
  unfold opn close
  rw [mapVars_comp]
  conv => rhs; rw [← mapVars_id d e]
  refine mapVars_congr (All_of (fun d v => ?_) d e)
  cases v with
  | free x =>
    simp only [closeVar]
    split
    · next i hp => simp [openVar, position_some hp]
    · rfl
  | bound s i n =>
    simp only [closeVar]
    split
    · next h =>
      simp only [openVar]
      rw [if_neg (by omega), if_pos (by omega)]
      rfl
    · next h =>
      simp only [openVar]
      rw [if_neg (by omega), if_neg (by omega)]

/-- The references to the binder `d` levels out have the names of its slots. -/
def RefsNamed (names : List String) (d : Nat) : Var → Prop
  | .free x => x ∉ names
  | .bound s i n => s = d → ∃ x, names[i]? = some x ∧ n = some x

/-- Opening a scope and binding the names again gives back the expression, if the names are distinct and
different from its free names, and references to the scope are to its slots. -/
theorem close_open {names : List String} (hn : names.Nodup) {d : Nat} {e : Core}
    (h : e.All (RefsNamed names) d) : close names d (opn names d e) = e := by
  unfold opn close
  rw [mapVars_comp]
  conv => rhs; rw [← mapVars_id d e]
  refine mapVars_congr (All.imp (fun d v hv => ?_) h)
  cases v with
  | free x =>
    simp only [openVar, closeVar]
    rw [position_none.mpr hv]
  | bound s i n =>
    simp only [openVar]
    split
    · next hs =>
      obtain ⟨x, hx, rfl⟩ := hv hs
      simp only [hx, Option.some_or, Option.getD_some, closeVar, position_nodup hn hx]
      rw [hs]
    · split
      · next h1 h2 =>
        simp only [closeVar]
        rw [if_pos (by omega), show s - 1 + 1 = s by omega]
      · next h1 h2 =>
        simp only [closeVar]
        rw [if_neg (by omega)]

/-- Both directions for the scope of a `let` and of a lambda. -/
theorem openLet_closeLet (names : List String) (vals : List Core) (body : Core) :
    openLet names (closeLet names vals body).1 (closeLet names vals body).2 = (vals, body) := by
  simp only [openLet, closeLet, open_close, List.map_map]
  congr 1
  conv => rhs; rw [← List.map_id vals]
  exact List.map_congr_left fun v _ => open_close names 0 v

theorem openLam_closeLam (params : List String) (body : Core) :
    openLam params (closeLam params body) = body := open_close params 0 body

theorem closeLet_openLet {names : List String} (hn : names.Nodup) {vals : List Core} {body : Core}
    (hv : ∀ v ∈ vals, v.All (RefsNamed names) 0) (hb : body.All (RefsNamed names) 0) :
    closeLet names (openLet names vals body).1 (openLet names vals body).2 = (vals, body) := by
  simp only [openLet, closeLet, close_open hn hb, List.map_map]
  congr 1
  conv => rhs; rw [← List.map_id vals]
  exact List.map_congr_left fun v h => close_open hn (hv v h)

/-- Binding captures exactly the given names, each to its first slot, and leaves every other reference
pointing at what it pointed at before: seen from inside the new binder, whatever the binder is. -/
theorem close_captures (names : List String) (vals : List Core) (E : Env) (hl : vals.length = names.length)
    (v : Var) :
    look (.letF vals :: E) (closeVar names 0 v) =
      match v with
      | .free x => match position names x with
        | some i => match vals[i]? with
          | some e => .val (.letF vals :: E) e
          | none => .dangling
        | none => .free x
      | v => look E v := by
  cases v with
  | free x =>
    simp only [closeVar]
    cases hp : position names x with
    | none => rfl
    | some i =>
      have := position_lt hp
      simp only [look, List.drop_zero]
      rw [List.getElem?_eq_getElem (by omega)]
  | bound s i n =>
    simp only [closeVar, Nat.zero_le, if_true]
    exact look_up_one _ _ (.bound s i n)

-- The names must be distinct and not free already: `close [x, x]` names the first slot only, and a free
-- name is captured.
example : close ["x", "x"] 0 (opn ["x", "x"] 0 (.var (.bound 0 1 (some "x")))) = .var (.bound 0 0 (some "x")) := rfl
example : close ["x"] 0 (opn ["x"] 0 (.var (.free "x"))) = .var (.bound 0 0 (some "x")) := rfl
-- a nested lambda referring to both slots, to an outer binder and to a free name
example : (Core.lam ["z"] (.node .app [.var (.bound 1 0 (some "x")), .var (.bound 1 1 (some "y")),
      .var (.bound 0 0 (some "z")), .var (.bound 3 5 none), .var (.free "w")])).All (RefsNamed ["x", "y"]) 0 ∧
    ["x", "y"].Nodup := by
  simp [All_lam, All_node, All_var, RefsNamed]

/-! ## C06 -/

/-- Binding free names keeps an expression well scoped, under one binder more. -/
theorem close_ws {names : List String} {Γ : List Nat} {e : Core} (h : e.WS Γ) :
    (close names 0 e).WS (names.length :: Γ) := WS_close [] h

/-- Opening a binder keeps an expression well scoped, under one binder less. -/
theorem open_ws {names : List String} {Γ : List Nat} {m : Nat} {e : Core} (h : e.WS (m :: Γ)) :
    (opn names 0 e).WS Γ := WS_open [] h

/-- The scopes made by closing are well scoped. -/
theorem closeLet_ws {names : List String} {vals : List Core} {body : Core} {Γ : List Nat} {t : LetType}
    (hl : names.length = vals.length) (hv : ∀ v ∈ vals, v.WS Γ) (hb : body.WS Γ) :
    (Core.letE names (closeLet names vals body).1 (closeLet names vals body).2 t).WS Γ := by
  simp only [Core.WS, closeLet, List.length_map, WSL_iff]
  refine ⟨hl, ?_, ?_⟩
  · intro x hx
    obtain ⟨v, hv', rfl⟩ := List.mem_map.mp hx
    rw [← hl]
    exact close_ws (hv v hv')
  · rw [← hl]
    exact close_ws hb

theorem closeLam_ws {params : List String} {body : Core} {Γ : List Nat} (hb : body.WS Γ) :
    (Core.lam params (closeLam params body)).WS Γ := by
  simp only [Core.WS, closeLam]
  exact close_ws hb

/-- Shifting into a binder, and out of a binder that is not referred to. -/
theorem succ_ws {Γ : List Nat} (m : Nat) {e : Core} (h : e.WS Γ) : (succ e).WS (m :: Γ) := WS_succ m [] h

theorem pred_ws {Γ : List Nat} {m : Nat} {e : Core} (hr : e.All noRef 0) (h : e.WS (m :: Γ)) :
    (pred e).WS Γ := WS_pred m [] hr h

/-- `pred` undoes `succ`. -/
theorem pred_succ (e : Core) : pred (succ e) = e := by
  unfold pred succ
  rw [mapVars_comp]
  conv => rhs; rw [← mapVars_id 0 e]
  refine mapVars_congr (All_of (fun d v => ?_) 0 e)
  cases v with
  | free x => rfl
  | bound s i n =>
    simp only [succVar]
    split
    · simp only [predVar]
      rw [if_pos (by omega)]
      rfl
    · next h => simp only [predVar]; rw [if_neg h]

/-- Substituting closed expressions for free names. -/
theorem substFree_ws {f : String → Option Core} (hf : ∀ x e, f x = some e → e.WS []) {Γ : List Nat} {e : Core}
    (h : e.WS Γ) : (e.substFree f).WS Γ := WS_substFree hf h

/-- The substitution does not shift what it puts in: with an expression that refers to an enclosing
binder it is wrong under a binder, where the reference is caught by another one. -/
theorem substFree_open_false :
    ¬ ∀ (f : String → Option Core) (Γ : List Nat) (e : Core), (∀ x e', f x = some e' → e'.WS Γ) → e.WS Γ →
      (e.substFree f).WS Γ := by
  intro h
  have := h (fun _ => some (.var (.bound 0 1 none))) [2] (.lam ["p"] (.var (.free "x")))
    (by intro x e' he; cases he; exact ⟨2, rfl, by decide⟩) trivial
  obtain ⟨n, hn, hi⟩ := (this : ∃ n, [1, 2][0]? = some n ∧ 1 < n)
  simp at hn
  omega

theorem bindFree_ws {names : List String} {Γ : List Nat} {e : Core} (h : e.WS (names.length :: Γ)) :
    (bindFree names 0 e).WS (names.length :: Γ) := WS_bindFree [] h

theorem captureNames_length {names : List String} {vals : List Core} (h : names.length = vals.length) :
    (captureNames names vals).length = vals.length := by
  simp [captureNames, h]

theorem rebodyInt_ws {newBody : Core} (hb : newBody.WS []) {e : Core} {Γ : List Nat} (h : e.WS Γ) :
    (rebodyInt newBody e).WS Γ := by
  induction e using rebodyInt.induct generalizing Γ with
  | case1 ns vs b t ih =>
    simp only [rebodyInt, Core.WS] at h ⊢
    refine ⟨h.1, h.2.1, ?_⟩
    have hc := captureNames_length h.1
    have := ih h.2.2
    rw [← hc] at this ⊢
    exact bindFree_ws this
  | case2 e m ih =>
    simp only [rebodyInt, Core.WS, WSL_iff, List.mem_cons, List.not_mem_nil, or_false, forall_eq_or_imp,
      forall_eq] at h ⊢
    exact ⟨ih h.1, h.2⟩
  | case3 e h1 h2 =>
    rw [rebodyInt]
    · exact WS_weaken (Γ := []) hb
    · exact h1
    · exact h2

/-- Putting a closed expression in place of the body of a unit keeps the unit well scoped. -/
theorem rebody_ws {self newBody : Core} (hb : newBody.WS []) {Γ : List Nat} (h : self.WS Γ) :
    (rebody self newBody).WS Γ := by
  unfold rebody
  simp only
  split
  · exact rebodyInt_ws hb h
  · refine WS_substFree ?_ (rebodyInt_ws hb h)
    intro x e' he
    split at he
    · cases he; trivial
    · cases he

/-- Merging two units gives a well-scoped unit. -/
theorem mergeIn_ws {self other : Core} (ho : other.WS []) (h : self.WS []) : (mergeIn self other).WS [] := by
  unfold mergeIn
  split
  · next e m =>
    simp only [Core.WS, WSL_iff, List.mem_cons, List.not_mem_nil, or_false, forall_eq_or_imp, forall_eq] at ho ⊢
    exact ⟨rebody_ws ho.1 h, ho.2⟩
  · exact rebody_ws ho h

theorem dynProcessL_eq (normal : String → Bool) (p : String) (d : Nat) (xs : List Core) :
    (dynProcessL normal p d xs).1 = xs.map fun x => (x.dynProcess normal p d).1 := by
  induction xs with
  | nil => rfl
  | cons x xs ih => simp [dynProcessL, ih]

theorem dynProcessL_flag (normal : String → Bool) (p : String) (d : Nat) (xs : List Core) :
    (dynProcessL normal p d xs).2 = xs.any fun x => (x.dynProcess normal p d).2 := by
  induction xs with
  | nil => rfl
  | cons x xs ih => simp [dynProcessL, ih]

theorem wrapVar_ws (normal : String → Bool) (p : String) (d : Nat) {Γ : List Nat} {v : Var} (h : v.InScope Γ) :
    (wrapVar normal p d v).1.WS Γ := by
  unfold wrapVar
  split <;> (try split) <;> simp only [lookupOr, Core.WS, WSL] <;> first | exact h | trivial | exact ⟨trivial, h, trivial⟩

theorem dynProcess_ws (normal : String → Bool) (p : String) {e : Core} {Γ : List Nat} (d : Nat) (h : e.WS Γ) :
    (e.dynProcess normal p d).1.WS Γ := by
  induction e using Core.ind generalizing Γ d with
  | hv v => exact wrapVar_ws normal p d h
  | hlet ns vs b t ihv ihb =>
    simp only [Core.WS, Core.dynProcess, dynProcessL_eq, WSL_iff, List.length_map] at h ⊢
    refine ⟨h.1, ?_, ihb _ h.2.2⟩
    intro x hx
    obtain ⟨v, hv, rfl⟩ := List.mem_map.mp hx
    exact ihv v hv _ (h.2.1 v hv)
  | hlam ps b ih =>
    simp only [Core.WS, Core.dynProcess] at h ⊢
    exact ih _ h
  | hn k xs ih =>
    simp only [Core.WS, Core.dynProcess, dynProcessL_eq, WSL_iff] at h ⊢
    intro x hx
    obtain ⟨v, hv, rfl⟩ := List.mem_map.mp hx
    exact ih v hv _ (h v hv)

/-- In a closed expression nothing refers past the binders passed. -/
theorem noEscape {Γ : List Nat} {e : Core} (h : e.WS Γ) :
    e.All (fun d v => match v with | .free _ => True | .bound s _ _ => s < d) Γ.length := by
  induction e using Core.ind generalizing Γ with
  | hv v =>
    rw [All_var]
    cases v with
    | free x => trivial
    | bound s i n =>
      obtain ⟨k, hk, _⟩ := h
      exact (List.getElem?_eq_some_iff.mp hk).1
  | hlet ns vs b t ihv ihb =>
    simp only [Core.WS, WSL_iff] at h
    rw [All_let]
    exact ⟨fun v hv => ihv v hv (h.2.1 v hv), ihb h.2.2⟩
  | hlam ps b ih => exact ih h
  | hn k xs ih =>
    simp only [Core.WS, WSL_iff] at h
    rw [All_node]
    exact fun x hx => ih x hx (h x hx)

theorem succ_closed {e : Core} (h : e.WS []) : succ e = e := by
  unfold succ
  conv => rhs; rw [← mapVars_id 0 e]
  refine mapVars_congr (All.imp (fun d v hv => ?_) (noEscape h))
  cases v with
  | free x => rfl
  | bound s i n => simp only [succVar]; rw [if_neg (by simpa using hv)]

/-- Turning a closed expression into a generalised lookup gives a closed expression. -/
theorem dynamise_ws (normal : String → Bool) (p : String) {e : Core} (h : e.WS []) :
    (dynamise normal p e).WS [] := by
  unfold dynamise
  simp only
  have := dynProcess_ws normal p 0 h
  split
  · rw [succ_closed this]
    exact closeLam_ws this
  · exact this

/-- A reference to a binder around the expression is shifted twice, once by `succ` and once by the
closing of the new lambda, so that the general statement is false. -/
theorem dynamise_open_false :
    ¬ ∀ (normal : String → Bool) (p : String) (e : Core) (Γ : List Nat), e.WS Γ → (dynamise normal p e).WS Γ := by
  intro h
  have := h (fun _ => true) "p" (.var (.bound 0 0 (some "x"))) [1] ⟨1, rfl, by decide⟩
  have h2 : dynamise (fun _ => true) "p" (.var (.bound 0 0 (some "x"))) =
    .lam ["p"] (.node (.lookup "x") [.var (.bound 0 0 (some "p")), .var (.bound 2 0 (some "x"))]) := rfl
  rw [h2] at this
  simp [Core.WS, WSL, Var.InScope] at this

/-- A generalised lookup, once the block looked into has a name `p`, is the expression with every
ordinary free name `x` looked up in the block, and meaning `x` itself if the block has no such key. -/
theorem dynamise_means (normal : String → Bool) (p : String) {e : Core} (h : e.WS []) :
    (∃ body, dynamise normal p e = .lam [p] body ∧ opn [p] 0 body =
        e.substFree fun x => if normal x then some (.node (.lookup x) [.var (.free p), .var (.free x)]) else none) ∨
      (dynamise normal p e = e ∧ ∀ x ∈ e.freeVars, normal x = false) := by
  have key : ∀ (Γ : List Nat) (e : Core), e.WS Γ →
      (e.dynProcess normal p Γ.length).1 =
        (e.substFree fun x => if normal x then some (.node (.lookup x) [.var (.free p), .var (.free x)]) else none) ∧
      ((e.dynProcess normal p Γ.length).2 = false →
        (e.dynProcess normal p Γ.length).1 = e ∧ ∀ x ∈ e.freeVars, normal x = false) := by
    intro Γ e
    induction e using Core.ind generalizing Γ with
    | hv v =>
      intro h
      cases v with
      | free x =>
        simp only [Core.dynProcess, wrapVar, Core.substFree, Core.freeVars]
        split <;> simp [lookupOr, *]
      | bound s i n =>
        have hs : s < Γ.length := noEscape h
        cases n with
        | none => simp [Core.dynProcess, wrapVar, Core.substFree, Core.freeVars]
        | some n =>
          simp only [Core.dynProcess, wrapVar, Core.substFree, Core.freeVars]
          rw [if_neg (by omega)]
          simp
    | hlet ns vs b t ihv ihb =>
      intro h
      simp only [Core.WS, WSL_iff] at h
      simp only [Core.dynProcess, dynProcessL_eq, dynProcessL_flag, Core.substFree, substFreeL_eq, Core.freeVars,
        freeVarsL_eq]
      have hb := ihb (vs.length :: Γ) h.2.2
      have hv := fun v hv => ihv v hv (vs.length :: Γ) (h.2.1 v hv)
      simp only [List.length_cons] at hb hv
      constructor
      · rw [hb.1]
        congr 1
        exact List.map_congr_left fun v h => (hv v h).1
      · intro hf
        simp only [Bool.or_eq_false_iff, List.any_eq_false, Bool.not_eq_true] at hf
        constructor
        · rw [(hb.2 hf.2).1]
          congr 1
          conv => rhs; rw [← List.map_id vs]
          exact List.map_congr_left fun v h => ((hv v h).2 (hf.1 v h)).1
        · intro x hx
          simp only [List.mem_append, List.mem_flatMap] at hx
          rcases hx with ⟨v, h1, h2⟩ | hx
          · exact ((hv v h1).2 (hf.1 v h1)).2 x h2
          · exact (hb.2 hf.2).2 x hx
    | hlam ps b ih =>
      intro h
      have := ih (ps.length :: Γ) h
      simp only [List.length_cons] at this
      simp only [Core.dynProcess, Core.substFree, Core.freeVars]
      exact ⟨by rw [this.1], fun hf => ⟨by rw [(this.2 hf).1], (this.2 hf).2⟩⟩
    | hn k xs ih =>
      intro h
      simp only [Core.WS, WSL_iff] at h
      simp only [Core.dynProcess, dynProcessL_eq, dynProcessL_flag, Core.substFree, substFreeL_eq, Core.freeVars,
        freeVarsL_eq]
      have hv := fun v hv => ih v hv Γ (h v hv)
      constructor
      · congr 1
        exact List.map_congr_left fun v h => (hv v h).1
      · intro hf
        simp only [List.any_eq_false, Bool.not_eq_true] at hf
        constructor
        · congr 1
          conv => rhs; rw [← List.map_id xs]
          exact List.map_congr_left fun v h => ((hv v h).2 (hf v h)).1
        · intro x hx
          obtain ⟨v, h1, h2⟩ := List.mem_flatMap.mp hx
          exact ((hv v h1).2 (hf v h1)).2 x h2
  obtain ⟨k1, k2⟩ := key [] e h
  simp only [List.length_nil] at k1 k2
  cases hf : (e.dynProcess normal p 0).2 with
  | true =>
    refine Or.inl ⟨_, by unfold dynamise; simp only [hf, if_true]; rfl, ?_⟩
    rw [closeLam, open_close, succ_closed (dynProcess_ws normal p 0 h), k1]
  | false =>
    refine Or.inr ⟨?_, (k2 hf).2⟩
    unfold dynamise
    simp only [hf, Bool.false_eq_true, if_false]
    exact (k2 hf).1

example : dynamise (fun x => x != "+") "p" (.lam ["y"] (.node .app [.var (.free "+"), .var (.free "a"),
      .var (.bound 0 0 (some "y"))])) =
    .lam ["p"] (.lam ["y"] (.node .app [.var (.free "+"),
      .node (.lookup "a") [.var (.bound 1 0 (some "p")), .var (.free "a")], .var (.bound 0 0 (some "y"))])) := by
  rfl

/-! ## C43 -/

/-- The names bound around the body of a unit. -/
def scopeNames (e : Core) : List String := (scopes e).flatMap (·.1)

def resolve : List (List String × List Core) → String → Option (Nat × Nat)
  | [], _ => none
  | sc :: scs, x => match position (captureNames sc.1 sc.2) x with
    | some i => some (0, i)
    | none => (resolve scs x).map fun p => (p.1 + 1, p.2)

theorem resolve_snoc (scs : List (List String × List Core)) (sc : List String × List Core) (x : String) :
    resolve (scs ++ [sc]) x = match resolve scs x with
      | some p => some p
      | none => (position (captureNames sc.1 sc.2) x).map fun i => (scs.length, i) := by
  induction scs with
  | nil => simp only [List.nil_append, resolve]; cases position (captureNames sc.1 sc.2) x <;> rfl
  | cons sc' scs ih =>
    simp only [List.cons_append, resolve, ih]
    cases position (captureNames sc'.1 sc'.2) x with
    | some i => rfl
    | none => cases resolve scs x <;> cases position (captureNames sc.1 sc.2) x <;> simp

def resolveVar (scs : List (List String × List Core)) (d : Nat) : Var → Var
  | .free x => match resolve scs x with
    | some (s, i) => .bound (d + s) i (some x)
    | none => .free x
  | v => v

theorem bindFree_noop {names : List String} {d : Nat} {e : Core} (h : ∀ x ∈ e.freeVars, x ∉ names) :
    bindFree names d e = e := by
  unfold bindFree
  conv => rhs; rw [← mapVars_id d e]
  refine mapVars_congr (All.imp (fun d v hv => ?_) ((All_free (d := d)).mpr h))
  cases v with
  | free x => simp only [bindVar, position_none.mpr (hv x rfl)]
  | bound s i n => rfl

theorem captureNames_mem {names : List String} {vals : List Core} {x : String} (h0 : x ≠ "\x00")
    (h : x ∈ captureNames names vals) : x ∈ names := by
  simp only [captureNames, List.mem_map] at h
  obtain ⟨⟨y, v⟩, hp, he⟩ := h
  split at he
  · exact absurd he.symm h0
  · exact he ▸ (List.of_mem_zip hp).1

theorem freeVars_let {ns vs b t} : (Core.letE ns vs b t).freeVars = vs.flatMap Core.freeVars ++ b.freeVars := by
  simp [Core.freeVars, freeVarsL_eq]
theorem freeVars_node {k xs} : (Core.node k xs).freeVars = xs.flatMap Core.freeVars := by
  simp [Core.freeVars, freeVarsL_eq]

theorem bindFree_withBody {names : List String} (X : Core) {e : Core} (d : Nat)
    (h : ∀ x ∈ e.freeVars, x ∉ names) :
    bindFree names d (withBody X e) = withBody (bindFree names (d + (scopes e).length) X) e := by
  induction e using withBody.induct generalizing d with
  | case1 ns vs b t ih =>
    rw [freeVars_let] at h
    simp only [List.mem_append, List.mem_flatMap] at h
    simp only [withBody, scopes, List.length_append, List.length_cons, List.length_nil]
    have hb := ih (d + 1) fun x hx => h x (Or.inr hx)
    rw [show d + ((scopes b).length + (0 + 1)) = d + 1 + (scopes b).length by omega, ← hb]
    unfold bindFree
    simp only [Core.mapVars, mapVarsL_eq]
    congr 1
    conv => rhs; rw [← List.map_id vs]
    exact List.map_congr_left fun v hv => bindFree_noop fun x hx => h x (Or.inl ⟨v, hv, hx⟩)
  | case2 e m ih =>
    rw [freeVars_node] at h
    simp only [List.mem_flatMap, List.mem_cons, List.not_mem_nil, or_false] at h
    simp only [withBody, scopes]
    rw [← ih d fun x hx => h x ⟨e, Or.inl rfl, hx⟩]
    unfold bindFree
    simp only [Core.mapVars, mapVarsL]
    have := bindFree_noop (names := names) (d := d) fun x hx => h x ⟨m, Or.inr rfl, hx⟩
    unfold bindFree at this
    rw [this]
  | case3 e h1 h2 =>
    rw [withBody, withBody]
    · cases e with
      | letE ns vs b t => exact absurd rfl (h1 ns vs b t)
      | var v => simp [scopes]
      | lam ps b => simp [scopes]
      | node k xs =>
        rw [scopes]
        · simp
        · exact h1
        · exact h2
    all_goals assumption

theorem rebodyInt_spec {newBody : Core} {e : Core}
    (h : ∀ x ∈ e.freeVars, x ∉ scopeNames e ∧ x ≠ "\x00") :
    rebodyInt newBody e = withBody (newBody.mapVars (resolveVar (scopes e)) 0) e := by
  have hid : newBody.mapVars (resolveVar []) 0 = newBody := by
    conv => rhs; rw [← mapVars_id 0 newBody]
    refine mapVars_congr (All_of (fun d v => ?_) 0 newBody)
    cases v <;> rfl
  induction e using rebodyInt.induct with
  | case1 ns vs b t ih =>
    rw [freeVars_let] at h
    simp only [List.mem_append, List.mem_flatMap, scopeNames, scopes, List.flatMap_append, List.flatMap_cons,
      List.flatMap_nil, List.append_nil, not_or] at h
    simp only [rebodyInt, withBody, scopes]
    rw [ih fun x hx => ⟨by
      have := (h x (Or.inr hx)).1.1
      simpa [scopeNames] using this, (h x (Or.inr hx)).2⟩]
    rw [bindFree_withBody]
    · congr 1
      rw [Nat.zero_add]
      congr 1
      unfold bindFree
      have : ∀ f (e : Core) a, e.mapVars f a = e.mapVars (fun d => f (d + a)) 0 := by
        intro f e a
        have := mapVars_shift f a 0 e
        rwa [Nat.zero_add] at this
      rw [this, mapVars_comp]
      refine mapVars_congr (All_of (fun d v => ?_) 0 newBody)
      cases v with
      | bound s i n => rfl
      | free x =>
        simp only [resolveVar, resolve_snoc]
        cases hr : resolve (scopes b) x with
        | some p => rfl
        | none =>
          simp only [bindVar]
          cases position (captureNames ns vs) x <;> simp
    · intro x hx hc
      have := captureNames_mem (h x (Or.inr hx)).2 hc
      exact (h x (Or.inr hx)).1.2 this
  | case2 e m ih =>
    rw [freeVars_node] at h
    simp only [rebodyInt, withBody, scopes]
    rw [ih]
    intro x hx
    have := h x (by simp [hx])
    simpa [scopeNames, scopes] using this
  | case3 e h1 h2 =>
    rw [rebodyInt, withBody]
    · rw [scopes]
      · exact hid.symm
      · exact h1
      · exact h2
    all_goals assumption

theorem internalExport_iff (v : Core) : internalExport v = true ↔ MarkedInternal v := by
  unfold internalExport
  split
  · next e keys vals =>
    have hf : ∀ (ks : List String) (vs : List Core),
        (match (ks.zip vs).find? fun p => p.1 == "export" with
          | some (_, .node (.sym s) []) => s == "internal"
          | _ => false) = true ↔
        ∃ i : Nat, ks[i]? = some "export" ∧ vs[i]? = some (.node (.sym "internal") []) ∧
          ∀ j, j < i → ks[j]? ≠ some "export" := by
      intro ks
      induction ks with
      | nil => intro vs; simp
      | cons k ks ih =>
        intro vs
        cases vs with
        | nil => simp
        | cons w vs =>
          simp only [List.zip_cons_cons, List.find?_cons]
          by_cases hk : k = "export"
          · subst hk
            simp only [beq_self_eq_true]
            constructor
            · intro h
              refine ⟨0, rfl, ?_, by simp⟩
              split at h
              · next heq =>
                simp only [Option.some.injEq, Prod.mk.injEq] at heq
                rw [List.getElem?_cons_zero, heq.2, eq_of_beq h]
              · simp at h
            · rintro ⟨i, h1, h2, h3⟩
              cases i with
              | zero => simp at h2; subst h2; rfl
              | succ i => exact absurd rfl (h3 0 (by omega))
          · have hb : (k == "export") = false := by simpa using hk
            rw [hb]
            simp only
            rw [ih vs]
            constructor
            · rintro ⟨i, h1, h2, h3⟩
              refine ⟨i + 1, h1, h2, ?_⟩
              intro j hj
              cases j with
              | zero => simpa using hk
              | succ j => exact h3 j (by omega)
            · rintro ⟨i, h1, h2, h3⟩
              cases i with
              | zero => simp at h1; exact absurd h1 hk
              | succ i => exact ⟨i, h1, h2, fun j hj => h3 (j + 1) (by omega)⟩
    refine (hf keys vals).trans ?_
    constructor
    · rintro ⟨i, h⟩; exact ⟨e, keys, vals, i, rfl, h⟩
    · rintro ⟨e', k', v', i, h0, h⟩; cases h0; exact ⟨i, h⟩
  · next hne =>
    simp only [Bool.false_eq_true, false_iff]
    rintro ⟨e, keys, vals, i, rfl, _⟩
    exact hne e keys vals rfl

theorem position_capture {sc : List String × List Core} {x : String} (h0 : x ≠ "\x00") {i : Nat} :
    position (captureNames sc.1 sc.2) x = some i ↔ exportsAt sc i x ∧ ∀ j, j < i → ¬ exportsAt sc j x := by
  have hget : ∀ j, (captureNames sc.1 sc.2)[j]? = some x ↔ exportsAt sc j x := by
    intro j
    simp only [captureNames, List.getElem?_map, exportsAt, List.getElem?_zip_eq_some, Option.map_eq_some_iff,
      Prod.exists]
    constructor
    · rintro ⟨y, v, ⟨h1, h2⟩, he⟩
      split at he
      · exact absurd he.symm h0
      · next hv => exact ⟨he ▸ h1, v, h2, by rwa [← internalExport_iff]⟩
    · rintro ⟨h1, v, h2, hv⟩
      exact ⟨x, v, ⟨h1, h2⟩, by rw [← internalExport_iff] at hv; simp [hv]⟩
  constructor
  · intro h
    refine ⟨(hget i).mp (position_some h), ?_⟩
    intro j hj hx
    rw [← hget] at hx
    unfold position at h
    rw [List.findIdx?_eq_some_iff_getElem] at h
    obtain ⟨hl, _, hm⟩ := h
    have := hm j hj
    rw [List.getElem?_eq_getElem (by omega)] at hx
    simp only [Option.some.injEq] at hx
    simp [hx] at this
  · rintro ⟨h1, h2⟩
    rw [← hget] at h1
    obtain ⟨hl, hx⟩ := List.getElem?_eq_some_iff.mp h1
    unfold position
    rw [List.findIdx?_eq_some_iff_getElem]
    refine ⟨hl, by simp [hx], ?_⟩
    intro j hj
    have : (captureNames sc.1 sc.2)[j] ≠ x := by
      intro e
      exact h2 j hj ((hget j).mp (by rw [List.getElem?_eq_getElem (by omega), e]))
    simpa using this

theorem resolve_means {scs : List (List String × List Core)} {x : String} (h0 : x ≠ "\x00") {s i : Nat} :
    resolve scs x = some (s, i) ↔ Means scs x s i := by
  induction scs generalizing s with
  | nil => simp [resolve, Means]
  | cons sc scs ih =>
    simp only [resolve]
    cases hp : position (captureNames sc.1 sc.2) x with
    | some k =>
      have hk := (position_capture h0).mp hp
      simp only [Option.some.injEq, Prod.mk.injEq]
      constructor
      · rintro ⟨rfl, rfl⟩
        exact ⟨sc, rfl, hk.1, hk.2, fun s' _ h => absurd h (by omega)⟩
      · rintro ⟨sc', hs, h1, h2, h3⟩
        have : s = 0 := by
          rcases Nat.eq_zero_or_pos s with h | h
          · exact h
          · exact absurd hk.1 (h3 0 sc h rfl k)
        subst this
        simp at hs
        subst hs
        refine ⟨rfl, ?_⟩
        have := (position_capture h0).mpr ⟨h1, h2⟩
        rw [hp] at this
        exact Option.some.inj this
    | none =>
      have hno : ∀ j, ¬ exportsAt sc j x := by
        intro j
        induction j using Nat.strongRecOn with
        | _ j ihj =>
          intro hj
          have := (position_capture h0).mpr ⟨hj, ihj⟩
          rw [hp] at this
          cases this
      cases s with
      | zero =>
        constructor
        · intro h
          cases hr : resolve scs x <;> simp [hr] at h
        · rintro ⟨sc', hs, h1, _⟩
          simp at hs
          subst hs
          exact absurd h1 (hno i)
      | succ s =>
        have := ih (s := s)
        constructor
        · intro h
          have hr : resolve scs x = some (s, i) := by
            cases hr : resolve scs x with
            | none => simp [hr] at h
            | some p =>
              simp [hr] at h
              simp [← h.1, ← h.2]
          obtain ⟨sc', hs, h1, h2, h3⟩ := this.mp hr
          refine ⟨sc', hs, h1, h2, ?_⟩
          intro s' sc'' hs' hsc
          cases s' with
          | zero => simp at hsc; subst hsc; exact hno
          | succ s' => exact h3 s' sc'' (by omega) hsc
        · rintro ⟨sc', hs, h1, h2, h3⟩
          have := this.mpr ⟨sc', hs, h1, h2, fun s' sc'' h hsc => h3 (s' + 1) sc'' (by omega) hsc⟩
          simp [this]

/-- Renaming free names, as a substitution. -/
def maskVar (names : List String) (_ : Nat) : Var → Var
  | .free x => if names.contains x then .free ("__eu_internal:" ++ x) else .free x
  | v => v

theorem mask_eq (names : List String) (d : Nat) (e : Core) : maskInternal names e = e.mapVars (maskVar names) d := by
  unfold maskInternal
  induction e using Core.ind generalizing d with
  | hv v =>
    cases v with
    | free x =>
      simp only [Core.substFree, Core.mapVars, maskVar]
      split <;> rfl
    | bound s i n => rfl
  | hlet ns vs b t ihv ihb =>
    simp only [Core.substFree, Core.mapVars, mapVarsL_eq, substFreeL_eq, ← ihb]
    congr 1
    exact List.map_congr_left fun v hv => ihv v hv _
  | hlam ps b ih => simp only [Core.substFree, Core.mapVars, ← ih]
  | hn k xs ih =>
    simp only [Core.substFree, Core.mapVars, mapVarsL_eq, substFreeL_eq]
    congr 1
    exact List.map_congr_left fun v hv => ih v hv _

theorem mask_noop {names : List String} {e : Core} (h : ∀ x ∈ e.freeVars, x ∉ names) : maskInternal names e = e := by
  rw [mask_eq names 0]
  conv => rhs; rw [← mapVars_id 0 e]
  refine mapVars_congr (All.imp (fun d v hv => ?_) ((All_free (d := 0)).mpr h))
  cases v with
  | free x => simp [maskVar, hv x rfl]
  | bound s i n => rfl

theorem mask_withBody {names : List String} (X : Core) {e : Core} (h : ∀ x ∈ e.freeVars, x ∉ names) :
    maskInternal names (withBody X e) = withBody (maskInternal names X) e := by
  induction e using withBody.induct with
  | case1 ns vs b t ih =>
    rw [freeVars_let] at h
    simp only [List.mem_append, List.mem_flatMap] at h
    simp only [withBody]
    rw [← ih fun x hx => h x (Or.inr hx)]
    unfold maskInternal
    simp only [Core.substFree, substFreeL_eq]
    congr 1
    conv => rhs; rw [← List.map_id vs]
    exact List.map_congr_left fun v hv => mask_noop fun x hx => h x (Or.inl ⟨v, hv, hx⟩)
  | case2 e m ih =>
    rw [freeVars_node] at h
    simp only [List.mem_flatMap, List.mem_cons, List.not_mem_nil, or_false] at h
    simp only [withBody]
    rw [← ih fun x hx => h x ⟨e, Or.inl rfl, hx⟩]
    have := mask_noop (names := names) fun x hx => h x ⟨m, Or.inr rfl, hx⟩
    unfold maskInternal at this ⊢
    simp only [Core.substFree, substFreeL]
    rw [this]
  | case3 e h1 h2 =>
    rw [withBody, withBody]
    all_goals assumption

theorem internalNames_sub {e : Core} {x : String} (h : x ∈ internalNames e) : x ∈ scopeNames e := by
  induction e using internalNames.induct with
  | case1 ns vs b t ih =>
    simp only [internalNames, List.mem_append, List.mem_map, List.mem_filter] at h
    simp only [scopeNames, scopes, List.flatMap_append, List.mem_append, List.flatMap_cons, List.flatMap_nil,
      List.append_nil]
    rcases h with ⟨⟨y, v⟩, ⟨hz, _⟩, rfl⟩ | h
    · exact Or.inr (List.of_mem_zip hz).1
    · exact Or.inl (ih h)
  | case2 e m ih =>
    simp only [internalNames] at h
    simpa [scopeNames, scopes] using ih h
  | case3 e h1 h2 =>
    rw [internalNames] at h
    · cases h
    · exact h1
    · exact h2

theorem resolve_none {scs : List (List String × List Core)} {x : String} (h : resolve scs x = none)
    {sc : List String × List Core} (hsc : sc ∈ scs) : x ∉ captureNames sc.1 sc.2 := by
  induction scs with
  | nil => cases hsc
  | cons sc' scs ih =>
    simp only [resolve] at h
    split at h
    · cases h
    · next hp =>
      rcases List.mem_cons.mp hsc with rfl | hsc
      · exact position_none.mp hp
      · exact ih (by simpa using h) hsc

theorem internalNames_of {e : Core} {x : String} (hl : ∀ sc ∈ scopes e, sc.1.length = sc.2.length)
    {sc : List String × List Core} (hsc : sc ∈ scopes e) (hm : x ∈ sc.1) (_h0 : x ≠ "\x00")
    (hr : resolve (scopes e) x = none) : x ∈ internalNames e := by
  have hint : ∃ v, (x, v) ∈ sc.1.zip sc.2 ∧ internalExport v = true := by
    have hn := resolve_none hr hsc
    obtain ⟨i, hi, hx⟩ := List.getElem_of_mem hm
    have hi2 : i < sc.2.length := by rw [← hl sc hsc]; exact hi
    refine ⟨sc.2[i], ?_, ?_⟩
    · rw [List.mem_iff_getElem]
      exact ⟨i, by simp; omega, by simp [hx]⟩
    · cases hv : internalExport sc.2[i] with
      | true => rfl
      | false =>
        refine absurd ?_ hn
        simp only [captureNames, List.mem_map]
        refine ⟨(x, sc.2[i]), ?_, by simp [hv]⟩
        rw [List.mem_iff_getElem]
        exact ⟨i, by simp; omega, by simp [hx]⟩
  clear hr hl hm
  induction e using internalNames.induct with
  | case1 ns vs b t ih =>
    simp only [internalNames, List.mem_append, List.mem_map, List.mem_filter]
    simp only [scopes, List.mem_append, List.mem_cons, List.not_mem_nil, or_false] at hsc
    rcases hsc with hsc | rfl
    · exact Or.inr (ih hsc)
    · obtain ⟨v, h1, h2⟩ := hint
      exact Or.inl ⟨(x, v), ⟨h1, h2⟩, rfl⟩
  | case2 e m ih => simpa only [internalNames] using ih (by simpa only [scopes] using hsc)
  | case3 e h1 h2 =>
    rw [scopes] at hsc
    · cases hsc
    · exact h1
    · exact h2

/-- **What an importing unit sees.**  With an expression put in place of its body, a unit stays as it is,
and each free name `x` of the expression refers to the first exported binding of that name in the
innermost group that exports one; a name that only internal bindings have stays free, under a name that
no binding can have; other names stay free.  Hypotheses: the unit's own free names are not names it
binds, and are not the character NUL. -/
theorem rebody_means {self newBody : Core}
    (h : ∀ x ∈ self.freeVars, x ∉ scopeNames self ∧ x ≠ "\x00")
    (hl : ∀ sc ∈ scopes self, sc.1.length = sc.2.length) :
    ∃ f : Nat → Var → Var, rebody self newBody = withBody (newBody.mapVars f 0) self ∧
      (∀ d s i n, f d (.bound s i n) = .bound s i n) ∧
      ∀ d x, x ≠ "\x00" →
        (∀ s i, Means (scopes self) x s i → f d (.free x) = .bound (d + s) i (some x)) ∧
        ((∀ s i, ¬ Means (scopes self) x s i) →
          ((∃ sc ∈ scopes self, x ∈ sc.1) → f d (.free x) = .free ("__eu_internal:" ++ x)) ∧
          ((∀ sc ∈ scopes self, x ∉ sc.1) → f d (.free x) = .free x)) := by
  refine ⟨fun d v => maskVar (internalNames self) d (resolveVar (scopes self) d v), ?_, fun _ _ _ _ => rfl, ?_⟩
  · unfold rebody
    simp only
    rw [rebodyInt_spec h]
    have hm : maskInternal (internalNames self) (withBody (newBody.mapVars (resolveVar (scopes self)) 0) self) =
        withBody (newBody.mapVars
          (fun d v => maskVar (internalNames self) d (resolveVar (scopes self) d v)) 0) self := by
      rw [mask_withBody, mask_eq _ 0, mapVars_comp]
      intro x hx hi
      exact (h x hx).1 (internalNames_sub hi)
    split
    · next he =>
      rw [← hm]
      have : maskInternal (internalNames self) = fun e => e := by
        funext e
        exact mask_noop fun x _ => by simp [he]
      rw [this]
    · exact hm
  · intro d x hx
    constructor
    · intro s i hm
      rw [← resolve_means hx] at hm
      simp [resolveVar, hm, maskVar]
    · intro hno
      have : resolve (scopes self) x = none := by
        cases hr : resolve (scopes self) x with
        | none => rfl
        | some p => exact absurd ((resolve_means hx).mp hr) (hno p.1 p.2)
      constructor
      · rintro ⟨sc, hsc, hmem⟩
        have := internalNames_of hl hsc hmem hx this
        simp [resolveVar, ‹resolve (scopes self) x = none›, maskVar, this]
      · intro hnot
        have hni : x ∉ internalNames self := by
          intro hi
          have := internalNames_sub hi
          simp only [scopeNames, List.mem_flatMap] at this
          obtain ⟨sc, h1, h2⟩ := this
          exact hnot sc h1 h2
        simp [resolveVar, this, maskVar, hni]

/-- An internal binding is never what a name means. -/
theorem internal_not_meant {scs : List (List String × List Core)} {x : String} {s i : Nat}
    (hm : Means scs x s i) {sc : List String × List Core} (hs : scs[s]? = some sc) {v : Core}
    (hv : sc.2[i]? = some v) : ¬ MarkedInternal v := by
  obtain ⟨sc', hs', ⟨_, v', hv', hi⟩, _⟩ := hm
  rw [hs] at hs'
  cases hs'
  rw [hv] at hv'
  cases hv'
  exact hi

-- Two groups: the inner one has an internal `x`, the outer one an exported `x`.
section
def wInternal : Core :=
  .node .withMeta [.node (.literal "2") [], .node (.block ["export"]) [.node (.sym "internal") []]]
def wUnit : Core :=
  .letE ["x", "z"] [.node (.literal "1") [], .node (.literal "0") []]
    (.letE ["x", "y", "h"] [wInternal, .var (.bound 0 0 (some "x")), wInternal] (.node (.block []) []) .default) .default
example : rebody wUnit (.lam ["p"] (.node .app [.var (.free "x"), .var (.free "y"), .var (.free "h"),
      .var (.free "q")])) =
    withBody (.lam ["p"] (.node .app [.var (.bound 2 0 (some "x")), .var (.bound 1 1 (some "y")),
      .var (.free "__eu_internal:h"), .var (.free "q")])) wUnit := by rfl
example : ∀ x ∈ wUnit.freeVars, x ∉ scopeNames wUnit ∧ x ≠ "\x00" := by decide
example : ∀ sc ∈ scopes wUnit, sc.1.length = sc.2.length := by
  simp [wUnit, scopes]
example : Means (scopes wUnit) "x" 1 0 :=
  (resolve_means (by decide)).mp rfl
end

end Verif.Core
