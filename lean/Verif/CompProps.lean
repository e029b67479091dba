import Verif.CompSim
import Verif.CompScope

/-!
# Compiled programs

What can be seen of the code the compiler makes is what can be seen of the core expression it is made from.
-/

namespace Verif.Comp
open Verif.Bc Scope
variable {K : Type}

/-! ## Marks -/

mutual
theorem unmarked_marked {mark : Val K → Val K → Prop} {cfg : Config K} (hm : Mild cfg) (x : Exp K) (h : unmarked x = true)
    (E : Scopes K → Prop) : Marked mark cfg x E := by
  match x with
  | .let_ bs body =>
    simp only [unmarked, Bool.and_eq_true] at h
    refine ⟨fun ρ j d x _ hj hd _ => ?_, unmarkedBinds_marked hm bs h.1 _, unmarked_marked hm body h.2 _⟩
    rw [unmarked_demand bs h.1 hj] at hd
    cases hd
  | .lam _ _ body => exact unmarked_marked hm body h _
  | .app s f args =>
    simp only [unmarked, Bool.and_eq_true] at h
    refine ⟨fun ρ j x _ _ hd => ?_, unmarked_marked hm f h.1 _, unmarkedAll_marked hm args h.2 _⟩
    have : (argDemand (sigOf cfg f) j).forced = false := by
      unfold argDemand
      split
      · rename_i s hs
        cases hj : s[j]? with
        | none => rfl
        | some d =>
          have hd' := List.mem_of_getElem? hj
          unfold sigOf at hs
          split at hs
          · rename_i s' hs'
            cases hs
            split at hs'
            · exact hm.intrinsicSig _ _ hs' d hd'
            · cases hs'
          · split at hs
            · rename_i s' hs'
              cases hs
              obtain ⟨n, _, hn⟩ := Option.bind_eq_some_iff.1 hs'
              exact hm.userSig _ _ hn d hd'
            · obtain ⟨n, _, hn⟩ := Option.bind_eq_some_iff.1 hs
              exact hm.preludeSig _ _ hn d hd'
      · rfl
    rw [this] at hd
    cases hd
  | .list _ xs => exact unmarkedAll_marked hm xs h _
  | .block _ kvs => exact unmarkedKvs_marked hm kvs h _
  | .lookup _ obj _ => exact unmarked_marked hm obj h _
  | .lookupOr _ obj _ dft =>
    simp only [unmarked, Bool.and_eq_true] at h
    exact ⟨unmarked_marked hm obj h.1 _, unmarked_marked hm dft h.2 _⟩
  | .metaOf _ body m =>
    simp only [unmarked, Bool.and_eq_true] at h
    exact ⟨unmarked_marked hm body h.1 _, unmarked_marked hm m h.2 _⟩
  | .operator _ body => exact unmarked_marked hm body h _
  | .var _ _ _ | .free _ | .lit _ | .intrinsic _ | .other => exact trivial
termination_by structural x
theorem unmarkedAll_marked {mark : Val K → Val K → Prop} {cfg : Config K} (hm : Mild cfg) (xs : Exps K)
    (h : unmarkedAll xs = true) (E : Scopes K → Prop) : MarkedAll mark cfg xs E := by
  match xs with
  | .nil => trivial
  | .cons x xs =>
    simp only [unmarkedAll, Bool.and_eq_true] at h
    exact ⟨unmarked_marked hm x h.1 _, unmarkedAll_marked hm xs h.2 _⟩
termination_by structural xs
theorem unmarkedBinds_marked {mark : Val K → Val K → Prop} {cfg : Config K} (hm : Mild cfg) (bs : Binds K)
    (h : unmarkedBinds bs = true) (E : Scopes K → Prop) : MarkedBinds mark cfg bs E := by
  match bs with
  | .nil => trivial
  | .cons _ _ x rest =>
    simp only [unmarkedBinds, Bool.and_eq_true] at h
    exact ⟨unmarked_marked hm x h.1.2 _, unmarkedBinds_marked hm rest h.2 _⟩
termination_by structural bs
theorem unmarkedKvs_marked {mark : Val K → Val K → Prop} {cfg : Config K} (hm : Mild cfg) (kvs : Kvs K)
    (h : unmarkedKvs kvs = true) (E : Scopes K → Prop) : MarkedKvs mark cfg kvs E := by
  match kvs with
  | .nil => trivial
  | .cons _ x rest =>
    simp only [unmarkedKvs, Bool.and_eq_true] at h
    exact ⟨unmarked_marked hm x h.1 _, unmarkedKvs_marked hm rest h.2 _⟩
termination_by structural kvs
theorem unmarked_demand (bs : Binds K) (h : unmarkedBinds bs = true) {j : Nat} {d x} (hj : (demands bs)[j]? = some (d, x)) :
    d.forced = false := by
  match bs with
  | .nil => simp [demands] at hj
  | .cons _ d' x' rest =>
    simp only [unmarkedBinds, Bool.and_eq_true, Bool.not_eq_true'] at h
    cases j with
    | zero => simp [demands] at hj; obtain ⟨rfl, rfl⟩ := hj; exact h.1.1
    | succ j => exact unmarked_demand rest h.2 (by simpa [demands] using hj)
termination_by structural bs
end

/-! ## The meaning is kept -/

/-- Of a program nothing in which is marked for forcing, the code shows the same as the program: the same values, the same
fields of the values and so on, and the same errors. -/
theorem compile_shows_partial (cfg : Config K) (P : World K) (x : Exp K) (c : Syn K) (F : Fits cfg P) (hm : Mild cfg)
    (hu : unmarked x = true) (hh : cfg.render = .headless) (h : compile cfg x = .ok c) (p : List Nat) (s : Sem.Seen K) :
    Opt.Shows P.sem c p s ↔ Shows P x p s := by
  have hv : VR (M := ⟨cfg, P, True⟩) (.exp x .nil) (.clo 0 c .nil) :=
    compile_sound (M := ⟨cfg, P, True⟩) F hh h ⟨(· = .nil), rfl, unmarked_marked hm x hu _⟩
  exact ⟨fun hs => finds_bwd F hv hs (.inl trivial), fun hs => finds_fwd F hv hs (.inl trivial)⟩

/-- Of a program marked honestly, the code shows the same values. -/
theorem compile_honest_partial (cfg : Config K) (P : World K) (x : Exp K) (c : Syn K) (F : Fits cfg P)
    (hx : Honest P cfg x) (hh : cfg.render = .headless) (h : compile cfg x = .ok c) (p : List Nat) (s : Sem.Seen K)
    (hs : ∀ e, s ≠ .error e) : Opt.Shows P.sem c p s ↔ Shows P x p s := by
  have hmk : Mark (⟨cfg, P, False⟩ : Mode K) = Needs P := by
    funext v u
    exact propext ⟨fun h => h.2, fun h => ⟨id, h⟩⟩
  have hv : VR (M := ⟨cfg, P, False⟩) (.exp x .nil) (.clo 0 c .nil) :=
    compile_sound (M := ⟨cfg, P, False⟩) F hh h ⟨(· = .nil), rfl, by rw [hmk]; exact hx⟩
  exact ⟨fun h => finds_bwd F hv h (.inr hs), fun h => finds_fwd F hv h (.inr hs)⟩

/-! ### Examples -/

/-- Surroundings for the examples: the empty list, addition, a conditional, and something that fails. -/
def demo : World Nat where
  sem := ⟨[⟨.value, .cons 6 []⟩,
      ⟨.lambda 2 0, .case (.atom (.l 0)) (.cons 3 (.case (.atom (.l 2)) (.cons 3 (.bif 7 [.l 1, .l 0]) .nil) .none) .nil) .none⟩,
      ⟨.lambda 3 0, .case (.atom (.l 0)) (.cons 1 (.atom (.l 1)) (.cons 2 (.atom (.l 2)) .nil)) .none⟩,
      ⟨.lambda 1 0, .bif 9 [.v 0]⟩], 0,
    fun id ks => match id, ks with
      | 7, [a, b] => .ok (.cons 3 [.v (a + b)])
      | _, _ => .error 1⟩
  index := fun name => if name = "ADD" then some 1 else if name = "IF" then some 2 else if name = "FAIL" then some 3 else none
  prelude := fun _ => none
  noIndex := 0

/-- How the examples are compiled: addition is put in at the call. -/
def demoCfg : Config Nat where
  annotate := true
  render := .headless
  noUpdates := false
  noInline := false
  index := demo.index
  wrapper := fun i => match i with
    | 1 => some ⟨2, true, .case (.atom (.l 0)) (.cons 3 (.case (.atom (.l 2)) (.cons 3 (.bif 7 [.l 1, .l 0]) .nil) .none) .nil) .none⟩
    | _ => none
  fusible := fun _ => false
  intrinsicSig := fun _ => none
  userSig := fun _ => none
  preludeSig := fun _ => none
  prelude := fun _ => none
  base := 4
  emptyList := 0
  renderDoc := 0
  renderFragment := 0
  lookupOr := 0
  lookupFail := 0
  noIndex := 0

theorem demo_fits : Fits demoCfg demo := by
  refine ⟨⟨?_, ?_⟩, fun _ => rfl, fun name i h => ?_, fun _ => rfl, fun name i h => (by cases h), rfl, ⟨_, rfl, rfl⟩, fun i w h hi => ?_, fun _ => rfl⟩
  · decide +kernel
  · intro id ks c h
    simp only [demo] at h
    split at h
    · cases h; rfl
    · cases h
  · simp only [demoCfg, demo] at h ⊢
    split at h
    · cases h; decide
    · split at h
      · cases h; decide
      · split at h
        · cases h; decide
        · cases h
  · simp only [demoCfg] at h
    split at h
    · cases h; exact ⟨by decide, _, rfl, rfl⟩
    · cases h

theorem demo_mild : Mild demoCfg :=
  ⟨fun _ _ h => (by cases h), fun _ _ h => (by cases h), fun _ _ h => (by cases h)⟩

/-- `let f(x): x + y; y: 2 in [f(1), fail]`. -/
def sample : Exp Nat :=
  .let_ (.cons "f" {} (.lam 5 1 (.app 6 (.intrinsic "ADD") (.cons (.var 0 0 (some "x")) (.cons (.var 1 1 (some "y")) .nil))))
    (.cons "y" {} (.lit (.num 2)) .nil))
  (.list 7 (.cons (.app 8 (.var 0 0 (some "f")) (.cons (.lit (.num 1)) .nil))
    (.cons (.app 9 (.intrinsic "FAIL") (.cons (.lit .null) .nil)) .nil)))

/-- So many steps, by calculation. -/
def go (P : World K) : Nat → Cfg K → SRes K
  | 0, c => .next c
  | n + 1, c => match step P c with
    | .next c => go P n c
    | r => r

theorem go_ends {P : World K} {n c v} (h : go P n c = .done v) : ∃ m, Ends P m c (.ok v) := by
  induction n generalizing c with
  | zero => cases h
  | succ n ih =>
    unfold go at h
    split at h
    · rename_i c' hc
      obtain ⟨m, hm⟩ := ih h
      exact ⟨_, .next hc hm⟩
    · exact ⟨0, .done h⟩

theorem go_fails {P : World K} {n c x} (h : go P n c = .err x) : ∃ m, Ends P m c (.error x) := by
  induction n generalizing c with
  | zero => cases h
  | succ n ih =>
    unfold go at h
    split at h
    · rename_i c' hc
      obtain ⟨m, hm⟩ := ih h
      exact ⟨_, .next hc hm⟩
    · exact ⟨0, .err h⟩

/-- What is found along a path, by calculation. -/
def look (P : World K) (n : Nat) : List Nat → Val K → Option (Sem.Seen K)
  | [], v => match go P n (v, [.top]) with
    | .done w => seen P (.ok w)
    | .err x => some (.error x)
    | .next _ => none
  | i :: p, v => match go P n (v, [.top]) with
    | .done w => match shape P w with
      | .data _ (.ok vs) => match vs[i]? with
        | some u => look P n p u
        | none => none
      | _ => none
    | _ => none

theorem look_finds {P : World K} {n p v s} (h : look P n p v = some s) : Finds P p v s := by
  induction p generalizing v with
  | nil =>
    unfold look at h
    split at h
    · rename_i w hw
      obtain ⟨m, hm⟩ := go_ends hw
      exact ⟨m, _, hm, h⟩
    · rename_i x hx
      obtain ⟨m, hm⟩ := go_fails hx
      exact ⟨m, _, hm, h⟩
    · cases h
  | cons i p ih =>
    unfold look at h
    split at h
    · rename_i w hw
      obtain ⟨m, hm⟩ := go_ends hw
      split at h
      · rename_i t vs hs
        split at h
        · rename_i u hu
          exact ⟨m, _, _, _, _, hm, hs, hu, ih h⟩
        · cases h
      · cases h
    · cases h

/-- What compiled code shows along a path, by calculation. -/
def lookSem (P : Sem.World K) (n : Nat) : List Nat → Sem.Val K → Option (Sem.Seen K)
  | [], v => match Sem.program P n v with
    | some r => Sem.seen r
    | none => none
  | i :: p, v => match Sem.program P n v with
    | some (.ok w) => match Sem.shape w with
      | .data _ as e => match as[i]? with
        | some r => match Sem.resolve P e r with
          | .ok u => lookSem P n p u
          | .error _ => none
        | none => none
      | _ => none
    | _ => none

theorem lookSem_finds {P : Sem.World K} {n p v s} (h : lookSem P n p v = some s) : Opt.Finds P p v s := by
  induction p generalizing v with
  | nil =>
    unfold lookSem at h
    split at h
    · rename_i r hr
      exact ⟨n, _, hr, h⟩
    · cases h
  | cons i p ih =>
    unfold lookSem at h
    split at h
    · rename_i w hw
      split at h
      · rename_i t as e hs
        split at h
        · rename_i r hr
          split at h
          · rename_i u hu
            exact ⟨n, _, _, _, _, _, _, hw, hs, hr, hu, ih h⟩
          · cases h
        · cases h
      · cases h
    · cases h

def lookCompiled (cfg : Config K) (P : World K) (x : Exp K) (n : Nat) (p : List Nat) : Option (Sem.Seen K) :=
  match compile cfg x with
  | .ok c => lookSem P.sem n p (.clo 0 c .nil)
  | .error _ => none

theorem compiled_shows {cfg : Config K} {P : World K} {x n p s} (h : lookCompiled cfg P x n p = some s) :
    ∃ c, compile cfg x = .ok c ∧ Opt.Shows P.sem c p s := by
  unfold lookCompiled at h
  split at h
  · rename_i c hc
    exact ⟨c, hc, lookSem_finds h⟩
  · cases h

theorem compiles {cfg : Config K} {x : Exp K} (h : (compile cfg x).isOk = true) : ∃ c, compile cfg x = .ok c := by
  cases hc : compile cfg x with
  | ok c => exact ⟨c, rfl⟩
  | error e => rw [hc] at h; cases h

/-- The example meets the hypotheses of the first theorem.  Its first item is a boxed 3, its second fails: as written, and so
as compiled. -/
example : unmarked sample = true ∧ ∃ c, compile demoCfg sample = .ok c ∧
    Shows demo sample [0, 0] (.native 3) ∧ Opt.Shows demo.sem c [0, 0] (.native 3) ∧
    Shows demo sample [1, 0] (.error (.prim 1)) ∧ Opt.Shows demo.sem c [1, 0] (.error (.prim 1)) := by
  have h1 : Shows demo sample [0, 0] (.native 3) := look_finds (n := 60) (by decide +kernel)
  have h2 : Shows demo sample [1, 0] (.error (.prim 1)) := look_finds (n := 60) (by decide +kernel)
  obtain ⟨c, hc⟩ := compiles (cfg := demoCfg) (x := sample) (by decide +kernel)
  refine ⟨by decide +kernel, c, hc, h1, ?_, h2, ?_⟩
  · exact (compile_shows_partial demoCfg demo sample _ demo_fits demo_mild (by decide +kernel) rfl hc _ _).2 h1
  · exact (compile_shows_partial demoCfg demo sample _ demo_fits demo_mild (by decide +kernel) rfl hc _ _).2 h2

/-- Needed by what it takes to get past it. -/
theorem go_needs {P : World K} {v u : Val K} {n m : Nat} {b : Val K} (hu : Ends P m (u, [.top]) (.ok b)) (hm : m < n)
    (hv : ∀ S, ∃ c, go P n (v, S) = .next c) : Needs P v u := by
  intro S k a hk
  refine ⟨m, b, Nat.lt_of_lt_of_le hm ?_, hu⟩
  obtain ⟨c, hc⟩ := hv S
  clear hu hm hv
  generalize (v, S) = d at hc hk
  induction n generalizing d k with
  | zero => exact Nat.zero_le _
  | succ n ih =>
    unfold go at hc
    split at hc
    · rename_i c' hs
      cases hk with
      | done hd => rw [hs] at hd; cases hd
      | next hd hk =>
        rw [hs] at hd
        cases hd
        exact Nat.succ_le_succ (ih _ _ hc hk)
    · rename_i hn
      exact (hn _ hc).elim

/-- What the analysis says of something to be forced early: needed for sure, and more than once. -/
def must : Demand := { card := .multi, strictness := .strict }

/-- `x: 1 + 2`, with `x` marked. -/
def sum : Binds Nat :=
  .cons "x" must (.app 5 (.intrinsic "ADD") (.cons (.lit (.num 1)) (.cons (.lit (.num 2)) .nil))) .nil

/-- `let x: 1 + 2 in x + x`. -/
def twice : Exp Nat := .let_ sum (.app 6 (.intrinsic "ADD") (.cons (.var 0 0 (some "x")) (.cons (.var 0 0 (some "x")) .nil)))

/-- `x` comes to a value in so many steps. -/
def steps (P : World K) : Nat → Cfg K → Option (Nat × Val K)
  | 0, _ => none
  | n + 1, c => match step P c with
    | .next c => (steps P n c).map fun (m, v) => (m + 1, v)
    | .done v => some (0, v)
    | .err _ => none

theorem steps_ends {P : World K} {n c m v} (h : steps P n c = some (m, v)) : Ends P m c (.ok v) := by
  induction n generalizing c m with
  | zero => cases h
  | succ n ih =>
    unfold steps at h
    split at h
    · rename_i c' hc
      cases hs : steps P n c' with
      | none => rw [hs] at h; cases h
      | some r =>
        obtain ⟨m', v'⟩ := r
        rw [hs] at h
        cases h
        exact .next hc (ih hs)
    · rename_i v' hd
      cases h
      exact .done hd
    · cases h

theorem twice_honest : Honest demo demoCfg twice := by
  refine ⟨fun ρ j d x hρ hj _ _ => ?_, ⟨unmarked_marked demo_mild _ (by decide +kernel) _, (by trivial)⟩,
    unmarked_marked demo_mild _ (by decide +kernel) _⟩
  subst hρ
  match j with
  | 0 =>
    have : ((steps demo 60 (.exp (.var 0 0 none) (.recs sum .nil), [.top])).map (·.1)) = some 16 := by decide +kernel
    obtain ⟨r, hs, hr⟩ := Option.map_eq_some_iff.1 this
    obtain ⟨m, b⟩ := r
    cases hr
    refine go_needs (n := 17) (steps_ends hs) (by decide) fun S => ⟨_, rfl⟩
  | j + 1 => cases hj

/-- It meets the hypotheses of the second theorem, and comes to 6. -/
example : Honest demo demoCfg twice ∧ ∃ c, compile demoCfg twice = .ok c ∧ Opt.Shows demo.sem c [0] (.native 6) := by
  obtain ⟨c, hc⟩ := compiles (cfg := demoCfg) (x := twice) (by decide +kernel)
  exact ⟨twice_honest, c, hc, (compile_honest_partial demoCfg demo twice c demo_fits twice_honest rfl hc _ _ (by simp)).2
    (look_finds (n := 60) (by decide +kernel))⟩

/-- `let x: fail in [x, x]`, with `x` marked although a list does not need its items. -/
def hasty : Exp Nat :=
  .let_ (.cons "x" must (.app 5 (.intrinsic "FAIL") (.cons (.lit .null) .nil)) .nil)
  (.list 6 (.cons (.var 0 0 (some "x")) (.cons (.var 0 0 (some "x")) .nil)))

/-- A marking is not without effect: marked so, a program that means a list compiles to one that fails. -/
theorem compile_hasty : Fits demoCfg demo ∧ Mild demoCfg ∧ demoCfg.render = .headless ∧ Shows demo hasty [] (.data 7 2) ∧
    ∃ c, compile demoCfg hasty = .ok c ∧ Opt.Shows demo.sem c [] (.error (.prim 1)) :=
  ⟨demo_fits, demo_mild, rfl, look_finds (n := 60) (by decide +kernel), compiled_shows (n := 60) (by decide +kernel)⟩

/-! ## Scopes -/

/-- Compiled code refers to nothing that is not there: every name in it is one bound around it, every global one of those
there are.  Constructors have as many arguments as they should, and no case has two branches for one tag. -/
theorem compile_scoped (cfg : Config K) (g : Nat) (x : Exp K) (c : Syn K) (ht : Tables cfg g) (h : compile cfg x = .ok c) :
    Opt.wf g 0 c = true :=
  (compile_ok cfg g ht x).1 c h

/-- A program all of whose names are known compiles: the compiler neither reports an error nor falls over. -/
theorem compile_total (cfg : Config K) (g : Nat) (x : Exp K) (ht : Tables cfg g) (hx : closed cfg [] x = true) :
    ∃ c, compile cfg x = .ok c :=
  (compile_ok cfg g ht x).2 hx

theorem demo_tables : Tables demoCfg 4 := by
  refine ⟨fun name i h => demo_fits.inRange name i h, fun _ _ h => (by cases h), by decide, by decide, by decide, by decide, by decide,
    fun i w h _ => ?_⟩
  simp only [demoCfg] at h
  split at h
  · cases h; decide +kernel
  · cases h

/-- `{a: x.b? ...}`: a block with a lookup that has a default, in a function in a let, rendered as a document. -/
def looked : Exp Nat :=
  .let_ (.cons "f" {} (.lam 5 2 (.block 6 (.cons 1 (.lookupOr 7 (.var 0 1 none) 8 (.var 1 0 none)) .nil))) .nil)
  (.metaOf 9 (.app 10 (.var 0 0 none) (.cons (.lit .null) .nil)) (.list 11 (.cons (.intrinsic "ADD") .nil)))

/-- Both theorems apply to it, however it is to be rendered. -/
example (r : Render) : closed { demoCfg with render := r } [] looked = true ∧
    ∃ c, compile { demoCfg with render := r } looked = .ok c ∧ Opt.wf 4 0 c = true := by
  have ht : Tables { demoCfg with render := r } 4 := ⟨demo_tables.1, demo_tables.2, demo_tables.3, demo_tables.4, demo_tables.5, demo_tables.6, demo_tables.7, demo_tables.8⟩
  have hc : closed { demoCfg with render := r } [] looked = true := by cases r <;> decide +kernel
  obtain ⟨c, hc'⟩ := compile_total _ 4 _ ht hc
  exact ⟨hc, c, hc', compile_scoped _ 4 _ c ht hc'⟩

end Verif.Comp
