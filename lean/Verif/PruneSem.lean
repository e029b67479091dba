import Verif.PruneTrav

/-! Helper lemmas about pruning: the end of the marking, and what is seen of the result. -/

namespace Verif.Prune

open Verif.Core

/-! ## The passes -/

/-- The body of the unit, and the metadata on the way to it, are reached. -/
def Ends (st : St) (p : Path) : Core → Prop
  | .letE _ _ b _ => Ends st (.body :: p) b
  | .node .withMeta [e, _] => Active st (.part 1 :: p) ∧ Ends st (.part 0 :: p) e
  | _ => Active st p

theorem Ends.mono {st st' : St} (h : ∀ q, Active st q → Active st' q) {p : Path} {e : Core} (he : Ends st p e) :
    Ends st' p e := by
  induction p, e using Ends.induct with
  | case1 p ns vs b t ih => simp only [Ends] at *; exact ih he
  | case2 p e m ih => simp only [Ends] at *; exact ⟨h _ he.1, ih he.2⟩
  | case3 e p h1 h2 => rw [Ends] at * <;> first | exact h _ he | assumption

/-- The marks at the beginning. -/
structure Init (st : St) : Prop where
  place : ∀ x, st.seen x = .unseen ∨ st.seen x = .seen ∧ (Top x ∨ ∃ p, x = .part 1 :: p ∧ Top p)
  disq : ∀ x, st.disq x = false

theorem Init.set {st : St} (h : Init st) {x : Path} (hx : Top x ∨ ∃ p, x = .part 1 :: p ∧ Top p) :
    Init (st.set x .seen) := by
  refine ⟨fun y => ?_, h.disq⟩
  simp only [St.set]
  split
  · subst_vars; exact .inr ⟨rfl, hx⟩
  · exact h.place y

theorem active_set {st : St} {x q : Path} (h : Active st q) : Active (st.set x .seen) q := by
  simp only [Active, St.set] at *
  split <;> simp_all

theorem markBody_active {e : Core} {p : Path} : ∀ {st : St} {q}, Active st q → Active (markBody p e st) q := by
  induction p, e using Ends.induct with
  | case1 p ns vs b t ih => intro st q h; rw [markBody]; exact ih h
  | case2 p e m ih => intro st q h; rw [markBody]; exact ih (active_set h)
  | case3 e p h1 h2 => intro st q h; rw [markBody] <;> first | exact active_set h | assumption

theorem markBody_init {e : Core} {p : Path} : ∀ {st : St}, Init st → Top p →
    Init (markBody p e st) ∧ Ends (markBody p e st) p e := by
  induction p, e using Ends.induct with
  | case1 p ns vs b t ih =>
    intro st h hp
    rw [markBody, Ends]
    exact ih h (by intro s hs; simp at hs; exact hs.elim (fun h => .inl h) (hp s))
  | case2 p e m ih =>
    intro st h hp
    rw [markBody, Ends]
    obtain ⟨h1, h2⟩ := ih (h.set (.inr ⟨p, rfl, hp⟩))
      (by intro s hs; simp at hs; exact hs.elim (fun h => .inr h) (hp s))
    exact ⟨h1, markBody_active (by simp [Active, St.set]), h2⟩
  | case3 e p h1 h2 =>
    intro st h hp
    have e1 : markBody p e st = st.set p .seen := by rw [markBody] <;> assumption
    have e2 : ∀ st, Ends st p e = Active st p := fun st => by rw [Ends] <;> assumption
    rw [e1, e2]
    exact ⟨h.set (.inl hp), by simp [Active, St.set]⟩

theorem Init.inv {root : Core} {st : St} (h : Init st) : Inv root st := by
  refine ⟨?_, ?_, ?_, ?_⟩
  · intro x hx
    rcases h.place x with h | ⟨_, h⟩
    · simp [Active, h] at hx
    · exact h.imp id .inl
  · intro x hx; rcases h.place x with h | ⟨h, _⟩ <;> simp [h] at hx
  · intro x hx; rcases h.place x with h | ⟨h, _⟩ <;> simp [h] at hx
  · intro x hx; simp [h.disq] at hx

/-- The marking is complete. -/
structure Done (root : Core) (st : St) : Prop where
  closed : ∀ q, Active st q → CoveredAt root st q
  bound : ∀ i p, st.seen (.bind i :: p) ≠ .unseen → CoveredAt root st (.bind i :: p)
  dis : ∀ x, st.disq x = true → st.cand x = false
  ends : Ends st [] root

theorem inv_count {root : Core} {st : St} (h : Inv root st) (n : Nat) : Inv root { st with count := n } :=
  ⟨h.place, h.soft, fun x hx q hq => ⟨(h.cov x hx q hq).bare, (h.cov x hx q hq).look⟩, h.dis⟩

theorem passes_done {root : Core} (hws : root.WS []) : ∀ (fuel : Nat) (st : St), Inv root st → Ends st [] root →
    measure root st < fuel → ∃ st', passes root fuel st = some st' ∧ Done root st' := by
  intro fuel
  induction fuel with
  | zero => intro st _ _ h; omega
  | succ fuel ih =>
    intro st hi he hm
    obtain ⟨st', h1, h2, _, h4⟩ := traverse_out hws root [] false [] { st with count := 0 } rfl (inv_count hi 0)
      (by intro s q vals hs; simp at hs) (by intro h; cases h)
    have he' : Ends st' [] root := Ends.mono (st := st) (fun q hq => h2.mono.active q hq) he
    have hms := h2.meas
    rw [passes, h1]
    simp only [Option.bind_some]
    split
    · rename_i hc
      refine ⟨st', rfl, ?_⟩
      have hcl : ∀ q, Active st' q → CoveredAt root st' q := by
        intro q hq
        refine h4 q (List.nil_suffix) ?_
        cases hs : st.seen q with
        | unseen =>
          have := h2.mono.quiet hc q hs
          exact absurd this (active_soft hq).2
        | soft =>
          have := h2.mono.soft q hs
          exact absurd this (active_soft hq).1
        | seen => exact .inl hs
        | traversed => exact .inr hs
      refine ⟨hcl, ?_, h2.inv.dis, he'⟩
      intro i p hu
      cases hs : st'.seen (.bind i :: p) with
      | unseen => exact absurd hs hu
      | soft =>
        rcases h2.inv.soft _ hs with h | ⟨a, g1, g2⟩
        · exact absurd h not_top_bind
        · exact (hcl a g2).sub g1
      | seen => exact hcl _ (.inl hs)
      | traversed => exact hcl _ (.inr hs)
    · rename_i hc
      refine ih st' h2.inv he' ?_
      have : measure root { st with count := 0 } = measure root st := rfl
      simp only [this] at hms
      omega

/-- Marking ends, and then it is complete. -/
theorem marking {root : Core} (hws : root.WS []) :
    ∃ st, passes root ((nodes [] root).length + 1) (markBody [] root {}) = some st ∧ Done root st := by
  obtain ⟨h1, h2⟩ := markBody_init (e := root) (p := []) (st := {}) ⟨fun _ => .inl rfl, fun _ => rfl⟩
    (by intro s hs; simp at hs)
  exact passes_done hws _ _ h1.inv h2 (Nat.lt_succ_of_le (List.countP_le_length))

/-! ## What is seen of the result -/

variable {root : Core} {st : St}

/-- The binders around a node, before and after. -/
inductive ERel (st : St) : List Scope → Env → Env → Prop where
  | nil : ERel st [] [] []
  | lam {sc E E'} (n l : Nat) : ERel st sc E E' → ERel st (.lam n :: sc) (.lam l :: E) (.lam l :: E')
  | letS {sc E E'} (q : Path) (vs : List Core) (pl : Bool) : ERel st sc E E' →
      ERel st (.letS q vs :: sc) (.letF vs :: E) (.letF (blankB st pl q 0 vs) :: E')

theorem ERel.drop {sc : List Scope} {E E' : Env} (h : ERel st sc E E') (s : Nat) :
    ERel st (sc.drop s) (E.drop s) (E'.drop s) := by
  induction s generalizing sc E E' with
  | zero => exact h
  | succ s ih =>
    cases h with
    | nil => exact .nil
    | lam n l h => exact ih h
    | letS q vs pl h => exact ih h

theorem ERel.lams {sc : List Scope} {E E' : Env} (h : ERel st sc E E') : lamCount E = lamCount E' := by
  induction h with
  | nil => rfl
  | lam n l h ih => simp [lamCount, ih]
  | letS q vs pl h ih => simp [lamCount, ih]

/-- A node before and after. -/
inductive VRel (st : St) (p : Path) : Core → Core → Prop where
  | same (e : Core) : VRel st p e (blankW st .none p e)
  | letV (ns : List String) (vs : List Core) (b : Core) (t : LetType) (pl : Bool) :
      VRel st p (.letE ns vs b t) (.letE ns (blankB st pl p 0 vs) (blankW st .none (.body :: p) b) t)

/-- A binding after pruning. -/
def blankV (st : St) (pl : Bool) (t : Path) (v : Core) : Core :=
  if st.seen t = .unseen then .node .errEliminated [] else blankW st (st.filter pl t) t v

theorem blankB_get {pl : Bool} {p : Path} {vs : List Core} : ∀ {i j : Nat},
    (blankB st pl p i vs)[j]? = vs[j]?.map (blankV st pl (.bind (i + j) :: p)) := by
  induction vs with
  | nil => intro i j; simp [blankB]
  | cons v vs ih =>
    intro i j
    cases j with
    | zero => simp [blankB, blankV]
    | succ j =>
      simp only [blankB, List.getElem?_cons_succ, ih]
      rw [show i + 1 + j = i + (j + 1) by omega]

theorem blankL_get {p : Path} {vs : List Core} : ∀ {i j : Nat},
    (blankL st p i vs)[j]? = vs[j]?.map (blankW st .none (.part (i + j) :: p)) := by
  induction vs with
  | nil => intro i j; simp [blankL]
  | cons v vs ih =>
    intro i j
    cases j with
    | zero => simp [blankL]
    | succ j =>
      simp only [blankL, List.getElem?_cons_succ, ih]
      rw [show i + 1 + j = i + (j + 1) by omega]

/-- What a reference stands for, before and after. -/
theorem look_rel {sc : List Scope} {E E' : Env} (h : ERel st sc E E') (s i : Nat) (n : Option String) :
    (look E (.bound s i n) = look E' (.bound s i n) ∧ ∀ E1 e, look E (.bound s i n) ≠ .val E1 e) ∨
    ∃ t v pl, target sc s i = some (some t) ∧ look E (.bound s i n) = .val (E.drop s) v ∧
      look E' (.bound s i n) = .val (E'.drop s) (blankV st pl t v) ∧
      ∃ q vals, sc[s]? = some (.letS q vals) ∧ vals[i]? = some v ∧ t = .bind i :: q := by
  have hd := h.drop s
  have hs : sc[s]? = (sc.drop s)[0]? := by simp
  simp only [look, target, hs]
  generalize sc.drop s = a, E.drop s = b, E'.drop s = c at *
  cases hd with
  | nil => exact .inl ⟨rfl, by simp⟩
  | lam n l h => exact .inl ⟨rfl, by simp⟩
  | letS q vs pl h =>
    simp only [blankB_get, Nat.zero_add, List.getElem?_cons_zero]
    cases hv : vs[i]? with
    | none => exact .inl ⟨rfl, by simp⟩
    | some v =>
      refine .inr ⟨.bind i :: q, v, pl, ?_, rfl, rfl, q, vs, rfl, hv, rfl⟩
      rw [if_pos (List.getElem?_eq_some_iff.1 hv).1]

theorem filter_disq {root : Core} (hd : Done root st) {t : Path} (h : st.disq t = true) (pl : Bool) :
    st.filter pl t = .none := by
  simp [St.filter, St.members, hd.dis t h]

/-- Only block declarations are filtered. -/
theorem blankW_value {ms : List String} {t : Path} {v : Core} (h : isDefaultLet v = false) :
    blankW st (.value ms) t v = blankW st .none t v := by
  cases v with
  | var v => rfl
  | letE ns vs b ty =>
    cases ty with
    | default => simp [isDefaultLet] at h
    | _ => rfl
  | lam ps b => rfl
  | node k xs => cases k <;> rfl

theorem blankW_body {ms : List String} {t : Path} {v : Core} (h : ∀ ks xs, v ≠ .node (.block ks) xs) :
    blankW st (.body ms) t v = blankW st .none t v := by
  cases v with
  | var v => rfl
  | letE ns vs b ty => cases ty <;> rfl
  | lam ps b => rfl
  | node k xs =>
    cases k
    case block ks => exact absurd rfl (h ks xs)
    all_goals rfl

theorem member_blankF {α : Type} {g : Core → α} {g' : Core → α} {key : String} {ms : List String} (hm : key ∈ ms)
    {p : Path} : ∀ {ks : List String} {xs : List Core} {i : Nat},
    (∀ (j : Nat) x, xs[j]? = some x → g x = g' (blankW st .none (.part (i + j) :: p) x)) →
    member key ks (xs.map g) = member key (ks.filter (· ∈ ms)) ((blankF st ms p i ks xs).map g') := by
  intro ks
  induction ks with
  | nil => intro xs i _; simp [member]
  | cons k ks ih =>
    intro xs i h
    cases xs with
    | nil =>
      generalize (k :: ks).filter (· ∈ ms) = l
      cases l <;> simp [blankF, member]
    | cons x xs =>
      have h0 := h 0 x rfl
      have next := ih (xs := xs) (i := i + 1) (fun j y hj => by
        rw [show i + 1 + j = i + (j + 1) by omega]
        exact h (j + 1) y (by simpa using hj))
      by_cases hk : k ∈ ms
      · simp only [blankF, List.filter_cons, hk, decide_true, if_true, List.map_cons, member]
        split
        · simp only [Option.some.injEq]; exact h0
        · exact next
      · have hne : k ≠ key := by rintro rfl; exact hk hm
        simp only [blankF, List.filter_cons, hk, decide_false, Bool.false_eq_true, if_false, List.map_cons, member,
          if_neg hne]
        exact next

theorem resolveL_eq (ts : List Tree) : resolveL ts = ts.map resolve := by
  induction ts with
  | nil => rfl
  | cons t ts ih => simp [resolveL, ih]

/-- The same is seen before and after, as far as `k` follows references. -/
def KRel (root : Core) (st : St) (k : Env → Core → Tree) : Prop :=
  ∀ p sc e e' E E', subAt root p = some (sc, e) → CoveredAt root st p →
    ((∃ s i n, e = .var (.bound s i n)) → ¬ Exempt root p) → ERel st sc E E' → VRel st p e e' →
    resolve (k E e) = resolve (k E' e')

/-- The same members are found before and after. -/
def FRel (root : Core) (st : St) (k : Env → Core → Tree) : Prop :=
  ∀ p sc e E E' ms m, subAt root p = some (sc, e) → CoveredAt root st p → isDefaultLet e = true → ERel st sc E E' →
    m ∈ ms → ∀ fs, carryOut m (resolve (k E e) :: fs) = carryOut m (resolve (k E' (blankW st (.value ms) p e)) :: fs)

/-- The object of a lookup. -/
theorem object_rel (hd : Done root st) {k : Env → Core → Tree} (hk : KRel root st k) (hf : FRel root st k) {p : Path}
    {sc : List Scope} {m : String} {s i : Nat} {n : Option String} {gs : List Core}
    (h : subAt root p = some (sc, .node (.lookup m) (.var (.bound s i n) :: gs))) (hc : CoveredAt root st p) {E E' : Env}
    (hE : ERel st sc E E') (fs : List Tree) :
    carryOut m (resolve (unfoldWith k E (.var (.bound s i n))) :: fs) =
      carryOut m (resolve (unfoldWith k E' (.var (.bound s i n))) :: fs) := by
  simp only [unfoldWith]
  rcases look_rel hE s i n with ⟨h1, h2⟩ | ⟨t, v, pl, ht, l1, l2, q, vals, hsc, hv, rfl⟩
  · rw [h1]
  · obtain ⟨hs, hl⟩ := (hc p (List.suffix_refl _)).look _ _ _ _ s i _ h rfl ht
    obtain ⟨_, _, v', he, g1, g2, _, hsub⟩ := target_at h ht
    rw [hsc] at g1
    simp only [Option.some.injEq, Scope.letS.injEq] at g1
    obtain ⟨rfl, rfl⟩ := g1
    rw [hv] at g2
    simp only [Option.some.injEq] at g2
    subst g2
    have hcv := hd.bound i _ hs
    have hEd := hE.drop s
    have unf : resolve (k (E.drop s) v) = resolve (k (E'.drop s) (blankW st .none (.bind i :: q) v)) :=
      hk _ _ _ _ _ _ hsub hcv (fun _ h => h) hEd (.same v)
    simp only [l1, l2, Core.seen, blankV, if_neg hs]
    cases hfl : st.filter pl (.bind i :: q) with
    | none => rw [unf]
    | body ms =>
      unfold St.filter at hfl
      split at hfl
      · cases hfl
      · split at hfl <;> cases hfl
    | value ms =>
      cases hdl : isDefaultLet v with
      | false => rw [blankW_value hdl, unf]
      | true =>
        refine hf _ _ _ _ _ ms m hsub hcv hdl hEd ?_ fs
        rcases hl _ _ hsub hdl with h | h
        · rw [filter_disq hd h] at hfl; cases hfl
        · unfold St.filter at hfl
          split at hfl
          · cases hfl
          · split at hfl
            · rename_i hmm
              simp only [Filter.value.injEq] at hfl
              subst hfl
              unfold St.members at hmm
              split at hmm
              · simp only [Option.some.injEq] at hmm; subst hmm; exact h
              · cases hmm
            · cases hfl

theorem resolve_node {kd : Kind} (hk : ∀ m, kd ≠ .lookup m) (ts : List Tree) :
    resolve (.node kd ts) = .node kd (ts.map resolve) := by
  rw [← resolveL_eq]
  cases kd <;> first | rfl | exact absurd rfl (hk _)

theorem blankW_node {p : Path} {kd : Kind} (hk : ∀ m, kd ≠ .lookup m) (xs : List Core) :
    blankW st .none p (.node kd xs) = .node kd (blankL st p 0 xs) := by
  cases kd <;> first | rfl | exact absurd rfl (hk _)

/-- Only the first fallback counts. -/
theorem carryOut_head (m : String) (o : Tree) (fs gs : List Tree) (h : fs.head? = gs.head?) :
    carryOut m (o :: fs) = carryOut m (o :: gs) := by
  unfold carryOut
  split
  · rename_i heq
    simp only [List.cons.injEq] at heq
    obtain ⟨rfl, rfl⟩ := heq
    rw [h]
  · rename_i hne heq
    simp only [List.cons.injEq] at heq
    obtain ⟨rfl, rfl⟩ := heq
    split
    · rename_i heq2
      simp only [List.cons.injEq] at heq2
      exact absurd heq2.1 (hne _ _)
    · rename_i heq2
      simp only [List.cons.injEq] at heq2
      obtain ⟨rfl, rfl⟩ := heq2
      rw [h]
    · rename_i heq2; cases heq2
  · rename_i heq; cases heq

theorem boundVar_none {o : Core} (h : boundVar o = none) : ¬ ∃ s i n, o = .var (.bound s i n) := by
  rintro ⟨s, i, n, rfl⟩
  simp [boundVar] at h

/-- One round of following references. -/
theorem round (hns : NoSelf root) (hd : Done root st) {k : Env → Core → Tree} (hk : KRel root st k) (hf : FRel root st k)
    (e : Core) : ∀ p sc E E', subAt root p = some (sc, e) → CoveredAt root st p →
      ((∃ s i n, e = .var (.bound s i n)) → ¬ Exempt root p) → ERel st sc E E' →
      resolve (unfoldWith k E e) = resolve (unfoldWith k E' (blankW st .none p e)) := by
  induction e using Core.ind with
  | hv v =>
    intro p sc E E' h hc hx hE
    cases v with
    | free x => rfl
    | bound s i n =>
      simp only [blankW, unfoldWith]
      rcases look_rel hE s i n with ⟨h1, _⟩ | ⟨t, v, pl, ht, l1, l2, q, vals, hsc, hv, rfl⟩
      · rw [h1]
      · obtain ⟨g1, g2⟩ := (hc p (List.suffix_refl _)).bare _ s i n _ h (hx ⟨_, _, _, rfl⟩) ht
        obtain ⟨_, _, v', he, k1, k2, _, hsub⟩ := target_at h ht
        rw [hsc] at k1
        simp only [Option.some.injEq, Scope.letS.injEq] at k1
        obtain ⟨rfl, rfl⟩ := k1
        rw [hv] at k2
        simp only [Option.some.injEq] at k2
        subst k2
        rw [l1, l2, blankV, if_neg g1, filter_disq hd g2]
        exact hk _ _ _ _ _ _ hsub (hd.bound _ _ g1) (fun _ h => h) (hE.drop s) (.same v)
  | hlet ns vs b t ihv ihb =>
    intro p sc E E' h hc _ hE
    simp only [blankW, unfoldWith, Filter.toBody]
    exact ihb _ _ _ _ (by rw [subAt_cons h]; rfl) (hc.sub (List.suffix_cons _ _)) (fun _ h => h) (.letS _ _ _ hE)
  | hlam ps b ih =>
    intro p sc E E' h hc _ hE
    simp only [blankW, unfoldWith, hE.lams, resolve]
    congr 1
    exact ih (.body :: p) _ _ _ (by rw [subAt_cons h]; rfl) (hc.sub (List.suffix_cons _ _)) (fun _ h => h) (.lam _ _ hE)
  | hn kd xs ih =>
    intro p sc E E' h hc _ hE
    by_cases hkd : ∃ m, kd = .lookup m
    · obtain ⟨m, rfl⟩ := hkd
      simp only [blankW, unfoldWith, unfoldWithL_eq, resolve, resolveL_eq, List.map_map]
      cases xs with
      | nil => rfl
      | cons o fs =>
        have ho : subAt root (.obj :: p) = some (sc, o) := by rw [subAt_cons h]; rfl
        have hfb : (fs.map (resolve ∘ unfoldWith k E)).head? = ((blankFb st p fs).map (resolve ∘ unfoldWith k E')).head? := by
          cases fs with
          | nil => rfl
          | cons f fs =>
            simp only [List.map_cons, List.head?_cons, blankFb, Option.some.injEq, Function.comp]
            refine ih f (by simp) _ _ _ _ (by rw [subAt_cons h]; rfl) (hc.sub (List.suffix_cons _ _)) ?_ hE
            rintro _ hex
            simp only [Exempt, h, selfFallback] at hex
            obtain ⟨⟨s, i⟩, h1, h2⟩ := hex
            have := subAt_noSelf hns h
            simp only [NoSelf, NoSelfO] at this
            obtain ⟨n, rfl⟩ := boundVar_some h1
            obtain ⟨n', rfl⟩ := boundVar_some h2
            exact this.1 (s, i) rfl rfl
        simp only [blankO, List.map_cons, Function.comp]
        refine Eq.trans ?_ (carryOut_head m _ _ _ hfb)
        cases hb : boundVar o with
        | some r =>
          obtain ⟨s, i⟩ := r
          obtain ⟨n, rfl⟩ := boundVar_some hb
          exact object_rel hd hk hf h hc hE _
        | none =>
          rw [ih o (by simp) _ _ _ _ ho (hc.sub (List.suffix_cons _ _)) (fun h => absurd h (boundVar_none hb)) hE]
    · have hkd' : ∀ m, kd ≠ .lookup m := fun m hm => hkd ⟨m, hm⟩
      rw [blankW_node hkd', unfoldWith, unfoldWith, resolve_node hkd', resolve_node hkd', unfoldWithL_eq, unfoldWithL_eq]
      congr 1
      refine List.ext_getElem? fun j => ?_
      simp only [List.getElem?_map, blankL_get, Option.map_map]
      cases hj : xs[j]? with
      | none => rfl
      | some x =>
        simp only [Option.map_some, Function.comp, Option.some.injEq, Nat.zero_add]
        refine ih x (List.mem_of_getElem? hj) _ _ _ _ ?_ (hc.sub (List.suffix_cons _ _)) (fun _ h => h) hE
        rw [subAt_cons h, childOf_part hkd', hj]
        rfl

theorem round_krel (hns : NoSelf root) (hd : Done root st) {k : Env → Core → Tree} (hk : KRel root st k)
    (hf : FRel root st k) : KRel root st (unfoldWith k) := by
  intro p sc e e' E E' h hc hx hE hv
  cases hv with
  | same => exact round hns hd hk hf e p sc E E' h hc hx hE
  | letV ns vs b t pl =>
    simp only [unfoldWith]
    exact round hns hd hk hf b _ _ _ _ (by rw [subAt_cons h]; rfl) (hc.sub (List.suffix_cons _ _)) (fun _ h => h) (.letS _ _ _ hE)

theorem round_frel (hns : NoSelf root) (hd : Done root st) {k : Env → Core → Tree} (hk : KRel root st k)
    (hf : FRel root st k) : FRel root st (unfoldWith k) := by
  intro p sc e E E' ms m h hc hdl hE hm fs
  cases e with
  | letE ns vs b ty =>
    cases ty with
    | default =>
      by_cases hb : ∃ ks xs, b = .node (.block ks) xs
      · obtain ⟨ks, xs, rfl⟩ := hb
        simp only [blankW, Filter.toBody, Filter.plain, unfoldWith, unfoldWithL_eq, resolve, resolveL_eq, List.map_map,
          carryOut]
        congr 1
        refine member_blankF hm ?_
        intro j x hj
        have hb : subAt root (.body :: p) = some (.letS p vs :: sc, .node (.block ks) xs) := by rw [subAt_cons h]; rfl
        refine round hns hd hk hf x _ (.letS p vs :: sc) _ _ ?_
          (hc.sub ((List.suffix_cons _ _).trans (List.suffix_cons _ _))) (fun _ h => h) (.letS _ _ _ hE)
        rw [subAt_cons hb, childOf_part (by simp), Nat.zero_add, hj]
        rfl
      · have hw : blankW st (.value ms) p (.letE ns vs b .default) =
            .letE ns (blankB st true p 0 vs) (blankW st .none (.body :: p) b) .default := by
          rw [blankW]
          simp only [Filter.plain, Filter.toBody]
          rw [blankW_body fun ks xs he => hb ⟨ks, xs, he⟩]
        rw [hw, round_krel hns hd hk hf p sc _ _ E E' h hc (by simp) hE (.letV ns vs b .default true)]
    | _ => simp [isDefaultLet] at hdl
  | _ => simp [isDefaultLet] at hdl

theorem see_rel (hns : NoSelf root) (hd : Done root st) : ∀ n, KRel root st (unfold n) ∧ FRel root st (unfold n) := by
  intro n
  induction n with
  | zero =>
    have h1 : KRel root st (fun _ _ => .cut) := fun _ _ _ _ _ _ _ _ _ _ _ => rfl
    have h2 : FRel root st (fun _ _ => .cut) := fun _ _ _ _ _ _ _ _ _ _ _ _ _ => rfl
    exact ⟨round_krel hns hd h1 h2, round_frel hns hd h1 h2⟩
  | succ n ih => exact ⟨round_krel hns hd ih.1 ih.2, round_frel hns hd ih.1 ih.2⟩

/-- On the way to the body of the unit. -/
theorem see_ends (hns : NoSelf root) (hd : Done root st) (n : Nat) : ∀ {e : Core} {p : Path} {sc : List Scope} {E E' : Env},
    subAt root p = some (sc, e) → ¬ Exempt root p → Ends st p e → ERel st sc E E' →
    see n E e = see n E' (blankW st .none p e) := by
  have hs : ∃ k, unfold n = unfoldWith k := by cases n <;> exact ⟨_, rfl⟩
  unfold see
  intro e p
  induction p, e using Ends.induct with
  | case1 p ns vs b t ih =>
    intro sc E E' h _ he hE
    rw [Ends] at he
    obtain ⟨k, hk⟩ := hs
    rw [hk] at ih ⊢
    simp only [blankW, unfoldWith, Filter.toBody]
    exact ih (by rw [subAt_cons h]; rfl) (fun h => h) he (.letS _ _ _ hE)
  | case2 p e m ih =>
    intro sc E E' h _ he hE
    rw [Ends] at he
    have h1 : subAt root (.part 1 :: p) = some (sc, m) := by rw [subAt_cons h]; rfl
    have hm := (see_rel hns hd n).1 _ _ _ _ E E' h1 (hd.closed _ he.1) (fun _ h => h) hE (.same m)
    have he' := ih (by rw [subAt_cons h]; rfl) (fun h => h) he.2 hE
    obtain ⟨k, hk⟩ := hs
    rw [hk] at hm he' ⊢
    simp only [blankW, blankL, unfoldWith, unfoldWithL, resolve, resolveL, hm, he']
  | case3 e p h1 h2 =>
    intro sc E E' h hx he hE
    rw [Ends] at he <;>
      first | exact (see_rel hns hd n).1 _ _ _ _ E E' h (hd.closed _ he) (fun _ => hx) hE (.same e) | assumption

end Verif.Prune
