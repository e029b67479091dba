import Verif.IoSem

/-! # A whole program.  Proofs only. -/

namespace Verif.Io

variable {L : Lang}

/-- What is written. -/
def bareShow (L : Lang) (v : L.T) : Option (Except (Stop L.E) L.T) := match L.eval (L.render v) with
  | none => none
  | some (.error e) => some (.error (.machine e))
  | some (.ok d) => some (.ok d)

/-- The loop and then what is written. -/
def bareShown (L : Lang) (os : Os L.E) (allow : Bool) (n : Nat) (u : L.T) : Outcome L :=
  match bareRun L os allow n [] u with
  | (h, some (.ok v)) => (h, bareShow L v)
  | x => x

/-- `perform` without the stash. -/
def bareWhole (L : Lang) (os : Os L.E) (allow : Bool) (n : Nat) (root : L.T) : Outcome L := match L.eval root with
  | none => ([], none)
  | some (.error e) => ([], some (.error (.machine e)))
  | some (.ok u) =>
    if (L.look u).isIo then bareShown L os allow n u
    else if L.isFun u then match L.eval (L.app1 u L.unit) with
      | none => ([], none)
      | some (.error e) => ([], some (.error (.machine e)))
      | some (.ok u') => if (L.look u').isIo then bareShown L os allow n u' else ([], bareShow L u')
    else ([], bareShow L u)

/-- How the whole comes out. -/
def WholeAgrees (x : Res L Unit) (p : Outcome L) : Prop :=
  match x, p.2 with
  | .ok _ m, some (.ok d) => m.done = p.1 ∧ m.now.val = d
  | .stop e m, some (.error e') => e = e' ∧ m.done = p.1
  | .away m, none => m.done = p.1
  | _, _ => False

theorem renderValue_agrees {gc : Nat → Bool} {m : Mach L.T} {r : Ref L.T} (g : Good m) (hr : r.age = m.age) :
    WholeAgrees (renderValue L gc r m) (m.done, bareShow L r.val) := by
  unfold renderValue bareShow
  rw [bind_ok (open_ok hr), bind_ok held_ok]
  obtain ⟨m₁, p₁, g₁, c₁, v₁, d₁⟩ := resume_ok (r := ⟨L.render r.val, m.age⟩) g rfl
  rw [bind_ok p₁]
  have h := run_cases (gc := gc) g₁
  rw [v₁] at h
  dsimp only at h
  cases he : L.eval (L.render r.val) with
  | none =>
    rw [he] at h
    obtain ⟨m', e', d'⟩ := h
    rw [e']
    exact d'.trans d₁
  | some x =>
    rw [he] at h
    cases x with
    | error e =>
      obtain ⟨m', e', d'⟩ := h
      rw [e']
      exact ⟨rfl, d'.trans d₁⟩
    | ok d =>
      obtain ⟨m', e', _, _, v', d', _⟩ := h
      rw [e']
      exact ⟨d'.trans d₁, v'⟩

theorem ioRunAndRender_agrees {gc : Nat → Bool} {os : Os L.E} {allow : Bool} {n : Nat} {m : Mach L.T} (g : Good m)
    (hy : m.yielded = (L.look m.now.val).isIo) (hd : m.done = []) :
    WholeAgrees (ioRunAndRender L gc os allow n m) (bareShown L os allow n m.now.val) := by
  have h := ioRun_agrees (gc := gc) (os := os) (allow := allow) n m g hy
  unfold ioRunAndRender bareShown
  rw [hd] at h
  cases hq : bareRun L os allow n [] m.now.val with
  | mk h₁ o =>
    rw [hq] at h
    cases hx : ioRun L gc os allow n m with
    | fault m' =>
      rw [hx] at h
      cases o with
      | none => exact h.elim
      | some x => cases x <;> exact h.elim
    | away m' =>
      rw [bind_away hx]
      rw [hx] at h
      cases o with
      | none => exact h
      | some x => cases x <;> exact h.elim
    | stop e m' =>
      rw [bind_stop hx]
      rw [hx] at h
      cases o with
      | none => exact h.elim
      | some x =>
        cases x with
        | error _ => exact h
        | ok _ => exact h.elim
    | ok r m' =>
      rw [bind_ok hx]
      rw [hx] at h
      cases o with
      | none => exact h.elim
      | some x =>
        cases x with
        | error _ => exact h.elim
        | ok v =>
          obtain ⟨g', _, d', v', a'⟩ := h
          have := renderValue_agrees (gc := gc) g' a'
          rw [d', v'] at this
          exact this

theorem start_good (root : L.T) : Good (start L root) := ⟨rfl, fun r h => by cases h⟩

theorem perform_agrees (gc : Nat → Bool) (os : Os L.E) (allow : Bool) (n : Nat) (root : L.T) :
    WholeAgrees (perform L gc os allow n (start L root)) (bareWhole L os allow n root) := by
  unfold perform bareWhole
  have h := run_cases (gc := gc) (start_good root)
  dsimp only [start] at h
  have ey : ∀ {β : Type} (m : Mach L.T) (k : Bool → Drive L β),
      ((fun m => Res.ok m.yielded m : Drive L Bool) >>= k) m = k m.yielded m := fun _ k => rfl
  have en : ∀ {β : Type} (m : Mach L.T) (k : Ref L.T → Drive L β),
      ((fun m => Res.ok m.now m : Drive L (Ref L.T)) >>= k) m = k m.now m := fun _ k => rfl
  cases he : L.eval root with
  | none =>
    rw [he] at h
    obtain ⟨m', e', d'⟩ := h
    have e'' : run L gc (start L root) = .away m' := e'
    rw [bind_away e'']
    exact d'
  | some x =>
    rw [he] at h
    cases x with
    | error e =>
      obtain ⟨m', e', d'⟩ := h
      have e'' : run L gc (start L root) = .stop (.machine e) m' := e'
      rw [bind_stop e'']
      exact ⟨rfl, d'⟩
    | ok u =>
      obtain ⟨m₁, e', g₁, _, v₁, d₁, y₁⟩ := h
      have e'' : run L gc (start L root) = .ok () m₁ := e'
      rw [bind_ok e'', ey, y₁]
      dsimp only
      have d₁' : m₁.done = [] := d₁
      cases hi : (L.look u).isIo with
      | true =>
        simp only [if_true]
        have := ioRunAndRender_agrees (gc := gc) (os := os) (allow := allow) (n := n) g₁ (by rw [y₁, v₁]) d₁'
        rw [v₁] at this
        exact this
      | false =>
        simp only [Bool.false_eq_true, if_false]
        cases hf : L.isFun u with
        | false =>
          have hj : inject L gc m₁ = .ok false m₁ := by
            unfold inject
            rw [en, bind_ok (open_ok g₁.1), v₁]
            simp only [hf, Bool.not_false, if_true]
            rfl
          rw [bind_ok hj]
          simp only [Bool.false_eq_true, if_false]
          rw [en]
          have := renderValue_agrees (gc := gc) g₁ g₁.1
          rw [v₁, d₁'] at this
          exact this
        | true =>
          obtain ⟨m₂, p₂, g₂, c₂, v₂, d₂⟩ := resume_ok (r := ⟨L.app1 u L.unit, m₁.age⟩) g₁ rfl
          have h₂ := run_cases (gc := gc) g₂
          rw [v₂] at h₂
          dsimp only at h₂
          have hj : ∀ x, run L gc m₂ = x → inject L gc m₁ = (match x with
              | .ok () m => .ok m.yielded m
              | .stop e m => .stop e m
              | .fault m => .fault m
              | .away m => .away m) := by
            rintro x rfl
            unfold inject
            rw [en, bind_ok (open_ok g₁.1), v₁]
            simp only [hf, Bool.not_true, Bool.false_eq_true, if_false]
            rw [bind_ok held_ok, bind_ok p₂]
            show Drive.bind _ _ _ = _
            unfold Drive.bind
            cases run L gc m₂ <;> rfl
          simp only [if_true]
          cases he₂ : L.eval (L.app1 u L.unit) with
          | none =>
            rw [he₂] at h₂
            obtain ⟨m', e', d'⟩ := h₂
            rw [bind_away (hj _ e')]
            exact d'.trans (d₂.trans d₁')
          | some x =>
            rw [he₂] at h₂
            cases x with
            | error e =>
              obtain ⟨m', e', d'⟩ := h₂
              rw [bind_stop (hj _ e')]
              exact ⟨rfl, d'.trans (d₂.trans d₁')⟩
            | ok u' =>
              obtain ⟨m₃, e₃, g₃, _, v₃, d₃, y₃⟩ := h₂
              rw [bind_ok (hj _ e₃), y₃]
              dsimp only
              cases hi' : (L.look u').isIo with
              | true =>
                simp only [if_true]
                have := ioRunAndRender_agrees (gc := gc) (os := os) (allow := allow) (n := n) g₃ (by rw [y₃, v₃])
                  (d₃.trans (d₂.trans d₁'))
                rw [v₃] at this
                exact this
              | false =>
                simp only [Bool.false_eq_true, if_false]
                rw [en]
                have := renderValue_agrees (gc := gc) g₃ g₃.1
                rw [v₃, d₃, d₂, d₁'] at this
                exact this

/-! ## And what is to be done -/

theorem bareShow_shows {v : L.T} {d} (h : bareShow L v = some d) : Shows L v d := by
  unfold bareShow at h
  cases he : L.eval (L.render v) with
  | none => rw [he] at h; cases h
  | some x =>
    rw [he] at h
    cases x with
    | error e => cases h; exact .err he
    | ok d => cases h; exact .ok he

theorem shows_bareShow {v : L.T} {d} (h : Shows L v d) : bareShow L v = some d := by
  unfold bareShow
  cases h with
  | ok he => rw [he]
  | err he => rw [he]

theorem bareShown_runs {os : Os L.E} {allow : Bool} {n : Nat} {t u : L.T} {h d} (so : Sound L)
    (he : L.eval t = some (.ok u)) (hx : bareShown L os allow n u = (h, some d)) :
    (∃ v, Runs L os allow [] t h (.ok v) ∧ Shows L v d) ∨ (∃ e, Runs L os allow [] t h (.error e) ∧ d = .error e) := by
  unfold bareShown at hx
  cases hq : bareRun L os allow n [] u with
  | mk h₁ o =>
    rw [hq] at hx
    cases o with
    | none => cases hx
    | some x =>
      cases x with
      | error e => cases hx; exact .inr ⟨e, bareRun_runs so n _ _ _ _ _ he hq, rfl⟩
      | ok v =>
        simp only [Prod.mk.injEq] at hx
        obtain ⟨rfl, hx⟩ := hx
        exact .inl ⟨v, bareRun_runs so n _ _ _ _ _ he hq, bareShow_shows hx⟩

theorem runs_bareShown {os : Os L.E} {allow : Bool} {t u : L.T} {h r} (so : Sound L) (he : L.eval t = some (.ok u))
    (hr : Runs L os allow [] t h r) {d} (hd : match r with
      | .ok v => Shows L v d
      | .error e => d = .error e) : ∃ n, bareShown L os allow n u = (h, some d) := by
  obtain ⟨e, he', _⟩ | ⟨u', he', n, hb⟩ := runs_bareRun so hr
  · rw [he] at he'; cases he'
  · rw [he] at he'
    cases he'
    refine ⟨n, ?_⟩
    unfold bareShown
    rw [hb]
    cases r with
    | ok v => simp only [shows_bareShow hd]
    | error e => cases hd; rfl

theorem bareWhole_iff {os : Os L.E} {allow : Bool} {root : L.T} {h d} (so : Sound L) :
    (∃ n, bareWhole L os allow n root = (h, some d)) ↔ Whole L os allow root h d := by
  constructor
  · rintro ⟨n, hx⟩
    unfold bareWhole at hx
    cases he : L.eval root with
    | none => rw [he] at hx; cases hx
    | some x =>
      rw [he] at hx
      cases x with
      | error e => cases hx; exact .err he
      | ok u =>
        dsimp only at hx
        cases hi : (L.look u).isIo with
        | true =>
          simp only [hi, if_true] at hx
          obtain ⟨v, hr, hs⟩ | ⟨e, hr, rfl⟩ := bareShown_runs so he hx
          · exact .act he hi hr hs
          · exact .actErr he hi hr
        | false =>
          simp only [hi, Bool.false_eq_true, if_false] at hx
          cases hf : L.isFun u with
          | false =>
            simp only [hf, Bool.false_eq_true, if_false, Prod.mk.injEq] at hx
            obtain ⟨rfl, hx⟩ := hx
            exact .doc he hi hf (bareShow_shows hx)
          | true =>
            simp only [hf, if_true] at hx
            cases he' : L.eval (L.app1 u L.unit) with
            | none => rw [he'] at hx; cases hx
            | some x =>
              rw [he'] at hx
              cases x with
              | error e => cases hx; exact .fnErr he hi hf he'
              | ok u' =>
                dsimp only at hx
                cases hi' : (L.look u').isIo with
                | true =>
                  simp only [hi', if_true] at hx
                  obtain ⟨v, hr, hs⟩ | ⟨e, hr, rfl⟩ := bareShown_runs so he' hx
                  · exact .fn he hi hf he' hi' hr hs
                  · exact .fnActErr he hi hf he' hi' hr
                | false =>
                  simp only [hi', Bool.false_eq_true, if_false, Prod.mk.injEq] at hx
                  obtain ⟨rfl, hx⟩ := hx
                  exact .fnDoc he hi hf he' hi' (bareShow_shows hx)
  · intro hw
    unfold bareWhole
    cases hw with
    | err he => exact ⟨0, by rw [he]⟩
    | act he hi hr hs =>
      obtain ⟨n, hn⟩ := runs_bareShown so he hr hs
      exact ⟨n, by rw [he]; simp only [hi, if_true]; exact hn⟩
    | actErr he hi hr =>
      obtain ⟨n, hn⟩ := runs_bareShown (d := .error _) so he hr rfl
      exact ⟨n, by rw [he]; simp only [hi, if_true]; exact hn⟩
    | doc he hi hf hs =>
      exact ⟨0, by rw [he]; simp only [hi, hf, Bool.false_eq_true, if_false, shows_bareShow hs]⟩
    | fnErr he hi hf he' =>
      exact ⟨0, by rw [he]; simp only [hi, hf, Bool.false_eq_true, if_false, if_true]; rw [he']⟩
    | fnDoc he hi hf he' hi' hs =>
      exact ⟨0, by
        rw [he]
        simp only [hi, hf, Bool.false_eq_true, if_false, if_true]
        rw [he']
        simp only [hi', Bool.false_eq_true, if_false, shows_bareShow hs]⟩
    | fn he hi hf he' hi' hr hs =>
      obtain ⟨n, hn⟩ := runs_bareShown so he' hr hs
      exact ⟨n, by
        rw [he]
        simp only [hi, hf, Bool.false_eq_true, if_false, if_true]
        rw [he']
        simp only [hi', if_true]
        exact hn⟩
    | fnActErr he hi hf he' hi' hr =>
      obtain ⟨n, hn⟩ := runs_bareShown (d := .error _) so he' hr rfl
      exact ⟨n, by
        rw [he]
        simp only [hi, hf, Bool.false_eq_true, if_false, if_true]
        rw [he']
        simp only [hi', if_true]
        exact hn⟩

end Verif.Io
