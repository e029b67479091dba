import Verif.IoSim

/-! # The loop with the stash, the loop without, and what is to be done.  Proofs only. -/

namespace Verif.Io

variable {L : Lang}

/-- The loop agrees, at so many turns. -/
def AgreesAt (L : Lang) (gc : Nat → Bool) (os : Os L.E) (allow : Bool) (n : Nat) : Prop :=
  ∀ m : Mach L.T, Good m → m.yielded = (L.look m.now.val).isIo →
    Agrees (ioRun L gc os allow n m) (contents m) (bareRun L os allow n m.done m.now.val)

/-- The loop goes on after a run. -/
theorem after_run {gc : Nat → Bool} {os : Os L.E} {allow : Bool} {n : Nat} (ih : AgreesAt L gc os allow n)
    {m : Mach L.T} {r : Ref L.T} (g : Good m) (hr : r.age = m.age) :
    Agrees ((runPushed L gc r >>= fun _ => ioRun L gc os allow n) m) (contents m)
      (goOn L (bareRun L os allow n) m.done r.val) := by
  have h := runPushed_cases (gc := gc) g hr
  unfold goOn
  cases he : L.eval r.val with
  | none =>
    rw [he] at h
    obtain ⟨m', e', d'⟩ := h
    rw [bind_away e']
    exact d'
  | some x =>
    rw [he] at h
    cases x with
    | error e =>
      obtain ⟨m', e', d'⟩ := h
      rw [bind_stop e']
      exact ⟨rfl, d'⟩
    | ok u =>
      obtain ⟨m', e', g', c', v', d', y'⟩ := h
      rw [bind_ok e']
      have := ih m' g' (by rw [y', v'])
      rw [c', d', v'] at this
      exact this

theorem Agrees.ext {x : Res L (Ref L.T)} {c c' : List L.T} {p p' : Outcome L} (h : Agrees x c p) (hc : c = c')
    (hp : p = p') : Agrees x c' p' := by
  subst hc; subst hp; exact h

theorem ioRun_agrees {gc : Nat → Bool} {os : Os L.E} {allow : Bool} : ∀ n, AgreesAt L gc os allow n
  | 0 => fun m _ _ => (rfl : m.done = m.done)
  | n + 1 => by
    intro m g hy
    have ih := ioRun_agrees (gc := gc) (os := os) (allow := allow) n
    have e1 : ∀ {β : Type} (k : Bool → Drive L β), ((fun m => Res.ok m.yielded m : Drive L Bool) >>= k) m = k m.yielded m :=
      fun k => rfl
    have e2 : ∀ {β : Type} (k : Ref L.T → Drive L β), ((fun m => Res.ok m.now m : Drive L (Ref L.T)) >>= k) m = k m.now m :=
      fun k => rfl
    unfold ioRun
    rw [e1, e2]
    cases hb : m.yielded with
    | false =>
      rw [hb] at hy
      simp only [Bool.not_false, if_true]
      unfold bareRun
      cases hl : L.look m.now.val <;> rw [hl] at hy <;> first | exact ⟨rfl, rfl⟩ | cases hy
    | true =>
      simp only [Bool.not_true, Bool.false_eq_true, if_false]
      rw [bind_ok (open_ok g.1)]
      unfold bareRun
      cases hl : L.look m.now.val with
      | ret w v => exact ⟨g, rfl, rfl, rfl, rfl⟩
      | fail w e =>
        dsimp only
        rw [bind_ok held_ok]
        have h := failText_meets (gc := gc) (n := n) (r := ⟨e, m.age⟩) g rfl
        dsimp only at h
        cases hf : failureOf L n e with
        | none =>
          rw [hf] at h
          obtain ⟨m', e', d'⟩ := h
          rw [bind_away e']
          exact d'
        | some msg =>
          rw [hf] at h
          obtain ⟨m', e', d'⟩ := h
          rw [bind_ok e']
          exact ⟨rfl, d'⟩
      | act w s =>
        dsimp only
        cases allow with
        | false => exact ⟨rfl, rfl⟩
        | true =>
          simp only [Bool.not_true, Bool.false_eq_true, if_false]
          rw [bind_ok held_ok, bind_ok held_ok]
          obtain ⟨m₁, p₁, g₁, c₁, n₁, d₁, y₁, a₁⟩ := push_ok (r := ⟨w, m.age⟩) g rfl
          rw [bind_ok p₁]
          have hsp := specBlock_meets (gc := gc) (n := n) (r := ⟨s, m.age⟩) g₁ a₁.symm
          dsimp only at hsp
          cases hx : specBlock L gc n ⟨s, m.age⟩ m₁ with
          | fault m' =>
            rw [hx] at hsp
            cases hp : specOf L n s with
            | none => rw [hp] at hsp; exact hsp.elim
            | some x => rw [hp] at hsp; cases x <;> exact hsp.elim
          | away m' =>
            rw [bind_away hx]
            rw [hx] at hsp
            cases hp : specOf L n s with
            | none => rw [hp] at hsp; exact (hsp.trans d₁ : m'.done = m.done)
            | some x => rw [hp] at hsp; cases x <;> exact hsp.elim
          | stop e m' =>
            rw [bind_stop hx]
            rw [hx] at hsp
            cases hp : specOf L n s with
            | none => rw [hp] at hsp; exact hsp.elim
            | some x =>
              rw [hp] at hsp
              cases x with
              | error e' => exact ⟨hsp.1, hsp.2.trans d₁⟩
              | ok _ => exact hsp.elim
          | ok sp m₂ =>
            rw [bind_ok hx]
            rw [hx] at hsp
            cases hp : specOf L n s with
            | none => rw [hp] at hsp; exact hsp.elim
            | some x =>
              rw [hp] at hsp
              cases x with
              | error e' => exact hsp.elim
              | ok sp' =>
                obtain ⟨g₂, c₂, v₂, d₂, rfl⟩ := hsp
                dsimp only
                cases ho : os m.done sp with
                | error e =>
                  have hrs : runSpec L os sp m₂ = .stop e { m₂ with done := m₂.done ++ [sp] } := by
                    simp [runSpec, d₂, d₁, ho]
                  rw [bind_stop hrs]
                  refine ⟨rfl, ?_⟩
                  simp [d₂, d₁]
                | ok rp =>
                  have hrs : runSpec L os sp m₂ = .ok rp { m₂ with done := m₂.done ++ [sp] } := by
                    simp [runSpec, d₂, d₁, ho]
                  have g₃ : Good ({ m₂ with done := m₂.done ++ [sp] } : Mach L.T) := g₂
                  have c₃ : contents ({ m₂ with done := m₂.done ++ [sp] } : Mach L.T) = w :: contents m := by
                    rw [← c₁, ← c₂]; rfl
                  have d₃ : ({ m₂ with done := m₂.done ++ [sp] } : Mach L.T).done = m.done ++ [sp] := by
                    simp [d₂, d₁]
                  generalize hM : ({ m₂ with done := m₂.done ++ [sp] } : Mach L.T) = m₃ at hrs g₃ c₃ d₃
                  rw [bind_ok hrs, bind_ok held_ok]
                  obtain ⟨m₄, p₄, g₄, c₄, n₄, d₄, y₄, a₄⟩ := push_ok (r := ⟨L.result rp, m₃.age⟩) g₃ rfl
                  rw [bind_ok p₄]
                  obtain ⟨r₅, m₅, p₅, v₅, a₅, g₅, c₅, n₅, d₅, _⟩ := pop_ok g₄ c₄
                  rw [bind_ok p₅]
                  rw [c₃] at c₅
                  obtain ⟨r₆, m₆, p₆, v₆, a₆, g₆, c₆, n₆, d₆, _⟩ := pop_ok g₅ c₅
                  rw [bind_ok p₆, bind_ok (open_ok a₆)]
                  have a₅₆ : r₅.age = m₆.age := by
                    have e5 : m₅.now.age = m₅.age := g₅.1
                    have e6 : m₆.now.age = m₆.age := g₆.1
                    rw [n₆] at e6
                    rw [a₅, ← e5, e6]
                  rw [bind_ok (open_ok a₅₆), bind_ok held_ok]
                  rw [runPushed_seq]
                  refine (after_run (gc := gc) ih (m := m₆) (r := ⟨L.ioReturn r₆.val r₅.val, m₆.age⟩) g₆ rfl).ext c₆ ?_
                  dsimp only
                  rw [v₆, v₅, d₆, d₅, d₄, d₃]
      | bind w k a =>
        dsimp only
        rw [bind_ok held_ok, bind_ok held_ok, bind_ok held_ok]
        obtain ⟨m₁, p₁, g₁, c₁, n₁, d₁, y₁, a₁⟩ := push_ok (r := ⟨k, m.age⟩) g rfl
        rw [bind_ok p₁]
        obtain ⟨m₂, p₂, g₂, c₂, n₂, d₂, y₂, a₂⟩ := push_ok (r := ⟨w, m.age⟩) g₁ a₁.symm
        rw [bind_ok p₂]
        have c₂' : contents m₂ = w :: k :: contents m := by rw [c₂, c₁]
        obtain ⟨r₃, p₃, v₃, a₃⟩ := peek_ok (d := 0) (t := w) g₂ (by rw [c₂']; rfl)
        rw [bind_ok p₃]
        have hap : apply1 L ⟨a, m.age⟩ r₃ m₂ = .ok ⟨L.app1 a w, m₂.age⟩ m₂ := by
          unfold apply1
          rw [bind_ok (open_ok (by rw [a₂, a₁])), bind_ok (open_ok a₃), v₃]
          rfl
        rw [bind_ok hap]
        rw [runPushed_seq]
        have hrun := runPushed_cases (gc := gc) (m := m₂) (r := ⟨L.app1 a w, m₂.age⟩) g₂ rfl
        dsimp only at hrun
        unfold goIn
        cases he : L.eval (L.app1 a w) with
        | none =>
          rw [he] at hrun
          obtain ⟨m', e', d'⟩ := hrun
          rw [bind_away e']
          exact d'.trans (d₂.trans d₁)
        | some x =>
          rw [he] at hrun
          cases x with
          | error e =>
            obtain ⟨m', e', d'⟩ := hrun
            rw [bind_stop e']
            exact ⟨rfl, d'.trans (d₂.trans d₁)⟩
          | ok u =>
            obtain ⟨m₄, p₄, g₄, c₄, v₄, d₄, y₄⟩ := hrun
            rw [bind_ok p₄]
            have e1 : ∀ {β : Type} (k : Bool → Drive L β),
                ((fun m => Res.ok m.yielded m : Drive L Bool) >>= k) m₄ = k m₄.yielded m₄ := fun k => rfl
            rw [e1]
            dsimp only
            cases hi : (L.look u).isIo with
            | false =>
              rw [hi] at y₄
              rw [y₄]
              simp only [Bool.not_false, if_true, Bool.false_eq_true, if_false]
              exact ⟨rfl, d₄.trans (d₂.trans d₁)⟩
            | true =>
              rw [hi] at y₄
              rw [y₄]
              simp only [Bool.not_true, Bool.false_eq_true, if_false, if_true]
              have hin := ih m₄ g₄ (by rw [y₄, v₄, hi])
              rw [c₄, c₂', v₄, d₄, d₂, d₁] at hin
              cases hq : bareRun L os allow n m.done u with
              | mk h₁ o =>
                rw [hq] at hin
                cases hx : ioRun L gc os allow n m₄ with
                | fault m' =>
                  rw [hx] at hin
                  cases o with
                  | none => exact hin.elim
                  | some x => cases x <;> exact hin.elim
                | away m' =>
                  rw [bind_away hx]
                  rw [hx] at hin
                  cases o with
                  | none => exact hin
                  | some x => cases x <;> exact hin.elim
                | stop e m' =>
                  rw [bind_stop hx]
                  rw [hx] at hin
                  cases o with
                  | none => exact hin.elim
                  | some x =>
                    cases x with
                    | error _ => exact hin
                    | ok _ => exact hin.elim
                | ok r m₅ =>
                  rw [bind_ok hx]
                  rw [hx] at hin
                  cases o with
                  | none => exact hin.elim
                  | some x =>
                    cases x with
                    | error _ => exact hin.elim
                    | ok v =>
                      obtain ⟨g₅, c₅, d₅, v₅, a₅⟩ := hin
                      obtain ⟨m₆, p₆, g₆, c₆, n₆, d₆, _, a₆⟩ := push_ok g₅ a₅
                      rw [bind_ok p₆]
                      have c₆' : contents m₆ = v :: w :: k :: contents m := by rw [c₆, v₅, c₅]
                      obtain ⟨r₇, p₇, v₇, a₇⟩ := peek_ok (d := 0) (t := v) g₆ (by rw [c₆']; rfl)
                      obtain ⟨r₈, p₈, v₈, a₈⟩ := peek_ok (d := 1) (t := w) g₆ (by rw [c₆']; rfl)
                      obtain ⟨r₉, p₉, v₉, a₉⟩ := peek_ok (d := 2) (t := k) g₆ (by rw [c₆']; rfl)
                      rw [bind_ok p₇, bind_ok p₈, bind_ok p₉]
                      have hap2 : apply2 L r₉ r₇ r₈ m₆ = .ok ⟨L.app2 k v w, m₆.age⟩ m₆ := by
                        unfold apply2
                        rw [bind_ok (open_ok a₉), bind_ok (open_ok a₇), bind_ok (open_ok a₈), v₇, v₈, v₉]
                        rfl
                      rw [bind_ok hap2]
                      obtain ⟨_, m₇, q₇, _, b₇, g₇, c₇, n₇, d₇, _⟩ := pop_ok g₆ c₆'
                      obtain ⟨_, m₈, q₈, _, b₈, g₈, c₈, n₈, d₈, _⟩ := pop_ok g₇ c₇
                      obtain ⟨_, m₉, q₉, _, b₉, g₉, c₉, n₉, d₉, _⟩ := pop_ok g₈ c₈
                      rw [bind_ok q₇, bind_ok q₈, bind_ok q₉]
                      have a₉' : m₆.age = m₉.age := by
                        have e6 := g₆.1
                        have e9 := g₉.1
                        rw [n₉, n₈, n₇] at e9
                        rw [← e6, e9]
                      rw [runPushed_seq]
                      refine (after_run (gc := gc) ih (m := m₉) (r := ⟨L.app2 k v w, m₆.age⟩) g₉ a₉').ext c₉ ?_
                      dsimp only
                      rw [d₉, d₈, d₇, d₆, d₅]
      | _ => exact ⟨rfl, rfl⟩

end Verif.Io
