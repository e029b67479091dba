import Verif.IoRun

/-! # The bare loop and what is to be done.  Proofs only. -/

namespace Verif.Io

variable {L : Lang}

/-! ## More turns change nothing -/

theorem scalar_mono : ∀ (n : Nat) (t : L.T) {s}, scalar L n t = some s → scalar L (n + 1) t = some s
  | 0, t, s, h => by cases h
  | n + 1, t, s, h => by
    unfold scalar at h ⊢
    cases hl : L.look t <;> rw [hl] at h <;> first | exact h | exact scalar_mono n _ h

theorem elements_mono : ∀ (n : Nat) (t : L.T) {s}, elements L n t = some s → elements L (n + 1) t = some s
  | 0, t, s, h => by cases h
  | n + 1, t, s, h => by
    unfold elements at h ⊢
    cases hl : L.look t with
    | cons x u =>
      rw [hl] at h
      simp only [Option.map_eq_some_iff] at h ⊢
      obtain ⟨a, ha, rfl⟩ := h
      exact ⟨a, elements_mono n u ha, rfl⟩
    | _ => rw [hl] at h; exact h

theorem entries_mono : ∀ (n : Nat) (t : L.T) {s}, entries L n t = some s → entries L (n + 1) t = some s
  | 0, t, s, h => by cases h
  | n + 1, t, s, h => by
    unfold entries at h ⊢
    cases hl : L.look t with
    | cons x u =>
      rw [hl] at h
      dsimp only at h ⊢
      cases hx : L.look x with
      | pair k v =>
        rw [hx] at h
        cases k with
        | none => exact entries_mono n u h
        | some k =>
          simp only [Option.map_eq_some_iff] at h ⊢
          obtain ⟨a, ha, rfl⟩ := h
          exact ⟨a, entries_mono n u ha, rfl⟩
      | _ => rw [hx] at h; exact entries_mono n u h
    | _ => rw [hl] at h; exact h

theorem andThen_mono {E α β : Type} {x y : Option (Except E α)} {f g : α → Option (Except E β)}
    (hxy : ∀ r, x = some r → y = some r) (hfg : ∀ a r, f a = some r → g a = some r) :
    ∀ r, andThen x f = some r → andThen y g = some r := by
  intro r h
  cases x with
  | none => cases h
  | some a =>
    rw [hxy a rfl]
    cases a with
    | error e => exact h
    | ok a => exact hfg a r h

theorem inTime_mono {E α : Type} {x y : Option α} (hxy : ∀ r, x = some r → y = some r) :
    ∀ r, (inTime x : Option (Except E α)) = some r → (inTime y : Option (Except E α)) = some r := by
  intro r h
  cases x with
  | none => cases h
  | some a => rw [hxy a rfl]; exact h

theorem textsOf_mono (n : Nat) : ∀ (ts : List L.T) r, textsOf L n ts = some r → textsOf L (n + 1) ts = some r
  | [], _, h => h
  | t :: ts, r, h => by
    unfold textsOf at h ⊢
    refine andThen_mono (fun _ h => h) (fun u => ?_) r h
    refine andThen_mono (inTime_mono fun s => scalar_mono n u) (fun s => ?_)
    exact andThen_mono (textsOf_mono n ts) (fun _ _ h => h)

theorem fieldOf_mono (n : Nat) (t : L.T) : ∀ r, fieldOf L n t = some r → fieldOf L (n + 1) t = some r := by
  unfold fieldOf
  refine andThen_mono (fun _ h => h) (fun u r => ?_)
  cases isList L u with
  | true =>
    simp only [if_true]
    refine andThen_mono (inTime_mono fun s => elements_mono n u) (fun es => ?_) r
    exact andThen_mono (textsOf_mono n es) (fun _ _ h => h)
  | false =>
    simp only [Bool.false_eq_true, if_false]
    exact inTime_mono (fun s => scalar_mono n u) r

theorem fieldsOf_mono (n : Nat) : ∀ (raw : List (Str × L.T)) (fs : Fields) r, fieldsOf L n raw fs = some r →
    fieldsOf L (n + 1) raw fs = some r
  | [], _, _, h => h
  | (k, t) :: raw, fs, r, h => by
    unfold fieldsOf at h ⊢
    exact andThen_mono (fieldOf_mono n t) (fun s => fieldsOf_mono n raw ((k, s) :: fs)) r h

theorem rawOf_mono (n : Nat) (t : L.T) : ∀ r, rawOf L n t = some r → rawOf L (n + 1) t = some r := by
  intro r h
  unfold rawOf at h ⊢
  cases hl : L.look t with
  | block es => rw [hl] at h; exact inTime_mono (fun s => entries_mono n es) r h
  | _ => rw [hl] at h; exact h

theorem specOf_mono (n : Nat) (t : L.T) : ∀ r, specOf L n t = some r → specOf L (n + 1) t = some r := by
  unfold specOf
  refine andThen_mono (fun _ h => h) (fun b => ?_)
  refine andThen_mono (rawOf_mono n b) (fun raw => ?_)
  exact andThen_mono (fieldsOf_mono n raw []) (fun _ _ h => h)

theorem failureOf_mono (n : Nat) (t : L.T) : ∀ r, failureOf L n t = some r → failureOf L (n + 1) t = some r := by
  intro r h
  unfold failureOf at h ⊢
  cases hv : valueOf L t with
  | none => rw [hv] at h; cases h
  | some x =>
    rw [hv] at h
    cases x with
    | error e => exact h
    | ok u =>
      simp only [Option.map_eq_some_iff] at h ⊢
      obtain ⟨a, ha, rfl⟩ := h
      exact ⟨a, scalar_mono n u ha, rfl⟩

theorem goOn_mono {f g : List Spec → L.T → Outcome L} {h : List Spec} {t : L.T}
    (hfg : ∀ h u h' r, f h u = (h', some r) → g h u = (h', some r)) {h' r} (hx : goOn L f h t = (h', some r)) :
    goOn L g h t = (h', some r) := by
  unfold goOn at hx ⊢
  cases he : L.eval t with
  | none => rw [he] at hx; cases hx
  | some x =>
    rw [he] at hx
    cases x with
    | error e => exact hx
    | ok u => exact hfg _ _ _ _ hx

theorem goIn_mono {f g : List Spec → L.T → Outcome L} {h : List Spec} {t : L.T}
    (hfg : ∀ h u h' r, f h u = (h', some r) → g h u = (h', some r)) {h' r} (hx : goIn L f h t = (h', some r)) :
    goIn L g h t = (h', some r) := by
  unfold goIn at hx ⊢
  cases he : L.eval t with
  | none => rw [he] at hx; cases hx
  | some x =>
    rw [he] at hx
    cases x with
    | error e => exact hx
    | ok u =>
      dsimp only at hx ⊢
      split at hx
      · rename_i hi
        rw [if_pos hi]
        exact hfg _ _ _ _ hx
      · rename_i hi
        rw [if_neg hi]
        exact hx

theorem bareRun_mono {os : Os L.E} {allow : Bool} : ∀ (n : Nat) (h : List Spec) (u : L.T) (h' : List Spec) r,
    bareRun L os allow n h u = (h', some r) → bareRun L os allow (n + 1) h u = (h', some r)
  | 0, h, u, h', r, hx => by cases hx
  | n + 1, h, u, h', r, hx => by
    have ih := bareRun_mono (os := os) (allow := allow) n
    rw [bareRun.eq_2] at hx
    rw [bareRun.eq_2]
    cases hl : L.look u with
    | ret w v => rw [hl] at hx; exact hx
    | fail w e =>
      rw [hl] at hx
      dsimp only at hx ⊢
      cases hf : failureOf L n e with
      | none => rw [hf] at hx; cases hx
      | some msg => rw [hf] at hx; rw [failureOf_mono n e msg hf]; exact hx
    | act w s =>
      rw [hl] at hx
      dsimp only at hx ⊢
      cases allow with
      | false => exact hx
      | true =>
        simp only [Bool.not_true, Bool.false_eq_true, if_false] at hx ⊢
        cases hs : specOf L n s with
        | none => rw [hs] at hx; cases hx
        | some x =>
          rw [hs] at hx
          rw [specOf_mono n s x hs]
          cases x with
          | error e => exact hx
          | ok sp =>
            dsimp only at hx ⊢
            cases ho : os h sp with
            | error e => rw [ho] at hx; exact hx
            | ok rp => rw [ho] at hx; exact goOn_mono ih hx
    | bind w k a =>
      rw [hl] at hx
      dsimp only at hx ⊢
      cases hg : goIn L (bareRun L os allow n) h (L.app1 a w) with
      | mk h₁ o =>
        rw [hg] at hx
        cases o with
        | none => cases hx
        | some x =>
          rw [goIn_mono ih hg]
          cases x with
          | error e => exact hx
          | ok v => exact goOn_mono ih hx
    | _ => rw [hl] at hx; exact hx

theorem up {f : Nat → List Spec → L.T → Outcome L}
    (hf : ∀ n h u h' r, f n h u = (h', some r) → f (n + 1) h u = (h', some r)) {n k : Nat} (hk : n ≤ k) :
    ∀ h u h' r, f n h u = (h', some r) → f k h u = (h', some r) := by
  intro h u h' r hx
  induction hk with
  | refl => exact hx
  | step _ ih => exact hf _ _ _ _ _ ih

theorem specOf_up {n k : Nat} {t : L.T} {r} (hk : n ≤ k) (h : specOf L n t = some r) : specOf L k t = some r := by
  induction hk with
  | refl => exact h
  | step _ ih => exact specOf_mono _ _ _ ih

theorem failureOf_up {n k : Nat} {t : L.T} {r} (hk : n ≤ k) (h : failureOf L n t = some r) :
    failureOf L k t = some r := by
  induction hk with
  | refl => exact h
  | step _ ih => exact failureOf_mono _ _ _ ih

/-! ## The bare loop does what is to be done -/

theorem bareRun_runs {os : Os L.E} {allow : Bool} (so : Sound L) : ∀ (n : Nat) (h : List Spec) (t u : L.T) (h' : List Spec) r,
    L.eval t = some (.ok u) → bareRun L os allow n h u = (h', some r) → Runs L os allow h t h' r
  | 0, h, t, u, h', r, he, hx => by cases hx
  | n + 1, h, t, u, h', r, he, hx => by
    have ih := bareRun_runs (os := os) (allow := allow) so n
    rw [bareRun.eq_2] at hx
    cases hl : L.look u with
    | ret w v =>
      rw [hl] at hx
      cases hx
      exact .ret he hl
    | fail w e =>
      rw [hl] at hx
      dsimp only at hx
      cases hf : failureOf L n e with
      | none => rw [hf] at hx; cases hx
      | some msg => rw [hf] at hx; cases hx; exact .fail he hl hf
    | act w s =>
      rw [hl] at hx
      dsimp only at hx
      cases allow with
      | false => cases hx; exact .denied he hl rfl
      | true =>
        simp only [Bool.not_true, Bool.false_eq_true, if_false] at hx
        cases hs : specOf L n s with
        | none => rw [hs] at hx; cases hx
        | some x =>
          rw [hs] at hx
          cases x with
          | error e => cases hx; exact .bad he hl rfl hs
          | ok sp =>
            dsimp only at hx
            cases ho : os h sp with
            | error e => rw [ho] at hx; cases hx; exact .broken he hl rfl hs ho
            | ok rp =>
              rw [ho] at hx
              dsimp only at hx
              obtain ⟨u', he', hl'⟩ := so w (L.result rp)
              unfold goOn at hx
              rw [he'] at hx
              dsimp only at hx
              cases n with
              | zero => cases hx
              | succ n =>
                rw [bareRun.eq_2, hl'] at hx
                cases hx
                exact .act he hl rfl hs ho
    | bind w k a =>
      rw [hl] at hx
      dsimp only at hx
      cases hg : goIn L (bareRun L os allow n) h (L.app1 a w) with
      | mk h₁ o =>
        rw [hg] at hx
        have hin : ∀ x, o = some x → Runs L os allow h (L.app1 a w) h₁ x := by
          rintro x rfl
          unfold goIn at hg
          cases hev : L.eval (L.app1 a w) with
          | none => rw [hev] at hg; cases hg
          | some y =>
            rw [hev] at hg
            cases y with
            | error e => cases hg; exact .err hev
            | ok v =>
              dsimp only at hg
              split at hg
              · exact ih _ _ _ _ _ hev hg
              · rename_i hi
                cases hg
                exact .plain hev (by simpa using hi)
        cases o with
        | none => cases hx
        | some x =>
          cases x with
          | error e => cases hx; exact .cut he hl (hin _ rfl)
          | ok v =>
            dsimp only at hx
            refine .bind he hl (hin _ rfl) ?_
            unfold goOn at hx
            cases hev : L.eval (L.app2 k v w) with
            | none => rw [hev] at hx; cases hx
            | some y =>
              rw [hev] at hx
              cases y with
              | error e => cases hx; exact .err hev
              | ok v' => exact ih _ _ _ _ _ hev hx
    | _ => rw [hl] at hx; cases hx; exact .plain he (by rw [hl]; rfl)

theorem runs_bareRun {os : Os L.E} {allow : Bool} (so : Sound L) {h t h' r} (hr : Runs L os allow h t h' r) :
    (∃ e, L.eval t = some (.error e) ∧ h' = h ∧ r = .error (.machine e)) ∨
      (∃ u, L.eval t = some (.ok u) ∧ ∃ n, bareRun L os allow n h u = (h', some r)) := by
  induction hr with
  | err he => exact .inl ⟨_, he, rfl, rfl⟩
  | @plain h t u he hi =>
    refine .inr ⟨u, he, 1, ?_⟩
    rw [bareRun.eq_2]
    cases hl : L.look u <;> rw [hl] at hi <;> first | rfl | cases hi
  | @ret h t u w v he hl =>
    refine .inr ⟨u, he, 1, ?_⟩
    rw [bareRun.eq_2, hl]
  | @fail h t u w e n msg he hl hf =>
    refine .inr ⟨u, he, n + 1, ?_⟩
    rw [bareRun.eq_2, hl]
    dsimp only
    rw [hf]
    rfl
  | @denied h t u w s he hl ha =>
    subst ha
    refine .inr ⟨u, he, 1, ?_⟩
    rw [bareRun.eq_2, hl]
    rfl
  | @bad h t u w s n e he hl ha hs =>
    subst ha
    refine .inr ⟨u, he, n + 1, ?_⟩
    rw [bareRun.eq_2, hl]
    dsimp only
    rw [hs]
    rfl
  | @broken h t u w s n sp e he hl ha hs ho =>
    subst ha
    refine .inr ⟨u, he, n + 1, ?_⟩
    rw [bareRun.eq_2, hl]
    dsimp only
    rw [hs]
    simp only [Bool.not_true, Bool.false_eq_true, if_false]
    rw [ho]
  | @act h t u w s n sp rp he hl ha hs ho =>
    subst ha
    refine .inr ⟨u, he, n + 2, ?_⟩
    obtain ⟨u', he', hl'⟩ := so w (L.result rp)
    rw [bareRun.eq_2, hl]
    dsimp only
    rw [specOf_mono n s _ hs]
    simp only [Bool.not_true, Bool.false_eq_true, if_false]
    rw [ho]
    dsimp only [goOn]
    rw [he']
    dsimp only
    rw [bareRun.eq_2, hl']
  | @bind h t u w k a h₁ v h₂ r he hl h1 h2 i1 i2 =>
    refine .inr ⟨u, he, ?_⟩
    obtain ⟨e, _, _, hc⟩ | ⟨u₁, he₁, n₁, hb₁⟩ := i1
    · cases hc
    have hi₁ : (L.look u₁).isIo = true := by
      cases n₁ with
      | zero => cases hb₁
      | succ n₁ =>
        rw [bareRun.eq_2] at hb₁
        cases hl₁ : L.look u₁ <;> rw [hl₁] at hb₁ <;> first | rfl | (cases hb₁)
    obtain ⟨e, he₂, rfl, rfl⟩ | ⟨u₂, he₂, n₂, hb₂⟩ := i2
    · refine ⟨n₁ + 1, ?_⟩
      rw [bareRun.eq_2, hl]
      have : goIn L (bareRun L os allow n₁) h (L.app1 a w) = (h₂, some (.ok v)) := by
        unfold goIn
        rw [he₁]
        simp only [hi₁, if_true]
        exact hb₁
      simp only [this]
      unfold goOn
      rw [he₂]
    · refine ⟨max n₁ n₂ + 1, ?_⟩
      rw [bareRun.eq_2, hl]
      have hb₁' := up (f := bareRun L os allow) bareRun_mono (Nat.le_max_left n₁ n₂) _ _ _ _ hb₁
      have hb₂' := up (f := bareRun L os allow) bareRun_mono (Nat.le_max_right n₁ n₂) _ _ _ _ hb₂
      have : goIn L (bareRun L os allow (max n₁ n₂)) h (L.app1 a w) = (h₁, some (.ok v)) := by
        unfold goIn
        rw [he₁]
        simp only [hi₁, if_true]
        exact hb₁'
      simp only [this]
      unfold goOn
      rw [he₂]
      exact hb₂'
  | @cut h t u w k a h₁ e he hl h1 i1 =>
    refine .inr ⟨u, he, ?_⟩
    obtain ⟨e', he₁, rfl, hc⟩ | ⟨u₁, he₁, n₁, hb₁⟩ := i1
    · cases hc
      refine ⟨1, ?_⟩
      rw [bareRun.eq_2, hl]
      dsimp only [goIn]
      rw [he₁]
    · refine ⟨n₁ + 1, ?_⟩
      rw [bareRun.eq_2, hl]
      cases hi : (L.look u₁).isIo with
      | true =>
        have : goIn L (bareRun L os allow n₁) h (L.app1 a w) = (h₁, some (.error e)) := by
          unfold goIn
          rw [he₁]
          simp only [hi, if_true]
          exact hb₁
        simp only [this]
      | false =>
        have hp : (h₁, some (Except.error e)) = ((h, some (.error .panic)) : Outcome L) := by
          rw [← hb₁]
          cases n₁ with
          | zero => cases hb₁
          | succ n₁ =>
            rw [bareRun.eq_2]
            cases hl₁ : L.look u₁ <;> rw [hl₁] at hi <;> first | rfl | cases hi
        have : goIn L (bareRun L os allow n₁) h (L.app1 a w) = (h, some (.error .panic)) := by
          unfold goIn
          rw [he₁]
          simp only [hi, Bool.false_eq_true, if_false]
        simp only [this, hp]

end Verif.Io
