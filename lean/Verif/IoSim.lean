import Verif.IoSpec

/-! # The driver and its stash do what is to be done.  Proofs only. -/

namespace Verif.Io

variable {L : Lang}

/-- Everything the machine holds is good in the heap as it is. -/
def Good (m : Mach L.T) : Prop := m.now.age = m.age ∧ ∀ r ∈ m.stash, r.age = m.age

/-- What is on the stash. -/
def contents (m : Mach L.T) : List L.T := m.stash.map (·.val)

/-- A piece of the driver comes out as `p` says, leaving `c` on the stash, `v` current and the commands at `h`. -/
def Meets {α β : Type} (x : Res L α) (c : List L.T) (v : L.T) (h : List Spec) (p : Option (Except (Stop L.E) β))
    (R : α → β → Mach L.T → Prop) : Prop :=
  match x, p with
  | .ok a m, some (.ok b) => Good m ∧ contents m = c ∧ m.now.val = v ∧ m.done = h ∧ R a b m
  | .stop e m, some (.error e') => e = e' ∧ m.done = h
  | .away m, none => m.done = h
  | _, _ => False

theorem Meets.seq {α β γ δ : Type} {x : Drive L α} {f : α → Drive L β} {m : Mach L.T} {c c' : List L.T} {v : L.T}
    {h : List Spec} {p : Option (Except (Stop L.E) γ)} {q : γ → Option (Except (Stop L.E) δ)}
    {R : α → γ → Mach L.T → Prop} {S : β → δ → Mach L.T → Prop}
    (hx : Meets (x m) c v h p R)
    (hf : ∀ a b m', Good m' → contents m' = c → m'.now.val = v → m'.done = h → R a b m' →
      Meets (f a m') c' v h (q b) S) :
    Meets ((x >>= f) m) c' v h (andThen p q) S := by
  show Meets (Drive.bind x f m) _ _ _ _ _
  unfold Drive.bind
  cases e : x m with
  | ok a m' =>
    rw [e] at hx
    cases p with
    | none => exact hx.elim
    | some r =>
      cases r with
      | error _ => exact hx.elim
      | ok b =>
        obtain ⟨g, hc, hv, hh, hr⟩ := hx
        exact hf a b m' g hc hv hh hr
  | stop e' m' =>
    rw [e] at hx
    cases p with
    | none => exact hx.elim
    | some r =>
      cases r with
      | error _ => exact hx
      | ok b => exact hx.elim
  | fault m' =>
    rw [e] at hx
    cases p with
    | none => exact hx.elim
    | some r => cases r <;> exact hx.elim
  | away m' =>
    rw [e] at hx
    cases p with
    | none => exact hx
    | some r => cases r <;> exact hx.elim

/-- A step that always gives an answer and changes nothing. -/
theorem bind_ok {α β : Type} {x : Drive L α} {f : α → Drive L β} {m m' : Mach L.T} {a : α} (h : x m = .ok a m') :
    (x >>= f) m = f a m' := by
  show Drive.bind x f m = _
  unfold Drive.bind
  rw [h]

theorem bind_away {α β : Type} {x : Drive L α} {f : α → Drive L β} {m m' : Mach L.T} (h : x m = .away m') :
    (x >>= f) m = .away m' := by
  show Drive.bind x f m = _
  unfold Drive.bind
  rw [h]

theorem bind_stop {α β : Type} {x : Drive L α} {f : α → Drive L β} {m m' : Mach L.T} {e : Stop L.E}
    (h : x m = .stop e m') : (x >>= f) m = .stop e m' := by
  show Drive.bind x f m = _
  unfold Drive.bind
  rw [h]

theorem open_ok {r : Ref L.T} {m : Mach L.T} (h : r.age = m.age) : open' L r m = .ok r.val m := by
  simp [open', h]

theorem held_ok {t : L.T} {m : Mach L.T} : held L t m = .ok ⟨t, m.age⟩ m := rfl

theorem moved_good {gc : Nat → Bool} {m : Mach L.T} (g : Good m) :
    Good (moved gc m) ∧ contents (moved gc m) = contents m ∧ (moved gc m).now.val = m.now.val ∧
      (moved gc m).done = m.done := by
  obtain ⟨gn, gs⟩ := g
  refine ⟨⟨?_, ?_⟩, ?_, ?_, rfl⟩
  · simp [moved, carry, gn]
  · intro r hr
    simp only [moved, List.mem_map] at hr ⊢
    obtain ⟨s, hs, rfl⟩ := hr
    simp [carry, gs s hs]
  · simp only [contents, moved, List.map_map]
    apply List.map_congr_left
    intro r hr
    simp [carry, gs r hr]
  · simp [moved, carry, gn]

theorem whnf_meets {gc : Nat → Bool} {m : Mach L.T} {r : Ref L.T} (g : Good m) (hr : r.age = m.age) :
    Meets (whnf L gc r m) (contents m) m.now.val m.done (valueOf L r.val)
      (fun w u m' => w.val = u ∧ w.age = m'.age ∧ m'.yielded = true) := by
  have gm : Good ({ m with now := r, stash := m.now :: m.stash, yielded := false } : Mach L.T) := by
    refine ⟨hr, ?_⟩
    intro s hs
    cases hs with
    | head => exact g.1
    | tail _ hs => exact g.2 s hs
  obtain ⟨mg, mc, mv, md⟩ := moved_good (gc := gc) gm
  unfold whnf run valueOf
  simp only [if_pos hr]
  generalize hM : moved gc ({ m with now := r, stash := m.now :: m.stash, yielded := false } : Mach L.T) = M at *
  cases he : L.eval r.val with
  | none => exact md
  | some x =>
    cases hs : M.stash with
    | nil => simp [contents, hs] at mc
    | cons c cs =>
      simp only [contents, hs, List.map_cons, List.cons.injEq] at mc
      have gc' : c.age = M.age := mg.2 c (by simp [hs])
      have gcs : ∀ s ∈ cs, s.age = M.age := fun s h => mg.2 s (by simp [hs, h])
      cases x with
      | error e =>
        simp only [hs]
        exact ⟨rfl, md⟩
      | ok t =>
        dsimp only
        by_cases hi : (L.look t).isIo = true
        · rw [if_pos hi, if_pos hi]
          exact ⟨rfl, md⟩
        · rw [if_neg hi, if_neg hi]
          exact ⟨⟨gc', gcs⟩, mc.2, mc.1, md, rfl, rfl, rfl⟩

theorem whnf_stop {gc : Nat → Bool} {m m' : Mach L.T} {r : Ref L.T} {e : Stop L.E} (g : Good m) (hr : r.age = m.age)
    (h : whnf L gc r m = .stop e m') : Good m' ∧ contents m' = contents m := by
  have gm : Good ({ m with now := r, stash := m.now :: m.stash, yielded := false } : Mach L.T) := by
    refine ⟨hr, ?_⟩
    intro s hs
    cases hs with
    | head => exact g.1
    | tail _ hs => exact g.2 s hs
  obtain ⟨mg, mc, mv, md⟩ := moved_good (gc := gc) gm
  unfold whnf run at h
  simp only [if_pos hr] at h
  generalize hM : moved gc ({ m with now := r, stash := m.now :: m.stash, yielded := false } : Mach L.T) = M at *
  cases he : L.eval r.val with
  | none => rw [he] at h; cases h
  | some x =>
    cases hs : M.stash with
    | nil => simp [contents, hs] at mc
    | cons c cs =>
      simp only [contents, hs, List.map_cons, List.cons.injEq] at mc
      have gc' : c.age = M.age := mg.2 c (by simp [hs])
      have gcs : ∀ s ∈ cs, s.age = M.age := fun s h => mg.2 s (by simp [hs, h])
      rw [he] at h
      cases x with
      | error e =>
        simp only [hs] at h
        cases h
        exact ⟨⟨gc', gcs⟩, mc.2⟩
      | ok t =>
        simp only [hs] at h
        split at h
        · cases h
          exact ⟨⟨gc', gcs⟩, mc.2⟩
        · cases h

theorem Meets.held_pure {α β : Type} {a : α} {m : Mach L.T} {c : List L.T} {v : L.T} {h : List Spec} {b : β}
    {R : α → β → Mach L.T → Prop} (g : Good m) (hc : contents m = c) (hv : m.now.val = v) (hh : m.done = h)
    (hr : R a b m) : Meets ((pure a : Drive L α) m) c v h (some (.ok b)) R := ⟨g, hc, hv, hh, hr⟩

theorem ends_meets {α : Type} {x : Option α} {m : Mach L.T} (g : Good m) :
    Meets (Drive.ends (L := L) x m) (contents m) m.now.val m.done (inTime x) (fun a b _ => a = b) := by
  cases x with
  | none => exact (rfl : m.done = m.done)
  | some a => exact ⟨g, rfl, rfl, rfl, rfl⟩

theorem forceField_meets {gc : Nat → Bool} {m : Mach L.T} {r : Ref L.T} (g : Good m) (hr : r.age = m.age) :
    Meets (forceField L gc r m) (contents m) m.now.val m.done (plainOf L r.val)
      (fun w u m' => w.val = u ∧ w.age = m'.age) := by
  unfold forceField plainOf
  refine Meets.seq (whnf_meets g hr) ?_
  rintro w u m' g' hc hv hh ⟨rfl, ha, _⟩
  rw [bind_ok (open_ok ha)]
  cases hb : boxInner L w.val with
  | none =>
    exact ⟨g', hc, hv, hh, rfl, ha⟩
  | some u =>
    dsimp only
    rw [bind_ok held_ok]
    have := whnf_meets (gc := gc) (r := ⟨u, m'.age⟩) g' rfl
    rw [hc, hv, hh] at this
    revert this
    unfold Meets
    split <;> simp_all

theorem pushAll_ok : ∀ (ts : List L.T) {m : Mach L.T}, Good m → ∃ m', pushAll L ts m = .ok () m' ∧ Good m' ∧
    contents m' = ts ++ contents m ∧ m'.now.val = m.now.val ∧ m'.done = m.done
  | [], m, g => ⟨m, rfl, g, rfl, rfl, rfl⟩
  | t :: ts, m, g => by
    obtain ⟨m', e, g', hc, hv, hh⟩ := pushAll_ok ts g
    refine ⟨{ m' with stash := ⟨t, m'.age⟩ :: m'.stash }, ?_, ⟨g'.1, ?_⟩, ?_, hv, hh⟩
    · unfold pushAll
      rw [bind_ok e]
      rfl
    · intro r hr
      cases hr with
      | head => rfl
      | tail _ h => exact g'.2 r h
    · simp only [contents, List.map_cons, List.cons_append, List.cons.injEq, true_and]
      exact hc

theorem pop_ok {m : Mach L.T} {t : L.T} {c : List L.T} (g : Good m) (hc : contents m = t :: c) :
    ∃ r m', pop L m = .ok r m' ∧ r.val = t ∧ r.age = m'.age ∧ Good m' ∧ contents m' = c ∧ m'.now = m.now ∧
      m'.done = m.done ∧ m'.yielded = m.yielded := by
  cases hs : m.stash with
  | nil => simp [contents, hs] at hc
  | cons r rs =>
    simp only [contents, hs, List.map_cons, List.cons.injEq] at hc
    refine ⟨r, { m with stash := rs }, by simp [pop, hs], hc.1, g.2 r (by simp [hs]), ⟨g.1, ?_⟩, hc.2, rfl, rfl, rfl⟩
    intro s h
    exact g.2 s (by simp [hs, h])

theorem partsLoop_meets {gc : Nat → Bool} {n : Nat} : ∀ (ts : List L.T) {m : Mach L.T} {c : List L.T}, Good m →
    contents m = ts ++ c →
    Meets (partsLoop L gc n ts.length m) c m.now.val m.done (textsOf L n ts) (fun a b _ => a = b)
  | [], m, c, g, hc => ⟨g, hc, rfl, rfl, rfl⟩
  | t :: ts, m, c, g, hc => by
    obtain ⟨r, m', e, hr, ha, g', hc', hn, hd, _⟩ := pop_ok g hc
    simp only [List.length_cons]
    unfold partsLoop textsOf
    rw [bind_ok e]
    subst hr
    have := forceField_meets (gc := gc) g' ha
    rw [hc', hn, hd] at this
    refine Meets.seq this ?_
    rintro w u m'' g'' hc'' hv'' hh'' ⟨rfl, ha''⟩
    rw [bind_ok (open_ok ha'')]
    have := ends_meets (x := scalar L n w.val) g''
    rw [hc'', hv'', hh''] at this
    refine Meets.seq this ?_
    rintro s _ m₃ g₃ hc₃ hv₃ hh₃ rfl
    have := partsLoop_meets (gc := gc) (n := n) ts (c := c) g₃ hc₃
    rw [hv₃, hh₃] at this
    refine Meets.seq this ?_
    rintro rest _ m₄ g₄ hc₄ hv₄ hh₄ rfl
    exact ⟨g₄, hc₄, hv₄, hh₄, rfl⟩

theorem fieldText_meets {gc : Nat → Bool} {n : Nat} {m : Mach L.T} {r : Ref L.T} (g : Good m) (hr : r.age = m.age) :
    Meets (fieldText L gc n r m) (contents m) m.now.val m.done (fieldOf L n r.val) (fun a b _ => a = b) := by
  unfold fieldText fieldOf
  refine Meets.seq (forceField_meets g hr) ?_
  rintro w u m' g' hc hv hh ⟨rfl, ha⟩
  rw [bind_ok (open_ok ha)]
  by_cases hl : isList L w.val = true
  · rw [if_pos hl, if_pos hl]
    have := ends_meets (x := elements L n w.val) g'
    rw [hc, hv, hh] at this
    refine Meets.seq this ?_
    rintro es _ m₂ g₂ hc₂ hv₂ hh₂ rfl
    obtain ⟨m₃, e₃, g₃, hc₃, hv₃, hh₃⟩ := pushAll_ok es g₂
    rw [bind_ok e₃]
    have := partsLoop_meets (gc := gc) (n := n) es g₃ hc₃
    rw [hc₂, hv₃, hh₃, hv₂, hh₂] at this
    refine Meets.seq this ?_
    rintro ps _ m₄ g₄ hc₄ hv₄ hh₄ rfl
    exact ⟨g₄, hc₄, hv₄, hh₄, rfl⟩
  · rw [if_neg hl, if_neg hl]
    have := ends_meets (x := scalar L n w.val) g'
    rw [hc, hv, hh] at this
    exact this

theorem fieldsLoop_meets {gc : Nat → Bool} {n : Nat} : ∀ (raw : List (Str × L.T)) (fs : Fields) {m : Mach L.T}
    {c : List L.T}, Good m → contents m = raw.map (·.2) ++ c →
    Meets (fieldsLoop L gc n (raw.map (·.1)) fs m) c m.now.val m.done (fieldsOf L n raw fs) (fun a b _ => a = b)
  | [], fs, m, c, g, hc => ⟨g, hc, rfl, rfl, rfl⟩
  | (k, t) :: raw, fs, m, c, g, hc => by
    obtain ⟨r, m', e, hr, ha, g', hc', hn, hd, _⟩ := pop_ok g hc
    simp only [List.map_cons]
    unfold fieldsLoop fieldsOf
    rw [bind_ok e]
    dsimp only at hr
    subst hr
    have := fieldText_meets (gc := gc) (n := n) g' ha
    rw [hc', hn, hd] at this
    refine Meets.seq this ?_
    rintro s _ m₂ g₂ hc₂ hv₂ hh₂ rfl
    have := fieldsLoop_meets (gc := gc) (n := n) raw ((k, s) :: fs) (c := c) g₂ hc₂
    rw [hv₂, hh₂] at this
    exact this

theorem specBlock_meets {gc : Nat → Bool} {n : Nat} {m : Mach L.T} {r : Ref L.T} (g : Good m) (hr : r.age = m.age) :
    Meets (specBlock L gc n r m) (contents m) m.now.val m.done (specOf L n r.val) (fun a b _ => a = b) := by
  unfold specBlock specOf
  rw [bind_ok (open_ok hr)]
  rw [bind_ok held_ok]
  refine Meets.seq (whnf_meets (r := ⟨peel L 64 r.val, m.age⟩) g rfl) ?_
  rintro w b m₁ g₁ hc₁ hv₁ hh₁ ⟨rfl, ha₁, _⟩
  rw [bind_ok (open_ok ha₁)]
  have hraw : Meets (blockFields L n w.val m₁) (contents m) m.now.val m.done (rawOf L n w.val) (fun a b _ => a = b) := by
    unfold blockFields rawOf
    cases hl : L.look w.val with
    | block es =>
      have := ends_meets (x := entries L n es) g₁
      rw [hc₁, hv₁, hh₁] at this
      exact this
    | _ => exact ⟨rfl, hh₁⟩
  refine Meets.seq hraw ?_
  rintro raw _ m₂ g₂ hc₂ hv₂ hh₂ rfl
  obtain ⟨m₃, e₃, g₃, hc₃, hv₃, hh₃⟩ := pushAll_ok (raw.map (·.2)) g₂
  rw [bind_ok e₃]
  have := fieldsLoop_meets (gc := gc) (n := n) raw [] g₃ hc₃
  rw [hc₂, hv₃, hh₃, hv₂, hh₂] at this
  refine Meets.seq this ?_
  rintro fs _ m₄ g₄ hc₄ hv₄ hh₄ rfl
  cases actionSpec (peelTag L 64 r.val) fs with
  | ok s => exact ⟨g₄, hc₄, hv₄, hh₄, rfl⟩
  | error e => exact ⟨rfl, hh₄⟩

/-- A run of the current value. -/
theorem run_cases {gc : Nat → Bool} {m : Mach L.T} (g : Good m) :
    match L.eval m.now.val with
    | none => ∃ m', run L gc m = .away m' ∧ m'.done = m.done
    | some (.error e) => ∃ m', run L gc m = .stop (.machine e) m' ∧ m'.done = m.done
    | some (.ok t) => ∃ m', run L gc m = .ok () m' ∧ Good m' ∧ contents m' = contents m ∧ m'.now.val = t ∧
        m'.done = m.done ∧ m'.yielded = (L.look t).isIo := by
  obtain ⟨mg, mc, mv, md⟩ := moved_good (gc := gc) g
  unfold run
  simp only [if_pos g.1]
  cases he : L.eval m.now.val with
  | none => exact ⟨_, rfl, md⟩
  | some x =>
    cases x with
    | error e => exact ⟨_, rfl, md⟩
    | ok t => exact ⟨_, rfl, ⟨rfl, mg.2⟩, mc, rfl, md, rfl⟩

/-! ## The loop without the stash -/

section Bare
variable (L) (os : Os L.E) (allow : Bool)

/-- What the loop comes to: the commands run, and the outcome if there is one. -/
abbrev Outcome (L : Lang) := List Spec × Option (Except (Stop L.E) L.T)

/-- Evaluate something and go on with what it yields. -/
def goOn (next : List Spec → L.T → Outcome L) (h : List Spec) (t : L.T) : Outcome L := match L.eval t with
  | none => (h, none)
  | some (.error e) => (h, some (.error (.machine e)))
  | some (.ok u) => next h u

/-- The same, for an action that is to be run first: it must yield. -/
def goIn (next : List Spec → L.T → Outcome L) (h : List Spec) (t : L.T) : Outcome L := match L.eval t with
  | none => (h, none)
  | some (.error e) => (h, some (.error (.machine e)))
  | some (.ok u) => if (L.look u).isIo then next h u else (h, some (.error .panic))

/-- `io_run` without the stash. -/
def bareRun : Nat → List Spec → L.T → Outcome L
  | 0, h, _ => (h, none)
  | n + 1, h, u => match L.look u with
    | .ret _ v => (h, some (.ok v))
    | .fail _ e => (h, (failureOf L n e).map (fun msg => .error (.failed msg)))
    | .act w s =>
      if !allow then (h, some (.error .denied)) else match specOf L n s with
      | none => (h, none)
      | some (.error e) => (h, some (.error e))
      | some (.ok sp) => match os h sp with
        | .error e => (h ++ [sp], some (.error e))
        | .ok r => goOn L (bareRun n) (h ++ [sp]) (L.ioReturn w (L.result r))
    | .bind w k a => match goIn L (bareRun n) h (L.app1 a w) with
      | (h₁, some (.ok v)) => goOn L (bareRun n) h₁ (L.app2 k v w)
      | x => x
    | _ => (h, some (.error .panic))

end Bare

/-- The driver comes out as the bare loop does, with what was on the stash still there. -/
def Agrees (x : Res L (Ref L.T)) (c : List L.T) (p : Outcome L) : Prop :=
  match x, p.2 with
  | .ok r m, some (.ok v) => Good m ∧ contents m = c ∧ m.done = p.1 ∧ r.val = v ∧ r.age = m.age
  | .stop e m, some (.error e') => e = e' ∧ m.done = p.1
  | .away m, none => m.done = p.1
  | _, _ => False

theorem push_ok {m : Mach L.T} {r : Ref L.T} (g : Good m) (hr : r.age = m.age) :
    ∃ m', push L r m = .ok () m' ∧ Good m' ∧ contents m' = r.val :: contents m ∧ m'.now = m.now ∧ m'.done = m.done ∧
      m'.yielded = m.yielded ∧ m'.age = m.age := by
  refine ⟨_, rfl, ⟨g.1, ?_⟩, rfl, rfl, rfl, rfl, rfl⟩
  intro s hs
  cases hs with
  | head => exact hr
  | tail _ h => exact g.2 s h

theorem peek_ok {m : Mach L.T} {d : Nat} {t : L.T} (g : Good m) (hc : (contents m)[d]? = some t) :
    ∃ r, peek L d m = .ok r m ∧ r.val = t ∧ r.age = m.age := by
  simp only [contents, List.getElem?_map, Option.map_eq_some_iff] at hc
  obtain ⟨r, hr, rfl⟩ := hc
  refine ⟨r, by simp [peek, hr], rfl, g.2 r (List.mem_of_getElem? hr)⟩

theorem resume_ok {m : Mach L.T} {r : Ref L.T} (g : Good m) (hr : r.age = m.age) :
    ∃ m', resume L r m = .ok () m' ∧ Good m' ∧ contents m' = contents m ∧ m'.now.val = r.val ∧ m'.done = m.done :=
  ⟨_, rfl, ⟨hr, g.2⟩, rfl, rfl, rfl⟩

/-- Push something, make it current, run it, and pop it again. -/
def runPushed (L : Lang) (gc : Nat → Bool) (r : Ref L.T) : Drive L Unit := do
  push L r
  let r ← peek L 0
  resume L r
  run L gc
  let _ ← pop L
  pure ()

theorem runPushed_cases {gc : Nat → Bool} {m : Mach L.T} {r : Ref L.T} (g : Good m) (hr : r.age = m.age) :
    match L.eval r.val with
    | none => ∃ m', runPushed L gc r m = .away m' ∧ m'.done = m.done
    | some (.error e) => ∃ m', runPushed L gc r m = .stop (.machine e) m' ∧ m'.done = m.done
    | some (.ok t) => ∃ m', runPushed L gc r m = .ok () m' ∧ Good m' ∧ contents m' = contents m ∧ m'.now.val = t ∧
        m'.done = m.done ∧ m'.yielded = (L.look t).isIo := by
  obtain ⟨m₁, e₁, g₁, c₁, n₁, d₁, y₁, a₁⟩ := push_ok g hr
  obtain ⟨r₂, e₂, v₂, a₂⟩ := peek_ok (d := 0) (t := r.val) g₁ (by rw [c₁]; rfl)
  obtain ⟨m₃, e₃, g₃, c₃, v₃, d₃⟩ := resume_ok g₁ a₂
  have hx : ∀ k : Unit → Drive L Unit, (push L r >>= fun _ => peek L 0 >>= fun r => resume L r >>= k) m = k () m₃ := by
    intro k
    rw [bind_ok e₁, bind_ok e₂, bind_ok e₃]
  have hrun := run_cases (gc := gc) g₃
  rw [v₃, v₂] at hrun
  unfold runPushed
  rw [hx]
  cases he : L.eval r.val with
  | none =>
    rw [he] at hrun
    obtain ⟨m', e', d'⟩ := hrun
    exact ⟨m', bind_away e', by rw [d', d₃, d₁]⟩
  | some x =>
    rw [he] at hrun
    cases x with
    | error e =>
      obtain ⟨m', e', d'⟩ := hrun
      exact ⟨m', bind_stop e', by rw [d', d₃, d₁]⟩
    | ok t =>
      obtain ⟨m', e', g', c', v', d', y'⟩ := hrun
      obtain ⟨r₄, m₄, e₄, _, _, g₄, c₄, n₄, d₄, y₄⟩ := pop_ok (t := r.val) (c := contents m) g' (by rw [c', c₃, c₁])
      refine ⟨m₄, ?_, g₄, c₄, by rw [n₄, v'], by rw [d₄, d', d₃, d₁], by rw [y₄, y']⟩
      rw [bind_ok e', bind_ok e₄]
      rfl

theorem drive_assoc {α β γ : Type} (x : Drive L α) (f : α → Drive L β) (k : β → Drive L γ) :
    (x >>= f) >>= k = x >>= fun a => f a >>= k := by
  show Drive.bind (Drive.bind x f) k = Drive.bind x (fun a => Drive.bind (f a) k)
  funext m
  unfold Drive.bind
  cases x m <;> rfl

theorem runPushed_seq {gc : Nat → Bool} {r : Ref L.T} {β : Type} (k : Drive L β) :
    (push L r >>= fun _ => peek L 0 >>= fun r => resume L r >>= fun _ => run L gc >>= fun _ => pop L >>= fun _ => k)
      = runPushed L gc r >>= fun _ => k := by
  unfold runPushed
  simp only [drive_assoc]
  rfl

theorem failText_meets {gc : Nat → Bool} {n : Nat} {m : Mach L.T} {r : Ref L.T} (g : Good m) (hr : r.age = m.age) :
    match failureOf L n r.val with
    | none => ∃ m', failText L gc n r m = .away m' ∧ m'.done = m.done
    | some msg => ∃ m', failText L gc n r m = .ok msg m' ∧ m'.done = m.done := by
  have hw := whnf_meets (gc := gc) g hr
  unfold failText failureOf
  cases hx : whnf L gc r m with
  | ok w m' =>
    rw [hx] at hw
    cases hp : valueOf L r.val with
    | none => rw [hp] at hw; exact hw.elim
    | some x =>
      rw [hp] at hw
      cases x with
      | error _ => exact hw.elim
      | ok u =>
        obtain ⟨g', hc, hv, hh, rfl, ha, _⟩ := hw
        dsimp only
        rw [bind_ok (open_ok ha)]
        cases hs : scalar L n w.val with
        | none => exact ⟨m', rfl, hh⟩
        | some s => exact ⟨m', rfl, hh⟩
  | stop e m' =>
    rw [hx] at hw
    cases hp : valueOf L r.val with
    | none => rw [hp] at hw; exact hw.elim
    | some x =>
      rw [hp] at hw
      cases x with
      | error _ => exact ⟨m', rfl, hw.2⟩
      | ok u => exact hw.elim
  | fault m' =>
    rw [hx] at hw
    cases hp : valueOf L r.val with
    | none => rw [hp] at hw; exact hw.elim
    | some x => rw [hp] at hw; cases x <;> exact hw.elim
  | away m' =>
    rw [hx] at hw
    cases hp : valueOf L r.val with
    | none => rw [hp] at hw; exact ⟨m', rfl, hw⟩
    | some x => rw [hp] at hw; cases x <;> exact hw.elim

end Verif.Io
