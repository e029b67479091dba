import Verif.EffSpec
import Verif.LensProps

/-!
# What holds of the monads of the library
-/

namespace Verif.Eff

variable {M : Type → Type}

/-! ## The laws (C131) -/

theorem let_laws : Laws letM := ⟨fun _ _ => rfl, fun _ => rfl, fun _ _ _ => rfl⟩

theorem concat_eq {α : Type} (l : List (List α)) : Lib.concat l = l.flatten := by
  induction l with
  | nil => rfl
  | cons x xs ih =>
    show Lib.append x (Lib.concat xs) = _
    rw [ih, Lib.append_eq]; rfl

theorem for_bind {α β : Type} (l : List α) (f : α → List β) : forM.bind l f = l.flatMap f := by
  show Lib.concat (Lib.map f l) = _
  rw [concat_eq, Lib.map_eq]; rfl

theorem for_laws : Laws forM where
  left v f := by rw [for_bind]; simp [forM]
  right a := by rw [for_bind]; simp [forM]
  assoc a f g := by
    simp only [for_bind, List.flatMap_assoc]

/-- `state` and `random` obey the laws as to value and state: the blocks have other keys too. -/
theorem thread_laws_partial (σ : Type) (rest : String) {α β γ : Type} (v : α) (a : σ → Res σ α)
    (f : α → σ → Res σ β) (g : β → σ → Res σ γ) (s : σ) :
    Agree ((threadM σ rest).bind ((threadM σ rest).ret v) f s) (f v s) ∧
    Agree ((threadM σ rest).bind a (threadM σ rest).ret s) (a s) ∧
    Agree ((threadM σ rest).bind ((threadM σ rest).bind a f) g s)
      ((threadM σ rest).bind a (fun x => (threadM σ rest).bind (f x) g) s) :=
  ⟨⟨rfl, rfl⟩, ⟨rfl, rfl⟩, ⟨rfl, rfl⟩⟩

/-- That they hold of the blocks is false. -/
theorem thread_laws_false : ¬ ∀ (σ : Type), Laws (stateM σ) := by
  intro h
  have := (h Lens.D).right get
  have c := congrArg Res.keys (congrFun this none)
  exact absurd c (by decide)

/-- That running an action gives a block with a value and a state and no more is false: `bind` leaves
what it made on the way. -/
theorem run_block_false : ¬ ∀ {α β : Type} (a : Act α) (f : α → Act β) (s : Lens.D),
    ((stateM Lens.D).bind a f s).keys = ["value", "state"] := by
  intro h
  exact absurd (h get (fun _ => get) none) (by decide)

/-- `do` obeys the laws if `io` does. -/
theorem do_laws {io : Dict M} (h : Laws io) (σ ρ : Type) : Laws (doM io σ ρ) where
  left v f := by
    funext c
    exact h.left (v, c) fun r => f r.1 r.2
  right a := by
    funext c
    exact h.right (a c)
  assoc a f g := by
    funext c
    exact h.assoc (a c) (fun r => f r.1 r.2) fun r => g r.1 r.2

example : forM.bind [1, 2] (fun x => [x, 10 * x]) = [1, 10, 2, 20] := rfl

/-! ## What is derived (C132) -/

/-- `map` of the identity is nothing, and two maps are one. -/
theorem map_laws {m : Dict M} (h : Laws m) {α β γ : Type} (a : M α) (f : α → β) (g : β → γ) :
    m.map id a = a ∧ m.map g (m.map f a) = m.map (g ∘ f) a := by
  refine ⟨h.right a, ?_⟩
  simp only [Dict.map, h.assoc, h.left]; rfl

/-- `join` takes off one layer, from within or without. -/
theorem join_laws {m : Dict M} (h : Laws m) {α : Type} (a : M α) (aaa : M (M (M α))) :
    m.join (m.ret a) = a ∧ m.join (m.map m.ret a) = a ∧ m.join (m.join aaa) = m.join (m.map m.join aaa) := by
  refine ⟨h.left a id, ?_, ?_⟩
  · simp only [Dict.join, Dict.map, h.assoc, h.left, id]
    exact h.right a
  · simp only [Dict.join, Dict.map, h.assoc, h.left, id]

/-- `then` runs one and then the other, and gives what the other gives. -/
theorem then_laws {m : Dict M} (h : Laws m) {α β γ : Type} (a : M α) (b : M β) (c : M γ) (v : α) :
    m.andNext b (m.ret v) = b ∧ m.andNext c (m.andNext b a) = m.andNext (m.andNext c b) a ∧
    m.andThen m.ret a = a := by
  refine ⟨h.left v _, ?_, h.right a⟩
  simp only [Dict.andNext, h.assoc]

/-- A sequence of actions is one part and then the other. -/
theorem sequence_append {m : Dict M} (h : Laws m) {α : Type} (xs ys : List (M α)) :
    m.sequence (xs ++ ys) = m.bind (m.sequence xs) fun a => m.bind (m.sequence ys) fun b => m.ret (a ++ b) := by
  induction xs with
  | nil =>
    simp only [List.nil_append, Dict.sequence, h.left]
    exact (h.right _).symm
  | cons x xs ih => simp only [List.cons_append, Dict.sequence, ih, h.assoc, h.left]

/-- Actions without effect are a plain map, and a plain filter. -/
theorem pure_laws {m : Dict M} (h : Laws m) {α β : Type} (f : α → β) (p : α → Bool) (xs : List α) :
    m.mapM (fun x => m.ret (f x)) xs = m.ret (xs.map f) ∧
    m.filterM (fun x => m.ret (p x)) xs = m.ret (xs.filter p) := by
  constructor
  · unfold Dict.mapM
    rw [Lib.map_eq]
    induction xs with
    | nil => rfl
    | cons x xs ih => simp only [List.map_cons, Dict.sequence, ih, h.left]
  · induction xs with
    | nil => rfl
    | cons x xs ih =>
      simp only [Dict.filterM, ih, h.left]
      by_cases c : p x <;> simp [c]

/-- `filter-m` keeps what its tests keep, each test made once and in order. -/
theorem filterM_is {m : Dict M} (h : Laws m) {α : Type} (p : α → M Bool) (xs : List α) :
    m.filterM p xs = m.map (fun flags => ((xs.zip flags).filter Prod.snd).map Prod.fst) (m.mapM p xs) := by
  unfold Dict.mapM
  rw [Lib.map_eq]
  induction xs with
  | nil => simp only [Dict.filterM, List.map_nil, Dict.sequence, Dict.map, h.left]; rfl
  | cons x xs ih =>
    simp only [Dict.filterM, ih, List.map_cons, Dict.sequence, Dict.map, h.assoc, h.left]
    congr 1
    funext flag
    congr 1
    funext fs
    cases flag <;> simp

/-- `sequence` of state actions runs each from the state left by the one before. -/
theorem sequence_runs {σ α : Type} (rest : String) (as : List (σ → Res σ α)) (s : σ) (vs : List α) (s' : σ) :
    Runs as s vs s' ↔ (((threadM σ rest).sequence as) s).value = vs ∧ (((threadM σ rest).sequence as) s).state = s' := by
  induction as generalizing s vs s' with
  | nil =>
    constructor
    · intro h; cases h; exact ⟨rfl, rfl⟩
    · rintro ⟨rfl, rfl⟩; exact .nil s
  | cons a as ih =>
    have e1 : (((threadM σ rest).sequence (a :: as)) s).value =
      (a s).value :: (((threadM σ rest).sequence as) (a s).state).value := rfl
    have e2 : (((threadM σ rest).sequence (a :: as)) s).state =
      (((threadM σ rest).sequence as) (a s).state).state := rfl
    rw [e1, e2]
    constructor
    · intro h
      cases h with
      | cons _ _ _ _ vs h =>
        obtain ⟨rfl, rfl⟩ := (ih _ _ _).1 h
        exact ⟨rfl, rfl⟩
    · rintro ⟨rfl, rfl⟩
      exact .cons a as s _ _ ((ih _ _ _).2 ⟨rfl, rfl⟩)

/-- `map`, `then` and `join` of state actions. -/
theorem thread_derived {σ α β : Type} (rest : String) (f : α → β) (a : σ → Res σ α) (b : σ → Res σ β)
    (mm : σ → Res σ (σ → Res σ α)) (s : σ) :
    Agree ((threadM σ rest).map f a s) ⟨[], f (a s).value, (a s).state⟩ ∧
    Agree ((threadM σ rest).andNext b a s) (b (a s).state) ∧
    Agree ((threadM σ rest).join mm s) ((mm s).value (mm s).state) := ⟨⟨rfl, rfl⟩, ⟨rfl, rfl⟩, ⟨rfl, rfl⟩⟩

/-- `filter-m` of state actions makes each test once, in order, and keeps what they say. -/
theorem filterM_runs {σ α : Type} (rest : String) (p : α → σ → Res σ Bool) (xs : List α) (s s' : σ)
    (flags : List Bool) (h : Runs (xs.map p) s flags s') :
    Agree ((threadM σ rest).filterM p xs s) ⟨[], ((xs.zip flags).filter Prod.snd).map Prod.fst, s'⟩ := by
  induction xs generalizing s flags with
  | nil => cases h; exact ⟨rfl, rfl⟩
  | cons x xs ih =>
    rw [List.map_cons] at h
    cases h with
    | cons _ _ _ _ vs h =>
      obtain ⟨h1, h2⟩ := ih _ _ h
      refine ⟨?_, h2⟩
      show (if (p x s).value then x :: _ else _) = _
      have h1' : ((threadM σ rest).filterM p xs (p x s).state).value =
        ((xs.zip vs).filter Prod.snd).map Prod.fst := h1
      rw [h1']
      cases (p x s).value <;> simp

/-- `sequence` of lists gives all ways to take one of each, the last changing first. -/
theorem sequence_for {α : Type} (l : List α) (ls : List (List α)) :
    forM.sequence (l :: ls) = l.flatMap fun x => (forM.sequence ls).map (x :: ·) := by
  show forM.bind l _ = _
  rw [for_bind]
  congr 1
  funext x
  rw [for_bind]
  exact (List.map_eq_flatMap ..).symm

theorem sequence_choices {α : Type} (ls : List (List α)) (vs : List α) :
    vs ∈ forM.sequence ls ↔ List.Forall₂ (· ∈ ·) vs ls := by
  induction ls generalizing vs with
  | nil =>
    show vs ∈ [[]] ↔ _
    constructor
    · intro h
      have : vs = [] := by simpa using h
      subst this; exact .nil
    · intro h; cases h; exact List.mem_cons_self
  | cons l ls ih =>
    rw [sequence_for]
    simp only [List.mem_flatMap, List.mem_map]
    constructor
    · rintro ⟨x, hx, r, hr, rfl⟩
      exact .cons hx ((ih r).1 hr)
    · intro h
      cases h with
      | cons hx hr => exact ⟨_, hx, _, (ih _).2 hr, rfl⟩

/-- `filter-m` with both answers gives all ways to leave elements out. -/
theorem filterM_subsets {α : Type} (xs vs : List α) :
    vs ∈ forM.filterM (fun _ => [true, false]) xs ↔ List.Sublist vs xs := by
  induction xs generalizing vs with
  | nil =>
    show vs ∈ [[]] ↔ _
    simp
  | cons x xs ih =>
    have : forM.filterM (fun _ => [true, false]) (x :: xs) =
        (forM.filterM (fun _ => [true, false]) xs).map (x :: ·) ++ forM.filterM (fun _ => [true, false]) xs := by
      show forM.bind [true, false] _ = _
      rw [for_bind]
      simp only [for_bind, List.flatMap_cons, List.flatMap_nil, List.append_nil]
      congr 1
      · exact (List.map_eq_flatMap ..).symm
      · show (forM.filterM (fun _ => [true, false]) xs).flatMap (fun r => [r]) = _
        simp
    rw [this, List.mem_append, List.mem_map, ih, List.sublist_cons_iff]
    constructor
    · rintro (⟨r, hr, rfl⟩ | h)
      · exact .inr ⟨r, rfl, (ih r).1 hr⟩
      · exact .inl h
    · rintro (h | ⟨r, rfl, hr⟩)
      · exact .inr h
      · exact .inl ⟨r, (ih r).2 hr, rfl⟩

example : forM.sequence [[1, 2], [3, 4]] = [[1, 3], [1, 4], [2, 3], [2, 4]] := rfl

example : Runs [fun s : Nat => (⟨[], s, s + 1⟩ : Res Nat Nat), fun s => ⟨[], 2 * s, 0⟩] 5 [5, 12] 0 :=
  .cons _ _ _ _ _ (.cons _ _ _ _ _ (.nil _))

/-! ## State and lifts (C133) -/

theorem find_insert (k : String) (v : Lens.Val) (es : List (String × Lens.Val)) :
    Nest.find k (insert k v es) = some v ∧ ∀ j, j ≠ k → Nest.find j (insert k v es) = Nest.find j es := by
  induction es with
  | nil =>
    refine ⟨by simp [insert, Nest.find], fun j hj => ?_⟩
    simp [insert, Nest.find, Ne.symm hj]
  | cons e es ih =>
    by_cases c : e.1 = k
    · refine ⟨by simp [insert, c, Nest.find], fun j hj => ?_⟩
      have : ¬ e.1 = j := fun q => hj (q.symm.trans c)
      simp [insert, c, Nest.find, Ne.symm hj]
    · refine ⟨by simp [insert, c, Nest.find, ih.1], fun j hj => ?_⟩
      simp only [insert, if_neg c, Nest.find]
      rw [ih.2 j hj]

theorem insert_new {k : String} {v : Lens.Val} {m : List (String × Lens.Val)} (h : k ∉ m.map Prod.fst) :
    insert k v m = m ++ [(k, v)] := by
  induction m with
  | nil => rfl
  | cons e es ih =>
    simp only [List.map_cons, List.mem_cons, not_or] at h
    simp only [insert, if_neg (fun q => h.1 (Eq.symm q)), ih h.2, List.cons_append]

theorem insertAll_nodup {m es : List (String × Lens.Val)} (h : ((m ++ es).map Prod.fst).Nodup) :
    insertAll m es = m ++ es := by
  induction es generalizing m with
  | nil => simp [insertAll]
  | cons e es ih =>
    have hn : e.1 ∉ m.map Prod.fst := by
      simp only [List.map_append, List.map_cons, List.nodup_append] at h
      intro c
      exact h.2.2 _ c _ List.mem_cons_self rfl
    rw [insertAll, insert_new hn, ih (by simpa using h)]
    simp

theorem putIn_is {es : List (String × Lens.Val)} (h : (es.map Prod.fst).Nodup) (k : String) (x : Lens.Val) :
    putIn k (some x) (some (.block es)) = some (.block (insert k x es)) := by
  show some (Lens.Val.block (insertAll (insertAll [] es) [(k, x)])) = _
  rw [insertAll_nodup (m := []) (by simpa using h)]; rfl

/-- After `put` the key has the value, other keys have what they had, and the value of the action is nothing
to do with it. A key which was not there is added at the end. -/
theorem put_is {es : List (String × Lens.Val)} (h : (es.map Prod.fst).Nodup) (k : String) (x : Lens.Val) :
    ∃ es', (put k (some x) (some (.block es))).state = some (.block es') ∧
      Lens.lookup k (.block es') = some x ∧ (∀ j, j ≠ k → Lens.lookup j (.block es') = Lens.lookup j (.block es)) ∧
      (k ∉ es.map Prod.fst → es' = es ++ [(k, x)]) :=
  ⟨insert k x es, putIn_is h k x, (find_insert k x es).1, (find_insert k x es).2, insert_new⟩

/-- `get` and `query` leave the state, `lift` changes it. -/
theorem get_is {α : Type} (f : Lens.D → α) (g : Lens.D → Lens.D) (s : Lens.D) :
    (get s).value = s ∧ (get s).state = s ∧ (query f s).value = f s ∧ (query f s).state = s ∧
    (lift g s).state = g s := ⟨rfl, rfl, rfl, rfl, rfl⟩

/-- `modify` changes what has the key, if the key is there. -/
theorem modify_is {es : List (String × Lens.Val)} {k : String} {x y : Lens.Val} {f : Lens.D → Lens.D}
    (hn : (es.map Prod.fst).Nodup) (h : (k, x) ∈ es) (hf : f (some x) = some y) :
    (modify k f (some (.block es))).state =
      some (.block (es.map fun e => if e.1 = k then (e.1, y) else e)) := by
  show (updateElems k f es).map Lens.Val.block = _
  have key : ∀ es : List (String × Lens.Val), (∀ e ∈ es, e.1 = k → e.2 = x) →
      updateElems k f es = some (es.map fun e => if e.1 = k then (e.1, y) else e) := by
    intro es
    induction es with
    | nil => intro _; rfl
    | cons e es ih =>
      intro h
      have ih' := ih fun e' he => h e' (List.mem_cons_of_mem _ he)
      by_cases c : e.1 = k
      · have := h e List.mem_cons_self c
        simp only [updateElems, if_pos c, this, hf, ih', List.map_cons]
      · simp only [updateElems, if_neg c, ih', List.map_cons]
  rw [key es fun e he c => ?_]
  · rfl
  · have h1 := Lens.find_of_mem hn h
    have h2 : Nest.find e.1 es = some e.2 := Lens.find_of_mem hn he
    rw [c, h1] at h2
    exact (Option.some.inj h2).symm

/-- Neither `modify` nor `=!` nor `%!` do anything if the key is not there. -/
theorem missing_silent {es : List (String × Lens.Val)} {k : String} (h : k ∉ es.map Prod.fst)
    (f : Lens.D → Lens.D) (v : Lens.D) :
    (modify k f (some (.block es))).state = some (.block es) ∧
    (setAt (.at k) v (some (.block es))).state = some (.block es) ∧
    (modAt (.at k) f (some (.block es))).state = some (.block es) := by
  refine ⟨?_, (Lens.missing_key k es h fun _ => v).2, (Lens.missing_key k es h f).2⟩
  show (updateElems k f es).map Lens.Val.block = _
  have : updateElems k f es = some es := by
    induction es with
    | nil => rfl
    | cons e es ih =>
      simp only [List.map_cons, List.mem_cons, not_or] at h
      simp only [updateElems, if_neg (fun q => h.1 (Eq.symm q)), ih h.2]
  rw [this]; rfl

/-- That `=!` sets the focus as `put` does is false: a key which is not there is not added. -/
theorem set_false : ¬ ∀ (k : String) (v : Lens.Val) (es : List (String × Lens.Val)), (es.map Prod.fst).Nodup →
    (setAt (.at k) (some v) (some (.block es))).state = (put k (some v) (some (.block es))).state := by
  intro h
  have := h "count" (.atom 1) [] (by simp)
  have a : (setAt (.at "count") (some (.atom 1)) (some (.block []))).state = some (.block []) := rfl
  have b : (put "count" (some (.atom 1)) (some (.block []))).state = some (.block [("count", .atom 1)]) := rfl
  rw [a, b] at this
  cases this

/-- It does if the key is there. -/
theorem set_partial {es : List (String × Lens.Val)} {k : String} (hn : (es.map Prod.fst).Nodup)
    (h : k ∈ es.map Prod.fst) (v : Lens.Val) :
    (setAt (.at k) (some v) (some (.block es))).state = (put k (some v) (some (.block es))).state := by
  show Lens.over (.at k) (fun _ => some v) (some (.block es)) = putIn k (some v) (some (.block es))
  rw [putIn_is hn, Lens.over_at]
  show (Lens.alterElems k (some v) es).map Lens.Val.block = _
  rw [Lens.alter_some]
  show some (Lens.Val.block _) = some (Lens.Val.block _)
  congr 2
  induction es with
  | nil => cases h
  | cons e es ih =>
    simp only [List.map_cons, List.nodup_cons] at hn
    by_cases c : e.1 = k
    · have : (es.map fun e => if e.1 = k then (e.1, v) else e) = es := by
        conv => rhs; rw [← List.map_id es]
        apply List.map_congr_left
        intro e' he
        have : ¬ e'.1 = k := fun q => hn.1 (by rw [c, ← q]; exact List.mem_map_of_mem he)
        rw [if_neg this]; rfl
      rw [List.map_cons, this]
      simp [insert, c]
    · have h' : k ∈ es.map Prod.fst := by
        rcases List.mem_cons.1 h with h | h
        · exact absurd h.symm c
        · exact h
      simp only [List.map_cons, insert, if_neg c, ih hn.2 h']

/-- A state action taken into `do` works on the state and leaves the seed; a random action the other way
round; an `io` action leaves both. -/
theorem lifts_are {io : Dict M} {σ ρ α : Type} (a : σ → Res σ α) (b : ρ → Res ρ α) (i : M α) (c : Ctx σ ρ) :
    liftState io a c = io.ret ((a c.state).value, ⟨(a c.state).state, c.seed⟩) ∧
    liftRandom io b c = io.ret ((b c.seed).value, ⟨c.state, (b c.seed).state⟩) ∧
    liftIo io i c = io.bind i fun v => io.ret (v, c) := ⟨rfl, rfl, rfl⟩

/-- Taking actions into `do` one by one is taking them in together. -/
theorem lift_bind {io : Dict M} (h : Laws io) {σ ρ α β : Type} (v : α) (a : σ → Res σ α) (f : α → σ → Res σ β)
    (b : ρ → Res ρ α) (g : α → ρ → Res ρ β) (i : M α) (j : α → M β) (c : Ctx σ ρ) :
    liftState io ((stateM σ).ret v) c = (doM io σ ρ).ret v c ∧
    liftState io ((stateM σ).bind a f) c = (doM io σ ρ).bind (liftState io a) (fun x => liftState io (f x)) c ∧
    liftRandom io ((randomM ρ).ret v) c = (doM io σ ρ).ret v c ∧
    liftRandom io ((randomM ρ).bind b g) c = (doM io σ ρ).bind (liftRandom io b) (fun x => liftRandom io (g x)) c ∧
    liftIo io (io.ret v) c = (doM io σ ρ).ret v c ∧
    liftIo io (io.bind i j) c = (doM io σ ρ).bind (liftIo io i) (fun x => liftIo io (j x)) c := by
  refine ⟨rfl, ?_, rfl, ?_, h.left _ _, ?_⟩
  · simp only [doM, liftState, h.left]; rfl
  · simp only [doM, liftRandom, h.left]; rfl
  · show io.bind (io.bind i j) _ = io.bind (io.bind i fun v => io.ret (v, c)) fun r => liftIo io (j r.1) r.2
    simp only [h.assoc, h.left]; rfl

/-- State actions and random actions do not get in each other's way. -/
theorem lift_swap {io : Dict M} (h : Laws io) {σ ρ α β : Type} (a : σ → Res σ α) (b : ρ → Res ρ β) (c : Ctx σ ρ) :
    (doM io σ ρ).bind (liftState io a) (fun x => (doM io σ ρ).map (fun y => (x, y)) (liftRandom io b)) c =
    (doM io σ ρ).bind (liftRandom io b) (fun y => (doM io σ ρ).map (fun x => (x, y)) (liftState io a)) c := by
  simp only [doM, Dict.map, liftState, liftRandom, h.left]

/-- `do.eval` of a lifted action is its value. -/
theorem eval_is {io : Dict M} (h : Laws io) {σ ρ α : Type} (a : σ → Res σ α) (i : M α) (c : Ctx σ ρ) :
    doEval io (liftState io a) c = io.ret (a c.state).value ∧ doEval io (liftIo io i) c = i := by
  constructor
  · exact h.left _ _
  · simp only [doEval, liftIo, Dict.map, h.assoc, h.left]
    exact h.right i

example : (((stateM Lens.D).bind (put "a" (some (.atom 1))) fun _ => get) (some (.block []))).value =
    some (.block [("a", .atom 1)]) := rfl

example : Laws letM ∧ Laws forM := ⟨let_laws, for_laws⟩

end Verif.Eff
