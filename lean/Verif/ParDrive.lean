import Verif.ParArena

/-!
# Proofs only.

What the parallel map comes to, without machine, memory or processes: `pureMap`; and that it comes to that however it is run.
-/

namespace Verif.Par

/-! ## A worker that succeeds does what the parent would do -/

theorem eval_worker (w : Bool) : ∀ (c : Clo) (r : Option Clo) (v : Clo) (r' : Option Clo), eval true c r = (.ok v, r') →
    eval w c r = (.ok v, r') := by
  intro c
  induction c with
  | ann m b _ ih => intro r v r' h; simp only [eval] at h ⊢; exact ih _ _ _ h
  | run i b ihi ih =>
    intro r v r' h
    simp only [eval] at h ⊢
    cases hi : eval true i none with
    | mk x s =>
      rw [hi] at h
      cases x with
      | error e => simp at h
      | ok x => rw [ihi _ _ _ hi]; exact ih _ _ _ h
  | pull b _ => intro r v r' h; simp [eval] at h
  | fail e => intro r v r' h; simp [eval] at h
  | _ => intro r v r' h; simpa only [eval] using h

/-- The four functions agree where the worker succeeds. -/
structure EncOk (τ : Texts) (w : Bool) (n : Nat) : Prop where
  enc : ∀ c b, 4 * sz c + 3 ≤ n → enc τ true c = .ok b → enc τ w c = .ok b
  encV : ∀ c b, 4 * sz c + 2 ≤ n → encV τ true c = .ok b → encV τ w c = .ok b
  items : ∀ c b, 4 * sz c + 1 ≤ n → encItems τ true c = .ok b → encItems τ w c = .ok b
  pairs : ∀ c b, 4 * sz c + 1 ≤ n → encPairs τ true c = .ok b → encPairs τ w c = .ok b

theorem encOk (τ : Texts) (w : Bool) : ∀ n, EncOk τ w n := by
  intro n
  induction n with
  | zero => constructor <;> intros <;> omega
  | succ n ih =>
    refine ⟨?_, ?_, ?_, ?_⟩
    · intro c b hn h
      rw [enc] at h ⊢
      cases he : eval true c none with
      | mk x r =>
        rw [he] at h
        cases x with
        | error e => cases h
        | ok v =>
          obtain ⟨hv, hm⟩ := eval_sz _ _ _ _ _ he
          rw [eval_worker w _ _ _ _ he]
          cases r with
          | none => exact ih.encV v b (by omega) h
          | some m =>
            have hmm : sz m < sz c := by
              rcases hm m rfl with h | h
              · cases h
              · exact h
            dsimp only at h ⊢
            cases h1 : enc τ true m with
            | error e => rw [h1] at h; cases h
            | ok a =>
              rw [h1] at h
              dsimp only at h
              rw [ih.enc m a (by omega) h1]
              cases h2 : encV τ true v with
              | error e => rw [h2] at h; cases h
              | ok a' =>
                rw [h2] at h
                dsimp only at h ⊢
                rw [ih.encV v a' (by omega) h2]
                exact h
    · intro c b hn h
      cases c with
      | box k p =>
        cases k <;> simp only [encV] at h ⊢ <;>
        · cases he : eval true p none with
          | mk x r =>
            rw [he] at h
            cases x with
            | error e => cases h
            | ok v => rw [eval_worker w _ _ _ _ he]; exact h
      | cons x t =>
        rw [encV] at h ⊢
        cases h1 : encItems τ true (.cons x t) with
        | error e => rw [h1] at h; cases h
        | ok a => rw [h1] at h; rw [ih.items _ a (by omega) h1]; exact h
      | block kvs =>
        rw [encV] at h ⊢
        cases he : eval true kvs none with
        | mk x r =>
          rw [he] at h
          cases x with
          | error e => cases h
          | ok v =>
            have hv := (eval_sz _ _ _ _ _ he).1
            rw [eval_worker w _ _ _ _ he]
            dsimp only at h ⊢
            cases h1 : encPairs τ true v with
            | error e => rw [h1] at h; cases h
            | ok a => rw [h1] at h; rw [ih.pairs _ a (by simp only [sz] at hn; omega) h1]; exact h
      | _ => simpa only [encV] using h
    · intro c b hn h
      cases c with
      | cons x t =>
        simp only [sz] at hn
        rw [encItems] at h ⊢
        cases h1 : enc τ true x with
        | error e => rw [h1] at h; cases h
        | ok a =>
          rw [h1] at h
          rw [ih.enc x a (by omega) h1]
          dsimp only at h ⊢
          cases he : eval true t none with
          | mk y r =>
            rw [he] at h
            cases y with
            | error e => cases h
            | ok v =>
              have hv := (eval_sz _ _ _ _ _ he).1
              rw [eval_worker w _ _ _ _ he]
              dsimp only at h ⊢
              cases h2 : encItems τ true v with
              | error e => rw [h2] at h; cases h
              | ok a2 => rw [h2] at h; rw [ih.items _ a2 (by omega) h2]; exact h
      | _ => simpa only [encItems] using h
    · intro c b hn h
      cases c with
      | cons p t =>
        simp only [sz] at hn
        rw [encPairs] at h ⊢
        cases hp : eval true p none with
        | mk y r =>
          rw [hp] at h
          cases y with
          | error e => cases h
          | ok p' =>
            have hpz := (eval_sz _ _ _ _ _ hp).1
            rw [eval_worker w _ _ _ _ hp]
            dsimp only at h ⊢
            cases hk : (field p' 0).bind asNative with
            | none => rw [hk] at h; cases h
            | some key =>
              rw [hk] at h
              dsimp only at h ⊢
              cases hs : encScalar τ key with
              | error e => rw [hs] at h; cases h
              | ok kb =>
                rw [hs] at h
                dsimp only at h ⊢
                cases hf : field p' 1 with
                | none => rw [hf] at h; cases h
                | some x =>
                  have hx := field_sz hf
                  rw [hf] at h
                  dsimp only at h ⊢
                  cases h1 : enc τ true x with
                  | error e => rw [h1] at h; cases h
                  | ok a =>
                    rw [h1] at h
                    rw [ih.enc x a (by omega) h1]
                    dsimp only at h ⊢
                    cases he : eval true t none with
                    | mk y r =>
                      rw [he] at h
                      cases y with
                      | error e => cases h
                      | ok v =>
                        have hv := (eval_sz _ _ _ _ _ he).1
                        rw [eval_worker w _ _ _ _ he]
                        dsimp only at h ⊢
                        cases h2 : encPairs τ true v with
                        | error e => rw [h2] at h; cases h
                        | ok a2 => rw [h2] at h; rw [ih.pairs _ a2 (by omega) h2]; exact h
      | _ => simpa only [encPairs] using h

theorem enc_worker {τ : Texts} (w : Bool) {c : Clo} {b : Bytes} (h : enc τ true c = .ok b) : enc τ w c = .ok b :=
  (encOk τ w (4 * sz c + 3)).enc c b (Nat.le_refl _) h

/-! ## The spine -/

/-- The elements of a list. -/
def spine (w : Bool) (c : Clo) : Except Fault (List Clo) :=
  match _h : eval w c none with
  | (.error e, _) => .error e
  | (.ok .nil, _) => .ok []
  | (.ok (.cons x t), _) => match spine w t with
    | .error e => .error e
    | .ok xs => .ok (x :: xs)
  | (.ok _, _) => .error .notList
termination_by sz c
decreasing_by
  have := (eval_sz _ _ _ _ _ _h).1
  simp only [sz] at this
  omega

/-- Roots that hold some values. -/
def Points (roots : List Clo) : List Nat → List Clo → Prop
  | [], [] => True
  | i :: is, v :: vs => roots[i]? = some v ∧ Points roots is vs
  | _, _ => False

theorem Points.ext {roots ext : List Clo} : ∀ {is : List Nat} {vs : List Clo}, Points roots is vs → Points (roots ++ ext) is vs
  | [], [], _ => trivial
  | _ :: _, _ :: _, h => ⟨by
      rw [List.getElem?_append_left (List.getElem?_eq_some_iff.1 h.1).1]; exact h.1, Points.ext h.2⟩

theorem Points.append {roots : List Clo} : ∀ {is js : List Nat} {vs ws : List Clo}, Points roots is vs → Points roots js ws →
    Points roots (is ++ js) (vs ++ ws)
  | [], _, [], _, _, h => h
  | _ :: _, _, _ :: _, _, h1, h2 => ⟨h1.1, Points.append h1.2 h2⟩

theorem Points.length {roots : List Clo} : ∀ {is : List Nat} {vs : List Clo}, Points roots is vs → is.length = vs.length
  | [], [], _ => rfl
  | _ :: _, _ :: _, h => by simp [Points.length h.2]

theorem points_range {roots : List Clo} : ∀ (vs : List Clo) (base : Nat), (∀ (j : Nat) (v : Clo), vs[j]? = some v → roots[base + j]? = some v) →
    Points roots ((List.range vs.length).map (base + ·)) vs
  | [], _, _ => trivial
  | v :: vs, base, h => by
    rw [List.length_cons, List.range_succ_eq_map, List.map_cons, List.map_map]
    refine ⟨by simpa using h 0 v rfl, ?_⟩
    have h2 := points_range vs (base + 1) (fun j x hx => by
      have := h (j + 1) x (by simpa using hx)
      rwa [show base + 1 + j = base + (j + 1) by omega])
    have he : ((fun x => base + x) ∘ Nat.succ) = (base + 1 + ·) := by funext x; simp only [Function.comp]; omega
    rw [he]
    exact h2

/-- The machine has gone on, with more roots. -/
def More (m m' : M) (ext : List Clo) : Prop := m'.worker = m.worker ∧ m'.roots = m.roots ++ ext

theorem spineLoop_ok : ∀ (n : Nat) (c : Clo) (m : M) (cur : Nat) (k : Nat) (pre els : List Clo), sz c ≤ n → m.roots = pre ++ c :: els →
    cur = pre.length → ∃ m', m'.worker = m.worker ∧ (spineLoop n cur k m = match spine m.worker c with
      | .error e => (.error e, m')
      | .ok xs => (.ok (k + xs.length), m')) ∧ ∃ c' ext, m'.roots = pre ++ c' :: els ++ ext ∧
        ∀ xs, spine m.worker c = .ok xs → ext = xs := by
  intro n
  induction n with
  | zero => intro c _ _ _ _ _ h; have := sz_pos c; omega
  | succ n ih =>
    intro c m cur k pre els hn hr hcur
    subst hcur
    have hg : m.roots[pre.length]? = some c := by rw [hr]; simp
    have hlt : pre.length < m.roots.length := by rw [hr]; simp
    obtain ⟨e, hf⟩ := force_run (m := m) c
    simp only [spineLoop, bind_ok (get_run hg)]
    rw [spine]
    cases he : eval m.worker c none with
    | mk x r =>
      rw [he] at hf
      cases x with
      | error x =>
        rw [bind_err hf]
        exact ⟨⟨e, m.roots, r, m.worker⟩, rfl, rfl, c, [], by simp [hr], fun xs h => by cases h⟩
      | ok v =>
        rw [bind_ok hf]
        have hs := set_run (m := { m with epoch := e, reg := r }) (i := pre.length) (c := v) hlt
        simp only at hs
        rw [bind_ok hs]
        have hset : m.roots.set pre.length v = pre ++ v :: els := by rw [hr]; simp
        have hg2 : ({ m with epoch := e, reg := r, roots := m.roots.set pre.length v } : M).roots[pre.length]? = some v := by
          simp [hset]
        rw [bind_ok (get_run hg2)]
        simp only
        rw [bind_ok (deref_run (m := ⟨e, m.roots.set pre.length v, r, m.worker⟩) v)]
        have hv := (eval_sz _ _ _ _ _ he).1
        cases v with
        | nil => exact ⟨⟨e, m.roots.set pre.length .nil, r, m.worker⟩, rfl, rfl, .nil, [], by simp [hset], fun xs h => by cases h; rfl⟩
        | cons x t =>
          simp only [sz] at hv
          simp only
          rw [bind_ok (handle_run _), bind_ok (handle_run _)]
          have hs2 := set_run (m := ⟨e, m.roots.set pre.length (.cons x t), r, m.worker⟩) (i := pre.length) (c := t)
            (by simp [hlt])
          rw [bind_ok hs2, bind_ok (push_run (m := ⟨e, (m.roots.set pre.length (.cons x t)).set pre.length t, r, m.worker⟩) x)]
          obtain ⟨m', hw, h1, c', ext, h2, h3⟩ := ih t
            ⟨e, (m.roots.set pre.length (.cons x t)).set pre.length t ++ [x], r, m.worker⟩ pre.length (k + 1) pre (els ++ [x])
            (by omega) (by rw [hset]; simp) rfl
          refine ⟨m', hw, ?_, c', x :: ext, ?_, ?_⟩
          · rw [h1]
            simp only
            cases spine m.worker t with
            | error e => rfl
            | ok xs => simp; omega
          · rw [h2]; simp
          · intro xs hxs
            simp only at hxs h3
            cases hsp : spine m.worker t with
            | error e => rw [hsp] at hxs; cases hxs
            | ok ys =>
              rw [hsp] at hxs
              cases hxs
              rw [h3 ys hsp]
        | _ => exact ⟨⟨e, m.roots.set pre.length _, r, m.worker⟩, rfl, rfl, _, [], by rw [List.append_nil]; exact hset, fun xs h => by cases h⟩

/-! ## One element -/

/-- What one result is. -/
def again (τ : Texts) (w : Bool) (c : Clo) : Except Fault Clo := match enc τ w c with
  | .error e => .error e
  | .ok b => match dec τ (b.length + 1) b with
    | .error e => .error e
    | .ok (v, _) => .ok v

/-- All of them, or the first failure. -/
def allOf {α : Type} : List (Except Fault α) → Except Fault (List α)
  | [] => .ok []
  | .error e :: _ => .error e
  | .ok a :: xs => match allOf xs with
    | .error e => .error e
    | .ok as => .ok (a :: as)

theorem mapElement_ok {τ : Texts} {ap : Clo → Clo → Clo} {n : Nat} {m : M} {f x : Clo} (hn : 6 * sz (ap f x) + 5 ≤ n) :
    ∃ m', m'.worker = m.worker ∧ m'.roots = m.roots ∧
      mapElement τ ap n ⟨m.epoch, f⟩ ⟨m.epoch, x⟩ m = (match again τ m.worker (ap f x) with
        | .error e => (.error e, m')
        | .ok v => (.ok ⟨m'.epoch, v⟩, m')) := by
  have ha : apply1 ap ⟨m.epoch, f⟩ ⟨m.epoch, x⟩ m = (.ok ⟨m.epoch, ap f x⟩, m) := by
    simp only [apply1, bind_ok (deref_run _), handle_run]
  obtain ⟨m1, h1, hw, hr⟩ := ser_enc τ n m (ap f x) [] hn
  simp only [mapElement, withRoots_run, bind_ok ha, again]
  cases he : enc τ m.worker (ap f x) with
  | error e =>
    rw [he] at h1
    rw [bind_err h1]
    exact ⟨{ m1 with roots := m1.roots.take m.roots.length }, hw, by simp [hr], rfl⟩
  | ok b =>
    rw [he] at h1
    simp only [app, List.nil_append] at h1
    rw [bind_ok h1]
    cases hd : dec τ (b.length + 1) b with
    | error e => exact ⟨{ m1 with roots := m1.roots.take m.roots.length }, hw, by simp [hr], by simp [bind_run, hd]⟩
    | ok v => exact ⟨{ m1 with roots := m1.roots.take m.roots.length }, hw, by simp [hr], by simp [bind_run, hd]⟩

theorem seqLoop_ok {τ : Texts} {ap : Clo → Clo → Clo} {n fSlot : Nat} {f : Clo} : ∀ (is : List Nat) (xs : List Clo) (m : M),
    Points m.roots is xs → m.roots[fSlot]? = some f → (∀ x ∈ xs, 6 * sz (ap f x) + 5 ≤ n) →
    ∃ m' slots ext, More m m' ext ∧ seqLoop τ ap n fSlot is m = (match allOf (xs.map fun x => again τ m.worker (ap f x)) with
      | .error e => (.error e, m')
      | .ok _ => (.ok slots, m')) ∧
      ∀ vs, allOf (xs.map fun x => again τ m.worker (ap f x)) = .ok vs → Points m'.roots slots vs
  | [], [], m, _, _, _ => ⟨m, [], [], ⟨rfl, by simp⟩, rfl, fun vs h => by cases h; trivial⟩
  | i :: is, x :: xs, m, hp, hf, hn => by
    obtain ⟨m1, hw1, hr1, h1⟩ := mapElement_ok (τ := τ) (m := m) (hn x (List.mem_cons_self ..))
    simp only [seqLoop, bind_ok (get_run hf), bind_ok (get_run hp.1), List.map_cons]
    cases ha : again τ m.worker (ap f x) with
    | error e =>
      rw [ha] at h1
      rw [bind_err h1]
      exact ⟨m1, [], [], ⟨hw1, by simp [hr1]⟩, rfl, fun vs h => by cases h⟩
    | ok v =>
      rw [ha] at h1
      rw [bind_ok h1, bind_ok (push_run (m := m1) v)]
      obtain ⟨m2, slots, ext, ⟨hw2, hr2⟩, h2, h3⟩ := seqLoop_ok is xs { m1 with roots := m1.roots ++ [v] }
        (by simp only [hr1]; exact hp.2.ext) (by
          simp only [hr1]
          rw [List.getElem?_append_left (List.getElem?_eq_some_iff.1 hf).1]; exact hf)
        (fun y hy => hn y (List.mem_cons_of_mem _ hy))
      rw [show ({ m1 with roots := m1.roots ++ [v] } : M).worker = m.worker from hw1] at h2 h3 hw2
      rw [hw1]
      simp only [allOf]
      cases hall : allOf (xs.map fun x => again τ m.worker (ap f x)) with
      | error e =>
        rw [hall] at h2
        rw [bind_err h2]
        exact ⟨m2, [], v :: ext, ⟨hw2, by rw [hr2]; simp [hr1]⟩, rfl, fun vs h => by cases h⟩
      | ok vs =>
        rw [hall] at h2
        rw [bind_ok h2]
        refine ⟨m2, m1.roots.length :: slots, v :: ext, ⟨hw2, by rw [hr2]; simp [hr1]⟩, rfl, ?_⟩
        intro ws hws
        cases hws
        exact ⟨by rw [hr2]; simp, h3 vs hall⟩

theorem gather_ok : ∀ (is : List Nat) (vs : List Clo) (m : M), Points m.roots is vs → gather is m = (.ok vs, m)
  | [], [], _, _ => rfl
  | i :: is, v :: vs, m, h => by
    simp only [gather, bind_ok (get_run h.1), bind_ok (deref_run v), bind_ok (gather_ok is vs m h.2), pure_run]

/-- The whole result, given the elements. -/
def listOf : Except Fault (List Clo) → Except Fault Clo
  | .error e => .error e
  | .ok vs => .ok (buildList vs)

theorem sequential_ok {τ : Texts} {ap : Clo → Clo → Clo} {n fSlot base : Nat} {f : Clo} {xs : List Clo} {m : M}
    (hp : Points m.roots ((List.range xs.length).map (base + ·)) xs) (hf : m.roots[fSlot]? = some f)
    (hn : ∀ x ∈ xs, 6 * sz (ap f x) + 5 ≤ n) :
    ∃ m' ext, More m m' ext ∧ sequentialMap τ ap n fSlot base xs.length m =
      (listOf (allOf (xs.map fun x => again τ m.worker (ap f x))), m') := by
  obtain ⟨m', slots, ext, hm, h, hs⟩ := seqLoop_ok (τ := τ) _ xs m hp hf hn
  refine ⟨m', ext, hm, ?_⟩
  simp only [sequentialMap]
  cases hall : allOf (xs.map fun x => again τ m.worker (ap f x)) with
  | error e => rw [hall] at h; rw [bind_err h]; rfl
  | ok vs =>
    rw [hall] at h
    rw [bind_ok h, bind_ok (gather_ok slots vs m' (hs vs hall))]
    rfl

/-! ## The workers -/

theorem workLoop_ok {τ : Texts} {ap : Clo → Clo → Clo} {n fSlot : Nat} {f : Clo} {seg k : Nat} :
    ∀ (is : List Nat) (xs : List Clo) (m m' : M) (done : List Bytes) (w w' : Writer),
    Points m.roots is xs → m.roots[fSlot]? = some f → (∀ x ∈ xs, 6 * sz (ap f x) + 5 ≤ n) → Wrote seg k done w →
    workLoop τ ap n fSlot is w m = (.ok w', m') →
    ∃ bufs, allOf (xs.map fun x => enc τ m.worker (ap f x)) = .ok bufs ∧ Wrote seg k (done ++ bufs) w'
  | [], [], m, m', done, w, w', _, _, _, hw, h => by
    simp only [workLoop, pure_run, Prod.mk.injEq, Except.ok.injEq] at h
    exact ⟨[], rfl, by rw [← h.1]; simpa using hw⟩
  | i :: is, x :: xs, m, m', done, w, w', hp, hf, hn, hw, h => by
    have ha : apply1 ap ⟨m.epoch, f⟩ ⟨m.epoch, x⟩ m = (.ok ⟨m.epoch, ap f x⟩, m) := by
      simp only [apply1, bind_ok (deref_run _), handle_run]
    obtain ⟨m1, h1, hw1, hr1⟩ := ser_enc τ n m (ap f x) [] (hn x (List.mem_cons_self ..))
    simp only [workLoop, bind_ok (get_run hf), bind_ok (get_run hp.1), bind_ok ha] at h
    simp only [List.map_cons]
    cases he : enc τ m.worker (ap f x) with
    | error e => rw [he] at h1; rw [bind_err h1] at h; cases h
    | ok b =>
      rw [he] at h1
      simp only [app, List.nil_append] at h1
      rw [bind_ok h1] at h
      cases hpush : w.push b with
      | none => rw [hpush] at h; cases h
      | some w1 =>
        rw [hpush] at h
        simp only at h
        obtain ⟨bufs, hb, hw'⟩ := workLoop_ok is xs m1 m' (done ++ [b]) w1 w' (by rw [hr1]; exact hp.2) (by rw [hr1]; exact hf)
          (fun y hy => hn y (List.mem_cons_of_mem _ hy)) (wrote_push hw hpush) h
        rw [hw1] at hb
        refine ⟨b :: bufs, ?_, by simpa using hw'⟩
        simp only [allOf, hb]

theorem allOf_append {α : Type} : ∀ (xs ys : List (Except Fault α)), allOf (xs ++ ys) = match allOf xs with
    | .error e => .error e
    | .ok as => match allOf ys with
      | .error e => .error e
      | .ok bs => .ok (as ++ bs)
  | [], ys => by simp only [List.nil_append, allOf]; cases allOf ys <;> rfl
  | .error e :: _, ys => rfl
  | .ok a :: xs, ys => by
    simp only [List.cons_append, allOf, allOf_append xs ys]
    cases allOf xs with
    | error e => rfl
    | ok as => simp only; cases allOf ys <;> rfl

theorem allOf_map {α β : Type} {g : α → Except Fault β} : ∀ {xs : List α} {bs : List β}, allOf (xs.map g) = .ok bs →
    ∀ {γ : Type} (k : β → Except Fault γ), allOf (xs.map fun x => match g x with
      | .error e => .error e
      | .ok b => k b) = allOf (bs.map k)
  | [], _, h, _, _ => by cases h; rfl
  | x :: xs, bs, h, _, k => by
    simp only [List.map_cons] at h ⊢
    cases hg : g x with
    | error e => rw [hg] at h; cases h
    | ok b =>
      rw [hg] at h
      simp only [allOf] at h
      cases hall : allOf (xs.map g) with
      | error e => rw [hall] at h; cases h
      | ok bs' =>
        rw [hall] at h
        cases h
        simp only [List.map_cons]
        have := allOf_map hall k
        cases k b with
        | error e => rfl
        | ok c => simp only [allOf, this]

theorem allOf_worker {τ : Texts} {w : Bool} {g : Clo → Clo} : ∀ {xs : List Clo} {bs : List Bytes},
    allOf (xs.map fun x => enc τ true (g x)) = .ok bs → allOf (xs.map fun x => enc τ w (g x)) = .ok bs
  | [], _, h => h
  | x :: xs, bs, h => by
    simp only [List.map_cons] at h ⊢
    cases hg : enc τ true (g x) with
    | error e => rw [hg] at h; cases h
    | ok b =>
      rw [hg] at h
      rw [enc_worker w hg]
      simp only [allOf] at h ⊢
      cases hall : allOf (xs.map fun x => enc τ true (g x)) with
      | error e => rw [hall] at h; cases h
      | ok bs' => rw [hall] at h; cases h; rw [allOf_worker hall]

/-- One record read back. -/
def readBack (τ : Texts) (b : Bytes) : Except Fault Clo := match dec τ (b.length + 1) b with
  | .error e => .error e
  | .ok (v, _) => .ok v

theorem rebuild_ok {τ : Texts} {mem : Mem} : ∀ (rs : List (Nat × Nat)) (bufs : List Bytes) (m : M),
    rs.map (fun r => mem.slice r.1 r.2) = bufs →
    ∃ m' slots ext, More m m' ext ∧ rebuild τ mem rs m = (match allOf (bufs.map (readBack τ)) with
      | .error _ => (.ok none, m')
      | .ok _ => (.ok (some slots), m')) ∧
      ∀ vs, allOf (bufs.map (readBack τ)) = .ok vs → Points m'.roots slots vs
  | [], bufs, m, h => by
    cases h
    exact ⟨m, [], [], ⟨rfl, by simp⟩, rfl, fun vs h => by cases h; trivial⟩
  | (a, len) :: rs, bufs, m, h => by
    simp only [List.map_cons] at h
    subst h
    have hl : (mem.slice a len).length = len := by simp [Mem.slice]
    have hrb : readBack τ (mem.slice a len) = match dec τ (len + 1) (mem.slice a len) with
        | .error e => .error e
        | .ok (v, _) => .ok v := by rw [readBack, hl]
    simp only [rebuild, List.map_cons, hrb]
    cases hd : dec τ (len + 1) (mem.slice a len) with
    | error e => exact ⟨m, [], [], ⟨rfl, by simp⟩, rfl, fun vs h => by cases h⟩
    | ok v =>
      obtain ⟨v, rest⟩ := v
      simp only [bind_ok (handle_run _), bind_ok (push_run _)]
      obtain ⟨m2, slots, ext, ⟨hw2, hr2⟩, h2, h3⟩ := rebuild_ok (τ := τ) (mem := mem) rs _ { m with roots := m.roots ++ [v] } rfl
      simp only [allOf]
      cases hall : allOf ((rs.map fun r => mem.slice r.1 r.2).map (readBack τ)) with
      | error e =>
        rw [hall] at h2
        rw [bind_ok h2]
        exact ⟨m2, [], v :: ext, ⟨hw2, by rw [hr2]; simp⟩, rfl, fun vs h => by cases h⟩
      | ok vs =>
        rw [hall] at h2
        rw [bind_ok h2]
        refine ⟨m2, m.roots.length :: slots, v :: ext, ⟨hw2, by rw [hr2]; simp⟩, rfl, ?_⟩
        intro ws hws
        cases hws
        exact ⟨by rw [hr2]; simp, h3 vs hall⟩

theorem allOf_length {α : Type} : ∀ {xs : List (Except Fault α)} {as : List α}, allOf xs = .ok as → as.length = xs.length
  | [], _, h => by cases h; rfl
  | .error e :: _, _, h => by cases h
  | .ok a :: xs, as, h => by
    simp only [allOf] at h
    cases hall : allOf xs with
    | error e => rw [hall] at h; cases h
    | ok bs => rw [hall] at h; cases h; simp [allOf_length hall]

theorem reassemble_ok {τ : Texts} {mem : Mem} {count w seg : Nat} (bufs : Nat → List Bytes) : ∀ (is : List Nat) (m : M),
    (∀ i ∈ is, (reader mem seg i).map (fun r => mem.slice r.1 r.2) = bufs i) →
    (∀ i ∈ is, (bufs i).length = (chunkBounds count w i).2 - (chunkBounds count w i).1) →
    ∃ m' slots ext, More m m' ext ∧ reassemble τ mem count w seg is m =
      (match allOf (((is.map bufs).flatten).map (readBack τ)) with
      | .error _ => (.ok none, m')
      | .ok _ => (.ok (some slots), m')) ∧
      ∀ vs, allOf (((is.map bufs).flatten).map (readBack τ)) = .ok vs → Points m'.roots slots vs
  | [], m, _, _ => ⟨m, [], [], ⟨rfl, by simp⟩, rfl, fun vs h => by cases h; trivial⟩
  | i :: is, m, hr, hl => by
    obtain ⟨m1, slots1, ext1, ⟨hw1, hr1⟩, h1, h1'⟩ := rebuild_ok (τ := τ) (mem := mem) (reader mem seg i) (bufs i) m
      (hr i (List.mem_cons_self ..))
    obtain ⟨m2, slots2, ext2, ⟨hw2, hr2⟩, h2, h2'⟩ := reassemble_ok (τ := τ) (mem := mem) (count := count) (w := w) (seg := seg)
      bufs is m1 (fun j hj => hr j (List.mem_cons_of_mem _ hj)) (fun j hj => hl j (List.mem_cons_of_mem _ hj))
    simp only [List.map_cons, List.flatten_cons, List.map_append, allOf_append, reassemble]
    cases ha : allOf ((bufs i).map (readBack τ)) with
    | error e =>
      rw [ha] at h1
      rw [bind_ok h1]
      exact ⟨m1, [], ext1, ⟨hw1, hr1⟩, rfl, fun vs h => by cases h⟩
    | ok vs =>
      rw [ha] at h1
      rw [bind_ok h1]
      have hp1 := h1' vs ha
      have hlen : slots1.length = (chunkBounds count w i).2 - (chunkBounds count w i).1 := by
        rw [hp1.length, allOf_length ha, List.length_map, hl i (List.mem_cons_self ..)]
      simp only [ne_eq, hlen, not_true, if_false]
      cases hb : allOf (((is.map bufs).flatten).map (readBack τ)) with
      | error e =>
        rw [hb] at h2
        rw [bind_ok h2]
        exact ⟨m2, [], ext1 ++ ext2, ⟨hw2.trans hw1, by rw [hr2, hr1]; simp⟩, rfl, fun vs h => by cases h⟩
      | ok ws =>
        rw [hb] at h2
        rw [bind_ok h2]
        refine ⟨m2, slots1 ++ slots2, ext1 ++ ext2, ⟨hw2.trans hw1, by rw [hr2, hr1]; simp⟩, rfl, ?_⟩
        intro us hus
        cases hus
        refine Points.append ?_ (h2' ws hb)
        rw [hr2]
        exact hp1.ext

theorem seg_big (size w : Nat) : 16 ≤ segmentSize size w := Nat.le_max_right ..

theorem seg_small (count w : Nat) (h : 0 < w) : segmentSize (arenaSize count w) w < 2 ^ 64 := by
  have h1 : arenaSize count w ≤ 256 * 2 ^ 20 := Nat.min_le_right ..
  have h2 : (arenaSize count w + w - 1) / w ≤ arenaSize count w + 1 := by
    apply Nat.div_le_of_le_mul
    have : arenaSize count w ≤ w * arenaSize count w := Nat.le_mul_of_pos_left _ h
    rw [Nat.mul_add]; omega
  unfold segmentSize
  exact Nat.max_lt.2 ⟨by omega, by omega⟩

theorem points_chunk {roots : List Clo} {base : Nat} {xs : List Clo} (h : Points roots ((List.range xs.length).map (base + ·)) xs)
    {w i : Nat} (hw : 0 < w) (hi : i < w) :
    Points roots ((List.range ((chunkBounds xs.length w i).2 - (chunkBounds xs.length w i).1)).map
      (base + (chunkBounds xs.length w i).1 + ·)) (chunk xs xs.length w i) := by
  have hle := chunk_start_le (n := xs.length) hw hi
  have hle2 := chunk_le xs.length w i
  have hlen : (chunk xs xs.length w i).length = (chunkBounds xs.length w i).2 - (chunkBounds xs.length w i).1 := by
    simp only [chunk, List.length_take, List.length_drop]; omega
  have hget : ∀ {is : List Nat} {vs : List Clo}, Points roots is vs → ∀ (j i : Nat) (v : Clo), is[j]? = some i → vs[j]? = some v →
      roots[i]? = some v := by
    intro is
    induction is with
    | nil => intro vs _ j i v h; simp at h
    | cons a as ih =>
      intro vs hp j i v h1 h2
      cases vs with
      | nil => simp at h2
      | cons b bs =>
        cases j with
        | zero => simp at h1 h2; subst h1; subst h2; exact hp.1
        | succ j => simp at h1 h2; exact ih hp.2 j i v h1 h2
  rw [← hlen]
  apply points_range
  intro j v hj
  have hj' : j < (chunk xs xs.length w i).length := (List.getElem?_eq_some_iff.1 hj).1
  have hx : xs[(chunkBounds xs.length w i).1 + j]? = some v := by
    rw [chunk, List.getElem?_take_of_lt (by omega), List.getElem?_drop] at hj
    exact hj
  have := hget h ((chunkBounds xs.length w i).1 + j) (base + ((chunkBounds xs.length w i).1 + j)) v (by
    rw [List.getElem?_map, List.getElem?_range (by omega)]; rfl) hx
  rw [Nat.add_assoc]; exact this

theorem work_ok {h : Host} {ap : Clo → Clo → Clo} {n fSlot base w i : Nat} {m : M} {f : Clo} {xs : List Clo} {seg : Nat}
    (hseg : 16 ≤ seg) (hw : 0 < w) (hi : i < w) (hp : Points m.roots ((List.range xs.length).map (base + ·)) xs)
    (hf : m.roots[fSlot]? = some f) (hn : ∀ x ∈ xs, 6 * sz (ap f x) + 5 ≤ n)
    (hok : (work h ap n fSlot base xs.length w seg m i).2 = true) :
    ∃ bufs wr, allOf ((chunk xs xs.length w i).map fun x => enc h.toTexts true (ap f x)) = .ok bufs ∧ Wrote seg i bufs wr ∧
      (work h ap n fSlot base xs.length w seg m i).1 = wr.finish := by
  simp only [work] at hok ⊢
  cases hr : workLoop h.toTexts ap n fSlot ((List.range ((chunkBounds xs.length w i).2 - (chunkBounds xs.length w i).1)).map
      (base + (chunkBounds xs.length w i).1 + ·)) (writer seg i) { m with worker := true } with
  | mk r m' =>
    simp only [hr] at hok ⊢
    cases r with
    | error e => simp at hok
    | ok wr =>
      cases hfate : h.fate i with
      | dies k => rw [hfate] at hok; simp at hok
      | runs =>
        obtain ⟨bufs, hb, hwr⟩ := workLoop_ok (seg := seg) (k := i) _ (chunk xs xs.length w i) { m with worker := true } m' [] _ wr
          (points_chunk hp hw hi) hf (fun x hx => hn x (List.mem_of_mem_drop (List.mem_of_mem_take hx))) (wrote_new hseg) hr
        exact ⟨bufs, wr, hb, by simpa using hwr, rfl⟩

theorem holds_congr {m1 m2 : Mem} {a : Nat} {bs : Bytes} (h : Holds m1 a bs) (he : ∀ i, a ≤ i → i < a + bs.length → m2 i = m1 i) :
    Holds m2 a bs := by
  intro j hj
  rw [he _ (by omega) (by omega), h j hj]

theorem finish_ok {h : Host} {ap : Clo → Clo → Clo} {n fSlot base w : Nat} {m : M} {f : Clo} {xs : List Clo} {log : List Write}
    (hw : 0 < w) (hp : Points m.roots ((List.range xs.length).map (base + ·)) xs)
    (hf : m.roots[fSlot]? = some f) (hn : ∀ x ∈ xs, 6 * sz (ap f x) + 5 ≤ n)
    (hok : ∀ i < w, (work h ap n fSlot base xs.length w (segmentSize (arenaSize xs.length w) w) m i).2 = true)
    (hlog : Interleave ((List.range w).map fun i =>
      (work h ap n fSlot base xs.length w (segmentSize (arenaSize xs.length w) w) m i).1) log) (hs : h.strict = false) :
    ∃ m' ext, More m m' ext ∧
      finishParallel h (log.foldl Mem.write fun _ => 0) xs.length w (segmentSize (arenaSize xs.length w) w) m =
      (match listOf (allOf (xs.map fun x => again h.toTexts m.worker (ap f x))) with
        | .error _ => (.ok none, m')
        | .ok v => (.ok (some v), m')) := by
  have hseg := seg_big (arenaSize xs.length w) w
  have hsmall := seg_small xs.length w hw
  generalize segmentSize (arenaSize xs.length w) w = seg at hseg hsmall hok hlog ⊢
  have hch : ∀ i, ∃ bufs, i < w → ∃ wr,
      allOf ((chunk xs xs.length w i).map fun x => enc h.toTexts true (ap f x)) = .ok bufs ∧ Wrote seg i bufs wr ∧
      (work h ap n fSlot base xs.length w seg m i).1 = wr.finish := by
    intro i
    by_cases hi : i < w
    · obtain ⟨bufs, wr, h1, h2, h3⟩ := work_ok hseg hw hi hp hf hn (hok i hi)
      exact ⟨bufs, fun _ => ⟨wr, h1, h2, h3⟩⟩
    · exact ⟨[], fun h => absurd h hi⟩
  obtain ⟨bufs, hbufs⟩ := Classical.axiomOfChoice hch
  -- what lies in the memory
  have hin : ∀ (k : Nat) (ws : List Write), ((List.range w).map fun i => (work h ap n fSlot base xs.length w seg m i).1)[k]? = some ws →
      Within (k * seg) (k * seg + seg) ws := by
    intro k ws hk
    rw [List.getElem?_map] at hk
    obtain ⟨i, hi, he⟩ := Option.map_eq_some_iff.1 hk
    have hkw : k < w := by
      have := (List.getElem?_eq_some_iff.1 hi).1
      simpa using this
    rw [List.getElem?_range hkw] at hi
    cases hi
    obtain ⟨wr, _, h2, h3⟩ := hbufs k hkw
    rw [← he, h3]
    exact finish_within h2 hseg
  have hread : ∀ i ∈ List.range w, (reader (log.foldl Mem.write fun _ => 0) seg i).map
      (fun r => (log.foldl Mem.write fun _ => 0 : Mem).slice r.1 r.2) = bufs i := by
    intro i hi
    have hi := List.mem_range.1 hi
    obtain ⟨wr, _, h2, h3⟩ := hbufs i hi
    have hfit : 8 + (frames (bufs i)).length ≤ seg := by
      have := h2.fits
      rw [h2.cursor, h2.last] at this
      omega
    refine reader_holds hsmall ?_ hfit
    refine holds_congr (finish_holds h2 fun _ => 0) ?_
    intro a ha1 ha2
    rw [← h3]
    refine interleave_local hlog hin _ i _ a ?_ ha1 ?_
    · rw [List.getElem?_map, List.getElem?_range hi]; rfl
    · simp only [List.length_append, le_len] at ha2; omega
  have hlen : ∀ i ∈ List.range w, (bufs i).length = (chunkBounds xs.length w i).2 - (chunkBounds xs.length w i).1 := by
    intro i hi
    have hi := List.mem_range.1 hi
    obtain ⟨wr, h1, _, _⟩ := hbufs i hi
    rw [allOf_length h1, List.length_map]
    have hle := chunk_start_le (n := xs.length) hw hi
    simp only [chunk, List.length_take, List.length_drop]
    omega
  obtain ⟨m', slots, ext, hm, h1, h2⟩ := reassemble_ok (τ := h.toTexts) (count := xs.length) (w := w) bufs (List.range w) m hread hlen
  -- all results together
  have hall : allOf (xs.map fun x => enc h.toTexts m.worker (ap f x)) = .ok (((List.range w).map bufs).flatten) := by
    apply allOf_worker
    have hup : ∀ k ≤ w, allOf ((((List.range k).map (chunk xs xs.length w)).flatten).map fun x => enc h.toTexts true (ap f x)) =
        .ok (((List.range k).map bufs).flatten) := by
      intro k
      induction k with
      | zero => intro _; rfl
      | succ k ih =>
        intro hk
        obtain ⟨wr, hb, _, _⟩ := hbufs k (by omega)
        rw [List.range_succ, List.map_append, List.flatten_append, List.map_append, List.map_append, allOf_append, ih (by omega)]
        simp only [List.map_cons, List.map_nil, List.flatten_cons, List.flatten_nil, List.append_nil, List.flatten_append, hb]
    have := hup w (Nat.le_refl _)
    rwa [chunks_all xs hw] at this
  have hagain : allOf (xs.map fun x => again h.toTexts m.worker (ap f x)) =
      allOf ((((List.range w).map bufs).flatten).map (readBack h.toTexts)) := by
    rw [← allOf_map hall (readBack h.toTexts)]
    congr 2
    funext x
    rw [again]
    cases enc h.toTexts m.worker (ap f x) <;> rfl
  refine ⟨m', ext, hm, ?_⟩
  rw [hagain]
  simp only [finishParallel]
  cases hr : allOf ((((List.range w).map bufs).flatten).map (readBack h.toTexts)) with
  | error e =>
    rw [hr] at h1
    rw [bind_ok h1]
    simp only [forkFault, hs, listOf]
    rfl
  | ok vs =>
    rw [hr] at h1
    rw [bind_ok h1]
    simp only [listOf]
    rw [bind_ok (gather_ok slots vs m' (h2 vs hr))]
    rfl

/-! ## The whole -/

/-- The result of the parallel map. -/
def pureMap (τ : Texts) (w : Bool) (ap : Clo → Clo → Clo) (f xs : Clo) : Except Fault Clo := match spine w xs with
  | .error e => .error e
  | .ok es => listOf (allOf (es.map fun x => again τ w (ap f x)))

theorem choose_ok {h : Host} {ap : Clo → Clo → Clo} {n fSlot base : Nat} {m : M} {f : Clo} {xs : List Clo} {r : Except Fault Clo}
    {m' : M} (hp : Points m.roots ((List.range xs.length).map (base + ·)) xs) (hf : m.roots[fSlot]? = some f)
    (hn : ∀ x ∈ xs, 6 * sz (ap f x) + 5 ≤ n) (hs : h.strict = false) (hc : Choose h ap n fSlot base xs.length m (r, m')) :
    r = listOf (allOf (xs.map fun x => again h.toTexts m.worker (ap f x))) ∧ ∃ ext, More m m' ext := by
  have hff : forkFault h m = (.ok none, m) := by simp only [forkFault, hs]; rfl
  have htry : ∀ {q m1}, 2 ≤ h.workers xs.length → TryParallel h ap n fSlot base xs.length (h.workers xs.length) m (q, m1) →
      (∃ ext, More m m1 ext) ∧ (q = .ok none ∨
        ∃ v, q = .ok (some v) ∧ listOf (allOf (xs.map fun x => again h.toTexts m.worker (ap f x))) = .ok v) := by
    intro q m1 hw ht
    have hnone : (q, m1) = forkFault h m → (∃ ext, More m m1 ext) ∧ (q = .ok none ∨
        ∃ v, q = .ok (some v) ∧ listOf (allOf (xs.map fun x => again h.toTexts m.worker (ap f x))) = .ok v) := by
      intro he
      rw [hff] at he
      cases he
      exact ⟨⟨[], rfl, by simp⟩, .inl rfl⟩
    generalize hq : (q, m1) = qm at ht
    cases ht with
    | noArena _ => exact hnone hq
    | noFork _ _ => exact hnone hq
    | failed _ _ _ => exact hnone hq
    | joined _ _ hall hlog =>
      obtain ⟨m2, ext, hm, he⟩ := finish_ok (by omega) hp hf hn hall hlog hs
      rw [he] at hq
      cases hres : listOf (allOf (xs.map fun x => again h.toTexts m.worker (ap f x))) with
      | error e =>
        rw [hres] at hq; cases hq
        exact ⟨⟨ext, hm⟩, .inl rfl⟩
      | ok v =>
        rw [hres] at hq; cases hq
        exact ⟨⟨ext, hm⟩, .inr ⟨v, rfl, rfl⟩⟩
  have hseq : ∀ {m1}, (∃ ext, More m m1 ext) → ∀ {q m2}, (q, m2) = sequentialMap h.toTexts ap n fSlot base xs.length m1 →
      q = listOf (allOf (xs.map fun x => again h.toTexts m.worker (ap f x))) ∧ ∃ ext, More m m2 ext := by
    intro m1 ⟨ext, hw, hr⟩ q m2 hq
    obtain ⟨m3, ext3, ⟨hw3, hr3⟩, he⟩ := sequential_ok (τ := h.toTexts) (m := m1) (by rw [hr]; exact hp.ext) (by
      rw [hr, List.getElem?_append_left (List.getElem?_eq_some_iff.1 hf).1]; exact hf) hn
    rw [he, hw] at hq
    cases hq
    exact ⟨rfl, ext ++ ext3, hw3.trans hw, by rw [hr3, hr]; simp⟩
  generalize hq : (r, m') = q at hc
  cases hc with
  | few _ => exact hseq ⟨[], rfl, by simp⟩ hq
  | unvouched _ => exact hseq ⟨[], rfl, by simp⟩ hq
  | parallel hw _ ht =>
    obtain ⟨he, h1 | ⟨v, h1, h2⟩⟩ := htry hw ht
    · cases h1
    · cases hq
      cases h1
      exact ⟨h2.symm, he⟩
  | declined hw _ ht =>
    exact hseq (htry hw ht).1 hq
  | raised hw _ ht =>
    obtain ⟨_, h1 | ⟨v, h1, _⟩⟩ := htry hw ht
    · cases h1
    · cases h1

/-- Enough fuel for a list. -/
def enough (ap : Clo → Clo → Clo) (f xs : Clo) (w : Bool) : Nat := sz xs + match spine w xs with
  | .error _ => 0
  | .ok es => (es.map fun x => 6 * sz (ap f x) + 5).sum

theorem sum_ge {g : Clo → Nat} : ∀ {es : List Clo} {x : Clo}, x ∈ es → g x ≤ (es.map g).sum
  | e :: es, x, h => by
    simp only [List.map_cons, List.sum_cons]
    rcases List.mem_cons.1 h with rfl | h
    · omega
    · have := sum_ge (g := g) h; omega

theorem prepare_ok {n : Nat} {f xs : Clo} {m : M} (hn : sz xs ≤ n) :
    ∃ m' ext, More m m' ext ∧ prepare n f xs m = (match spine m.worker xs with
      | .error e => (.error e, m')
      | .ok es => (.ok (m.roots.length, m.roots.length + 2, es.length), m')) ∧
      ∀ es, spine m.worker xs = .ok es → m'.roots[m.roots.length]? = some f ∧
        Points m'.roots ((List.range es.length).map (m.roots.length + 2 + ·)) es := by
  obtain ⟨m', hw, h1, c', ext, h2, h3⟩ := spineLoop_ok n xs { m with roots := m.roots ++ [f] ++ [xs] } (m.roots ++ [f]).length 0
    (m.roots ++ [f]) [] hn (by simp) rfl
  refine ⟨m', f :: c' :: ext, ⟨hw, by rw [h2]; simp⟩, ?_, ?_⟩
  · simp only [prepare, collectSpine, bind_ok (handle_run _), bind_ok (push_run _)]
    rw [bind_run, bind_ok (handle_run (m := { m with roots := m.roots ++ [f] }) xs), bind_ok (push_run (m := { m with roots := m.roots ++ [f] }) xs)]
    simp only
    cases hs : spine m.worker xs with
    | error e => rw [hs] at h1; rw [bind_err h1]
    | ok es =>
      rw [hs] at h1
      simp only [Nat.zero_add] at h1
      rw [bind_ok h1]
      simp
  · intro es hes
    have := h3 es hes
    subst this
    refine ⟨by rw [h2]; simp, ?_⟩
    apply points_range
    intro j v hj
    rw [h2, List.getElem?_append_right (by simp)]
    simp only [List.length_append, List.length_cons, List.length_nil]
    rw [← hj]
    congr 1
    omega

/-- However it is run, the parallel map comes to `pureMap`. -/
theorem parMap_pure {h : Host} {ap : Clo → Clo → Clo} {n : Nat} {f xs : Clo} {m : M} {r : Except Fault Clo} {m' : M}
    (hn : enough ap f xs m.worker ≤ n) (hs : h.strict = false) (hr : ParMap h ap n f xs m (r, m')) :
    r = pureMap h.toTexts m.worker ap f xs ∧ m'.roots = m.roots ∧ m'.worker = m.worker := by
  unfold enough at hn
  obtain ⟨m1, ext, ⟨hw1, hr1⟩, hp, hpts⟩ := prepare_ok (f := f) (m := m) (xs := xs) (n := n) (by omega)
  unfold pureMap
  generalize hq : (r, m') = q at hr
  cases hr with
  | bad hb =>
    rw [hp] at hb
    cases hsp : spine m.worker xs with
    | error e =>
      rw [hsp] at hb
      cases hb; cases hq
      exact ⟨rfl, by simp [hr1], hw1⟩
    | ok es => rw [hsp] at hb; cases hb
  | good hg hc =>
    rw [hp] at hg
    cases hsp : spine m.worker xs with
    | error e => rw [hsp] at hg; cases hg
    | ok es =>
      rw [hsp] at hg
      cases hg; cases hq
      obtain ⟨hf, hpt⟩ := hpts es hsp
      rw [hsp] at hn
      dsimp only at hn
      obtain ⟨h1, ext2, hw2, hr2⟩ := choose_ok hpt hf (fun x hx => by
        have := sum_ge (g := fun x => 6 * sz (ap f x) + 5) hx
        omega) hs hc
      rw [hw1] at h1
      exact ⟨h1, by rw [hr2, hr1]; simp, hw2.trans hw1⟩

/-- It comes to something. -/
theorem parMap_total (h : Host) (ap : Clo → Clo → Clo) (n : Nat) (f xs : Clo) (m : M) : ∃ q, ParMap h ap n f xs m q := by
  have htry : ∀ fSlot base count w m, ∃ q, TryParallel h ap n fSlot base count w m q := by
    intro fSlot base count w m
    cases ha : h.arena with
    | false => exact ⟨_, .noArena ha⟩
    | true =>
      cases hf : h.forks with
      | false => exact ⟨_, .noFork ha hf⟩
      | true =>
        by_cases hall : ∀ i < w, (work h ap n fSlot base count w (segmentSize (arenaSize count w) w) m i).2 = true
        · obtain ⟨log, hl⟩ := interleave_exists _ ((List.range w).map fun i =>
            (work h ap n fSlot base count w (segmentSize (arenaSize count w) w) m i).1) rfl
          exact ⟨_, .joined ha hf hall hl⟩
        · have : ∃ i, i < w ∧ (work h ap n fSlot base count w (segmentSize (arenaSize count w) w) m i).2 = false := by
            apply Classical.byContradiction
            intro hno
            apply hall
            intro i hi
            cases hb : (work h ap n fSlot base count w (segmentSize (arenaSize count w) w) m i).2 with
            | true => rfl
            | false => exact absurd ⟨i, hi, hb⟩ hno
          obtain ⟨i, hi, hb⟩ := this
          exact ⟨_, .failed ha hi hb⟩
  have hch : ∀ fSlot base count m, ∃ q, Choose h ap n fSlot base count m q := by
    intro fSlot base count m
    by_cases hw : h.workers count < 2
    · exact ⟨_, .few hw⟩
    · cases hs : h.forkSafe with
      | false => exact ⟨_, .unvouched hs⟩
      | true =>
        obtain ⟨⟨r, m'⟩, hq⟩ := htry fSlot base count (h.workers count) m
        cases r with
        | error e => exact ⟨_, .raised (by omega) hs hq⟩
        | ok o =>
          cases o with
          | none => exact ⟨_, .declined (by omega) hs hq⟩
          | some v => exact ⟨_, .parallel (by omega) hs hq⟩
  cases hp : prepare n f xs m with
  | mk r m' =>
    cases r with
    | error e => exact ⟨_, .bad hp⟩
    | ok t =>
      obtain ⟨slot, base, count⟩ := t
      obtain ⟨⟨r, m''⟩, hq⟩ := hch slot base count m'
      exact ⟨_, .good hp hq⟩

end Verif.Par
