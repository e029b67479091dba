import Verif.ParModel

/-!
# Proofs only.

What the copying of a value comes to, without the machine: `enc`; and that the machine does it (`ser_enc`).
-/

namespace Verif.Par

/-- Size. -/
def sz : Clo → Nat
  | .box _ p => 1 + sz p
  | .cons h t => 1 + sz h + sz t
  | .block kvs => 1 + sz kvs
  | .pair k v => 1 + sz k + sz v
  | .kvlist l => 1 + sz l
  | .ann m b => 1 + sz m + sz b
  | .run i r => 1 + sz i + sz r
  | .pull r => 1 + sz r
  | _ => 1

theorem sz_pos (c : Clo) : 1 ≤ sz c := by cases c <;> simp [sz] <;> omega

theorem eval_sz (w : Bool) : ∀ (c : Clo) (r : Option Clo) (v : Clo) (r' : Option Clo), eval w c r = (.ok v, r') →
    sz v ≤ sz c ∧ ∀ m, r' = some m → r = some m ∨ sz m < sz c := by
  intro c
  induction c with
  | ann m b _ ih =>
    intro r v r' h
    simp only [eval] at h
    have := ih _ _ _ h
    refine ⟨by simp only [sz]; omega, fun x hx => ?_⟩
    rcases this.2 x hx with h' | h'
    · cases h'; right; simp only [sz]; omega
    · right; simp only [sz]; omega
  | run i b ihi ih =>
    intro r v r' h
    simp only [eval] at h
    cases hi : eval w i none with
    | mk x s =>
      rw [hi] at h
      cases x with
      | error e => simp at h
      | ok x =>
        have := ih _ _ _ h
        refine ⟨by simp only [sz]; omega, fun y hy => ?_⟩
        rcases this.2 y hy with h' | h'
        · rcases (ihi _ _ _ hi).2 y h' with h'' | h''
          · cases h''
          · right; simp only [sz]; omega
        · right; simp only [sz]; omega
  | pull b ih =>
    intro r v r' h
    simp only [eval] at h
    split at h
    · simp at h
    · have := ih _ _ _ h
      refine ⟨by simp only [sz]; omega, fun y hy => ?_⟩
      rcases this.2 y hy with h' | h'
      · exact .inl h'
      · right; simp only [sz]; omega
  | fail e => intro r v r' h; simp [eval] at h
  | _ =>
    intro r v r' h
    simp only [eval, Prod.mk.injEq, Except.ok.injEq] at h
    obtain ⟨rfl, rfl⟩ := h
    exact ⟨Nat.le_refl _, fun m h => .inl h⟩

theorem field_sz {c v : Clo} {i : Nat} (h : field c i = some v) : sz v < sz c := by
  unfold field at h
  split at h <;> first | (cases h; simp only [sz]; omega) | cases h

mutual
/-- What copying a value gives. -/
def enc (τ : Texts) (w : Bool) (c : Clo) : Except Fault Bytes :=
  match _h : eval w c none with
  | (.error e, _) => .error e
  | (.ok v, none) => encV τ w v
  | (.ok v, some m) => match enc τ w m with
    | .error e => .error e
    | .ok a => match encV τ w v with
      | .error e => .error e
      | .ok b => .ok (9 :: (a ++ b))
termination_by (sz c, 3)
decreasing_by
  · exact Prod.Lex.right' _ (eval_sz w c none _ _ _h).1 (by decide)
  · rcases (eval_sz w c none _ _ _h).2 m rfl with h' | h'
    · cases h'
    · exact Prod.Lex.left _ _ h'
  · exact Prod.Lex.right' _ (eval_sz w c none _ _ _h).1 (by decide)

/-- What copying an evaluated value gives. -/
def encV (τ : Texts) (w : Bool) (v : Clo) : Except Fault Bytes := match v with
  | .nat x => encScalar τ x
  | .unit => .ok [0]
  | .tt => .ok [1]
  | .ff => .ok [2]
  | .box .typeData p => match eval w p none with
    | (.error e, _) => .error e
    | (.ok p, _) => match valueNative p with
      | some (.str s) => .ok (10 :: lenBytes s)
      | _ => .error .notSerialisable
  | .box _ p => match eval w p none with
    | (.error e, _) => .error e
    | (.ok p, _) => match valueNative p with
      | some x => encScalar τ x
      | none => .error .notSerialisable
  | .nil => .ok (7 :: le 4 0)
  | .cons h t => match encItems τ w (.cons h t) with
    | .error e => .error e
    | .ok (bs, n) => .ok (7 :: (le 4 n ++ bs))
  | .block kvs => match _h : eval w kvs none with
    | (.error e, _) => .error e
    | (.ok kvs', _) => match encPairs τ w kvs' with
      | .error e => .error e
      | .ok (bs, n) => .ok (8 :: (le 4 n ++ bs))
  | _ => .error .notSerialisable
termination_by (sz v, 2)
decreasing_by
  · exact Prod.Lex.right _ (by decide)
  · refine Prod.Lex.left _ _ ?_
    have := (eval_sz w _ none _ _ _h).1
    simp only [sz]; omega

/-- What copying the items gives, and how many they are. -/
def encItems (τ : Texts) (w : Bool) (v : Clo) : Except Fault (Bytes × Nat) := match v with
  | .nil => .ok ([], 0)
  | .cons h t => match enc τ w h with
    | .error e => .error e
    | .ok a => match _h : eval w t none with
      | (.error e, _) => .error e
      | (.ok t', _) => match encItems τ w t' with
        | .error e => .error e
        | .ok (b, n) => .ok (a ++ b, n + 1)
  | _ => .error .notSerialisable
termination_by (sz v, 1)
decreasing_by
  · refine Prod.Lex.left _ _ ?_
    simp only [sz]; omega
  · refine Prod.Lex.left _ _ ?_
    have := (eval_sz w _ none _ _ _h).1
    simp only [sz]; omega

/-- What copying the pairs gives, and how many they are. -/
def encPairs (τ : Texts) (w : Bool) (v : Clo) : Except Fault (Bytes × Nat) := match v with
  | .nil => .ok ([], 0)
  | .cons p t => match _hp : eval w p none with
    | (.error e, _) => .error e
    | (.ok p', _) => match (field p' 0).bind asNative with
      | none => .error .notSerialisable
      | some key => match encScalar τ key with
        | .error e => .error e
        | .ok k => match _hf : field p' 1 with
          | none => .error .corrupt
          | some x => match enc τ w x with
            | .error e => .error e
            | .ok a => match _h : eval w t none with
              | (.error e, _) => .error e
              | (.ok t', _) => match encPairs τ w t' with
                | .error e => .error e
                | .ok (b, n) => .ok (k ++ (a ++ b), n + 1)
  | _ => .error .notSerialisable
termination_by (sz v, 1)
decreasing_by
  · refine Prod.Lex.left _ _ ?_
    have := (eval_sz w _ none _ _ _hp).1
    have := field_sz _hf
    simp only [sz]; omega
  · refine Prod.Lex.left _ _ ?_
    have := (eval_sz w _ none _ _ _h).1
    simp only [sz]; omega
end

/-! ## Steps of the machine -/

section steps
variable {α β : Type} {m : M}

@[simp] theorem pure_run (a : α) : (pure a : P α) m = (.ok a, m) := rfl

theorem bind_run (x : P α) (f : α → P β) : (x >>= f) m = match x m with
    | (.ok a, m) => f a m
    | (.error e, m) => (.error e, m) := rfl

theorem bind_ok {x : P α} {f : α → P β} {a : α} {m' : M} (h : x m = (.ok a, m')) : (x >>= f) m = f a m' := by
  rw [bind_run, h]

theorem bind_err {x : P α} {f : α → P β} {e : Fault} {m' : M} (h : x m = (.error e, m')) :
    (x >>= f) m = (.error e, m') := by
  rw [bind_run, h]

@[simp] theorem throw_run (e : Fault) : (throw e : P α) m = (.error e, m) := rfl

@[simp] theorem lift_run (r : Except Fault α) : lift r m = (r, m) := rfl

@[simp] theorem handle_run (c : Clo) : handle c m = (.ok ⟨m.epoch, c⟩, m) := rfl

@[simp] theorem deref_run (c : Clo) : deref ⟨m.epoch, c⟩ m = (.ok c, m) := by simp [deref]

@[simp] theorem push_run (c : Clo) : rootPush ⟨m.epoch, c⟩ m = (.ok m.roots.length, { m with roots := m.roots ++ [c] }) := by
  simp [rootPush]

theorem get_run {i : Nat} {c : Clo} (h : m.roots[i]? = some c) : rootGet i m = (.ok ⟨m.epoch, c⟩, m) := by
  simp [rootGet, h]

theorem set_run {i : Nat} {c : Clo} (h : i < m.roots.length) :
    rootSet i ⟨m.epoch, c⟩ m = (.ok (), { m with roots := m.roots.set i c }) := by
  simp [rootSet, h]

theorem force_run (c : Clo) : ∃ e, force ⟨m.epoch, c⟩ m =
    (match eval m.worker c none with
    | (.ok v, r) => (.ok ⟨e, v⟩, { m with epoch := e, reg := r })
    | (.error x, r) => (.error x, { m with epoch := e, reg := r })) := by
  cases c with
  | nat n => exact ⟨m.epoch, by simp [force, eval]⟩
  | _ => exact ⟨m.epoch + 1, by simp only [force, if_true]; rfl⟩

theorem withRoots_run (x : P α) : withRoots x m = ((x m).1, { (x m).2 with roots := (x m).2.roots.take m.roots.length }) := rfl

end steps

/-- The machine goes on as it was, but for one root. -/
def Post (m m' : M) (cur : Nat) : Prop := m'.worker = m.worker ∧ ∃ c, m'.roots = m.roots.set cur c

/-- The machine goes on as it was. -/
def Same (m m' : M) : Prop := m'.worker = m.worker ∧ m'.roots = m.roots

/-- What was written, after what was there. -/
def app (out : Bytes) : Except Fault Bytes → Except Fault Bytes
  | .ok b => .ok (out ++ b)
  | .error e => .error e

/-- The same with a count. -/
def appN (out : Bytes) (k : Nat) : Except Fault (Bytes × Nat) → Except Fault (Bytes × Nat)
  | .ok (b, n) => .ok (out ++ b, k + n)
  | .error e => .error e

theorem set_self {l : List Clo} {i : Nat} {c : Clo} (h : l[i]? = some c) : l.set i c = l := by
  apply List.ext_getElem?
  intro j
  by_cases hj : i = j
  · subst hj; rw [h]; rw [List.getElem?_set_self]; exact (List.getElem?_eq_some_iff.1 h).1
  · rw [List.getElem?_set_ne hj]

theorem patch_app (out a b c : Bytes) (t : UInt8) (h : a.length = c.length) :
    patch (out ++ t :: a ++ b) (out.length + 1) c = out ++ t :: (c ++ b) := by
  have h1 : out ++ t :: a ++ b = (out ++ [t]) ++ (a ++ b) := by simp
  have h2 : out.length + 1 = (out ++ [t]).length := by simp
  unfold patch
  rw [h1, h2, List.take_left', List.drop_append]
  · simp [← h]
  · rfl

theorem le_len : ∀ (k n : Nat), (le k n).length = k
  | 0, _ => rfl
  | k + 1, n => by simp [le, le_len k]

/-- The six functions, with enough fuel. -/
structure SerOk (τ : Texts) (n : Nat) : Prop where
  force : ∀ (m : M) (c : Clo) (out : Bytes), 6 * sz c + 5 ≤ n →
    ∃ m', forceSer τ n ⟨m.epoch, c⟩ out m = (app out (enc τ m.worker c), m') ∧ Same m m'
  slot : ∀ (m : M) (i : Nat) (c : Clo) (out : Bytes), m.roots[i]? = some c → 6 * sz c + 4 ≤ n →
    ∃ m', slotSer τ n i out m = (app out (enc τ m.worker c), m') ∧ Post m m' i
  forced : ∀ (m : M) (i : Nat) (c : Clo) (out : Bytes), m.roots[i]? = some c → 6 * sz c + 3 ≤ n →
    ∃ m', forcedSer τ n i out m = (app out (encV τ m.worker c), m') ∧ Same m m'
  items : ∀ (m : M) (i : Nat) (c : Clo) (out : Bytes) (k : Nat), m.roots[i]? = some c → 6 * sz c + 1 ≤ n →
    ∃ m', itemsSer τ n i out k m = (appN out k (encItems τ m.worker c), m') ∧ Post m m' i
  pairs : ∀ (m : M) (i : Nat) (c : Clo) (out : Bytes) (k : Nat), m.roots[i]? = some c → 6 * sz c + 1 ≤ n →
    ∃ m', pairsSer τ n i out k m = (appN out k (encPairs τ m.worker c), m') ∧ m'.worker = m.worker ∧
      ∃ c' ext, m'.roots = m.roots.set i c' ++ ext ∧ ((∃ r, encPairs τ m.worker c = .ok r) → ext = [])
  list : ∀ (m : M) (i : Nat) (h t : Clo) (out : Bytes), m.roots[i]? = some (.cons h t) → 6 * sz (.cons h t) + 2 ≤ n →
    ∃ m', listSer τ n i out m = (app out (encV τ m.worker (.cons h t)), m') ∧ Same m m'
  block : ∀ (m : M) (i : Nat) (kvs : Clo) (out : Bytes), m.roots[i]? = some (.block kvs) → 6 * sz (.block kvs) + 2 ≤ n →
    ∃ m', blockSer τ n i out m = (app out (encV τ m.worker (.block kvs)), m') ∧ Same m m'

theorem serOk_zero (τ : Texts) : SerOk τ 0 := by
  constructor <;> intros <;> omega

variable {τ : Texts}

theorem force_succ {n : Nat} (ih : SerOk τ n) (m : M) (c : Clo) (out : Bytes) (hn : 6 * sz c + 5 ≤ n + 1) :
    ∃ m', forceSer τ (n + 1) ⟨m.epoch, c⟩ out m = (app out (enc τ m.worker c), m') ∧ Same m m' := by
  obtain ⟨m', h, hw, c', hr⟩ := ih.slot { m with roots := m.roots ++ [c] } m.roots.length c out (by simp) (by omega)
  refine ⟨{ m' with roots := m'.roots.take m.roots.length }, ?_, hw, ?_⟩
  · simp only [forceSer, withRoots_run, bind_ok (push_run c)]
    rw [h]
  · simp [hr]

theorem slot_succ {n : Nat} (ih : SerOk τ n) (m : M) (i : Nat) (c : Clo) (out : Bytes) (hr : m.roots[i]? = some c)
    (hn : 6 * sz c + 4 ≤ n + 1) :
    ∃ m', slotSer τ (n + 1) i out m = (app out (enc τ m.worker c), m') ∧ Post m m' i := by
  have hi : i < m.roots.length := (List.getElem?_eq_some_iff.1 hr).1
  obtain ⟨e, hf⟩ := force_run (m := m) c
  simp only [slotSer, bind_ok (get_run hr)]
  rw [enc]
  cases he : eval m.worker c none with
  | mk x r =>
    rw [he] at hf
    cases x with
    | error x =>
      simp only at hf
      rw [bind_err hf]
      refine ⟨_, rfl, rfl, c, ?_⟩
      simp [set_self hr]
    | ok v =>
      simp only at hf
      rw [bind_ok hf]
      have hs := set_run (m := { m with epoch := e, reg := r }) (i := i) (c := v) hi
      simp only at hs
      rw [bind_ok hs]
      obtain ⟨hv, hm⟩ := eval_sz _ _ _ _ _ he
      have hr' : (m.roots.set i v)[i]? = some v := by rw [List.getElem?_set_self hi]
      cases r with
      | none =>
        obtain ⟨m', h, hw, hrs⟩ := ih.forced { m with epoch := e, reg := none, roots := m.roots.set i v } i v out hr' (by omega)
        refine ⟨m', ?_, hw, v, hrs⟩
        rw [bind_run]
        simp only [takeMeta, Option.map_none]
        exact h
      | some mm =>
        have hmm : sz mm < sz c := by
          rcases hm mm rfl with h | h
          · cases h
          · exact h
        obtain ⟨m1, h1, hw1, c1, hr1⟩ := ih.slot ⟨e, m.roots.set i v ++ [mm], none, m.worker⟩ (m.roots.set i v).length mm
          (out ++ [9]) (by simp) (by omega)
        have hw : withRoots (do let metaSlot ← rootPush ⟨e, mm⟩; slotSer τ n metaSlot (out ++ [9]))
            ⟨e, m.roots.set i v, none, m.worker⟩ =
            (app (out ++ [9]) (enc τ m.worker mm), { m1 with roots := m.roots.set i v }) := by
          rw [withRoots_run, bind_ok (push_run (m := ⟨e, m.roots.set i v, none, m.worker⟩) mm), h1]
          simp only [hr1]
          simp
        rw [bind_run]
        simp only [takeMeta, Option.map_some]
        simp only at hw1
        cases henc : enc τ m.worker mm with
        | error x =>
          rw [henc] at hw
          rw [bind_err hw]
          exact ⟨_, rfl, hw1, v, rfl⟩
        | ok a =>
          rw [henc] at hw
          rw [bind_ok hw]
          obtain ⟨m', h, hw', hrs⟩ := ih.forced { m1 with roots := m.roots.set i v } i v (out ++ [9] ++ a) hr' (by omega)
          refine ⟨m', ?_, hw'.trans hw1, v, hrs⟩
          rw [h]
          simp only [hw1]
          cases encV τ m.worker v <;> simp [app]

theorem forced_succ {n : Nat} (ih : SerOk τ n) (m : M) (i : Nat) (c : Clo) (out : Bytes) (hr : m.roots[i]? = some c)
    (hn : 6 * sz c + 3 ≤ n + 1) :
    ∃ m', forcedSer τ (n + 1) i out m = (app out (encV τ m.worker c), m') ∧ Same m m' := by
  simp only [forcedSer, bind_ok (get_run hr), bind_ok (deref_run c)]
  have hbox : ∀ p, c ≠ .box .typeData p →
      (∀ k p, c = .box k p → ∃ m', (do
          let p ← handle p
          let p ← Par.force p
          match valueNative (← deref p) with
          | some x => do
              let bs ← lift (encScalar τ x)
              pure (out ++ bs)
          | none => throw .notSerialisable : P Bytes) m = (app out (match eval m.worker p none with
            | (.error e, _) => .error e
            | (.ok p, _) => match valueNative p with
              | some x => encScalar τ x
              | none => .error .notSerialisable), m') ∧ Same m m') := by
    intro _ _ k p hp
    obtain ⟨e, hf⟩ := force_run (m := m) p
    rw [bind_ok (handle_run p)]
    cases he : eval m.worker p none with
    | mk x r =>
      rw [he] at hf
      cases x with
      | error x => rw [bind_err hf]; exact ⟨_, rfl, rfl, rfl⟩
      | ok v =>
        rw [bind_ok hf]
        rw [bind_ok (deref_run (m := { m with epoch := e, reg := r }) v)]
        dsimp only
        cases valueNative v with
        | none => exact ⟨_, rfl, rfl, rfl⟩
        | some x =>
          simp only
          cases hx : encScalar τ x with
          | error y => exact ⟨_, rfl, rfl, rfl⟩
          | ok bs => exact ⟨_, rfl, rfl, rfl⟩
  cases c with
  | nat x =>
    simp only [encV]
    cases hx : encScalar τ x with
    | error y => exact ⟨_, rfl, rfl, rfl⟩
    | ok bs => exact ⟨_, rfl, rfl, rfl⟩
  | unit => simp only [encV]; exact ⟨_, rfl, rfl, rfl⟩
  | tt => simp only [encV]; exact ⟨_, rfl, rfl, rfl⟩
  | ff => simp only [encV]; exact ⟨_, rfl, rfl, rfl⟩
  | nil => simp only [encV]; exact ⟨_, rfl, rfl, rfl⟩
  | cons h t => exact ih.list m i h t out hr (by omega)
  | block kvs => exact ih.block m i kvs out hr (by omega)
  | box k p =>
    cases k with
    | typeData =>
      simp only [encV]
      obtain ⟨e, hf⟩ := force_run (m := m) p
      rw [bind_ok (handle_run p)]
      cases he : eval m.worker p none with
      | mk x r =>
        rw [he] at hf
        cases x with
        | error x => rw [bind_err hf]; exact ⟨_, rfl, rfl, rfl⟩
        | ok v =>
          rw [bind_ok hf]
          rw [bind_ok (deref_run (m := { m with epoch := e, reg := r }) v)]
          dsimp only
          cases valueNative v with
          | none => exact ⟨_, rfl, rfl, rfl⟩
          | some x => cases x <;> exact ⟨_, rfl, rfl, rfl⟩
    | number => simp only [encV]; exact hbox .unit (by simp) _ _ rfl
    | symbol => simp only [encV]; exact hbox .unit (by simp) _ _ rfl
    | string => simp only [encV]; exact hbox .unit (by simp) _ _ rfl
    | zdt => simp only [encV]; exact hbox .unit (by simp) _ _ rfl
  | fn _ => simp only [encV]; exact ⟨_, rfl, rfl, rfl⟩
  | pair _ _ => simp only [encV]; exact ⟨_, rfl, rfl, rfl⟩
  | kvlist _ => simp only [encV]; exact ⟨_, rfl, rfl, rfl⟩
  | other _ => simp only [encV]; exact ⟨_, rfl, rfl, rfl⟩
  | ann _ _ => simp only [encV]; exact ⟨_, rfl, rfl, rfl⟩
  | run _ _ => simp only [encV]; exact ⟨_, rfl, rfl, rfl⟩
  | pull _ => simp only [encV]; exact ⟨_, rfl, rfl, rfl⟩
  | fail _ => simp only [encV]; exact ⟨_, rfl, rfl, rfl⟩

theorem list_succ {n : Nat} (ih : SerOk τ n) (m : M) (i : Nat) (h t : Clo) (out : Bytes)
    (hr : m.roots[i]? = some (.cons h t)) (hn : 6 * sz (.cons h t) + 2 ≤ n + 1) :
    ∃ m', listSer τ (n + 1) i out m = (app out (encV τ m.worker (.cons h t)), m') ∧ Same m m' := by
  obtain ⟨m', hm, hw, c, hc⟩ := ih.items { m with roots := m.roots ++ [.cons h t] } m.roots.length (.cons h t)
    (out ++ 7 :: le 4 0) 0 (by simp) (by omega)
  simp only [listSer]
  rw [bind_run, withRoots_run, bind_ok (get_run hr), bind_ok (push_run _), hm]
  simp only [encV]
  have hrs : m'.roots.take m.roots.length = m.roots := by simp [hc]
  simp only at hw
  cases hx : encItems τ m.worker (.cons h t) with
  | error e => exact ⟨_, rfl, hw, hrs⟩
  | ok r =>
    obtain ⟨bs, k⟩ := r
    simp only [appN, app]
    refine ⟨{ m' with roots := m'.roots.take m.roots.length }, ?_, hw, hrs⟩
    rw [pure_run, patch_app _ _ _ _ _ (by simp [le_len])]
    simp

theorem block_succ {n : Nat} (ih : SerOk τ n) (m : M) (i : Nat) (kvs : Clo) (out : Bytes)
    (hr : m.roots[i]? = some (.block kvs)) (hn : 6 * sz (.block kvs) + 2 ≤ n + 1) :
    ∃ m', blockSer τ (n + 1) i out m = (app out (encV τ m.worker (.block kvs)), m') ∧ Same m m' := by
  simp only [blockSer]
  rw [bind_run, withRoots_run, bind_ok (get_run hr), bind_ok (deref_run _)]
  simp only [field, orElse]
  rw [bind_ok (lift_run _), bind_ok (handle_run _), bind_ok (push_run _)]
  have hg : ({ m with roots := m.roots ++ [kvs] } : M).roots[m.roots.length]? = some kvs := by simp
  rw [bind_ok (get_run hg)]
  obtain ⟨e, hf⟩ := force_run (m := { m with roots := m.roots ++ [kvs] }) kvs
  simp only [encV]
  simp only at hf
  cases he : eval m.worker kvs none with
  | mk x r =>
    rw [he] at hf
    cases x with
    | error x =>
      rw [bind_err hf]
      exact ⟨_, rfl, rfl, by simp⟩
    | ok v =>
      rw [bind_ok hf]
      have hs := set_run (m := { m with roots := m.roots ++ [kvs], epoch := e, reg := r }) (i := m.roots.length) (c := v)
        (by simp)
      simp only at hs
      rw [bind_ok hs]
      have hsz := (eval_sz _ _ _ _ _ he).1
      simp only [sz] at hn
      obtain ⟨m', hm, hw, c, ext, hc, _⟩ := ih.pairs
        { m with roots := (m.roots ++ [kvs]).set m.roots.length v, epoch := e, reg := r } m.roots.length v
        (out ++ 8 :: le 4 0) 0 (by simp) (by omega)
      rw [hm]
      have hrs : m'.roots.take m.roots.length = m.roots := by simp [hc]
      simp only at hw ⊢
      cases hx : encPairs τ m.worker v with
      | error e => exact ⟨_, rfl, hw, hrs⟩
      | ok r =>
        obtain ⟨bs, k⟩ := r
        simp only [appN, app]
        refine ⟨{ m' with roots := m'.roots.take m.roots.length }, ?_, hw, hrs⟩
        rw [pure_run, patch_app _ _ _ _ _ (by simp [le_len])]
        simp

theorem items_succ {n : Nat} (ih : SerOk τ n) (m : M) (i : Nat) (c : Clo) (out : Bytes) (k : Nat)
    (hr : m.roots[i]? = some c) (hn : 6 * sz c + 1 ≤ n + 1) :
    ∃ m', itemsSer τ (n + 1) i out k m = (appN out k (encItems τ m.worker c), m') ∧ Post m m' i := by
  have hi : i < m.roots.length := (List.getElem?_eq_some_iff.1 hr).1
  have hself : m.roots = m.roots.set i c := (set_self hr).symm
  simp only [itemsSer, bind_ok (get_run hr), bind_ok (deref_run c)]
  cases c with
  | nil => simp only [encItems]; exact ⟨m, by simp [appN], rfl, _, hself⟩
  | cons h t =>
    rw [encItems]
    simp only [sz] at hn
    simp only [bind_ok (handle_run _), bind_ok (set_run hi)]
    obtain ⟨m1, h1, hw1, hr1⟩ := ih.force { m with roots := m.roots.set i t } h out (by omega)
    simp only at h1 hw1 hr1
    cases hx : enc τ m.worker h with
    | error e =>
      rw [hx] at h1
      rw [bind_err h1]
      exact ⟨_, rfl, hw1, t, hr1⟩
    | ok a =>
      rw [hx] at h1
      rw [bind_ok h1]
      have hg : m1.roots[i]? = some t := by rw [hr1, List.getElem?_set_self hi]
      rw [bind_ok (get_run hg)]
      obtain ⟨e, hf⟩ := force_run (m := m1) t
      rw [hw1] at hf
      simp only
      cases he : eval m.worker t none with
      | mk x r =>
        rw [he] at hf
        cases x with
        | error x =>
          rw [bind_err hf]
          exact ⟨_, rfl, hw1 ▸ rfl, t, hr1⟩
        | ok v =>
          rw [bind_ok hf]
          have hi1 : i < m1.roots.length := by rw [hr1]; simpa using hi
          have hs := set_run (m := { m1 with epoch := e, reg := r }) (i := i) (c := v) hi1
          simp only at hs
          rw [bind_ok (by rw [← hw1]; exact hs)]
          have hsz := (eval_sz _ _ _ _ _ he).1
          obtain ⟨m', h2, hw2, c2, hr2⟩ := ih.items { m1 with epoch := e, reg := r, roots := m1.roots.set i v } i v (out ++ a)
            (k + 1) (by simp [hi1]) (by omega)
          refine ⟨m', ?_, hw2.trans hw1, c2, ?_⟩
          · rw [h2]
            simp only [hw1]
            cases encItems τ m.worker v with
            | error e => rfl
            | ok q => obtain ⟨b, j⟩ := q; simp [appN]; omega
          · rw [hr2]; simp [hr1]
  | _ => simp only [encItems]; exact ⟨_, rfl, rfl, _, hself⟩

theorem pairs_succ {n : Nat} (ih : SerOk τ n) (m : M) (i : Nat) (c : Clo) (out : Bytes) (k : Nat)
    (hr : m.roots[i]? = some c) (hn : 6 * sz c + 1 ≤ n + 1) :
    ∃ m', pairsSer τ (n + 1) i out k m = (appN out k (encPairs τ m.worker c), m') ∧ m'.worker = m.worker ∧
      ∃ c' ext, m'.roots = m.roots.set i c' ++ ext ∧ ((∃ r, encPairs τ m.worker c = .ok r) → ext = []) := by
  have hi : i < m.roots.length := (List.getElem?_eq_some_iff.1 hr).1
  have hself : m.roots = m.roots.set i c ++ [] := by simp [set_self hr]
  simp only [pairsSer, bind_ok (get_run hr), bind_ok (deref_run c)]
  cases c with
  | nil => simp only [encPairs]; exact ⟨m, by simp [appN], rfl, _, _, hself, fun _ => rfl⟩
  | cons p t =>
    rw [encPairs]
    simp only [sz] at hn
    simp only [bind_ok (handle_run _), bind_ok (set_run hi)]
    obtain ⟨e, hf⟩ := force_run (m := { m with roots := m.roots.set i t }) p
    simp only at hf
    cases he : eval m.worker p none with
    | mk x r =>
      rw [he] at hf
      cases x with
      | error x =>
        rw [bind_err hf]
        exact ⟨_, rfl, rfl, t, [], by simp, fun _ => rfl⟩
      | ok p' =>
        rw [bind_ok hf]
        simp only
        rw [bind_ok (push_run (m := { m with roots := m.roots.set i t, epoch := e, reg := r }) p')]
        have hg : (m.roots.set i t ++ [p'])[(m.roots.set i t).length]? = some p' := by simp
        have hg' := get_run (m := ⟨e, m.roots.set i t ++ [p'], r, m.worker⟩) hg
        rw [bind_ok hg']
        rw [bind_ok (deref_run (m := ⟨e, m.roots.set i t ++ [p'], r, m.worker⟩) p')]
        cases hk : (field p' 0).bind asNative with
        | none => exact ⟨_, rfl, rfl, t, [p'], rfl, fun h => by obtain ⟨_, h⟩ := h; cases h⟩
        | some key =>
          simp only [orElse]
          rw [bind_ok (lift_run _)]
          cases hs : encScalar τ key with
          | error x => exact ⟨_, rfl, rfl, t, [p'], rfl, fun h => by obtain ⟨_, h⟩ := h; cases h⟩
          | ok kb =>
            rw [bind_ok (lift_run _), bind_ok hg',
              bind_ok (deref_run (m := ⟨e, m.roots.set i t ++ [p'], r, m.worker⟩) p')]
            cases hv : field p' 1 with
            | none => exact ⟨_, rfl, rfl, t, [p'], rfl, fun h => by obtain ⟨_, h⟩ := h; cases h⟩
            | some v =>
              simp only
              rw [bind_ok (lift_run _), bind_ok (handle_run _)]
              have hsz := (eval_sz _ _ _ _ _ he).1
              have hszf := field_sz hv
              obtain ⟨m1, h1, hw1, hr1⟩ := ih.force ⟨e, m.roots.set i t ++ [p'], r, m.worker⟩ v (out ++ kb) (by omega)
              simp only at h1 hw1 hr1
              cases hx : enc τ m.worker v with
              | error x =>
                rw [hx] at h1
                rw [bind_err h1]
                exact ⟨_, rfl, hw1, t, [p'], hr1, fun h => by obtain ⟨_, h⟩ := h; cases h⟩
              | ok a =>
                rw [hx] at h1
                rw [bind_ok h1]
                have htr : rootTruncate (m.roots.set i t).length m1 = (.ok (), { m1 with roots := m.roots.set i t }) := by
                  simp [rootTruncate, hr1]
                rw [bind_ok htr]
                have hg2 : ({ m1 with roots := m.roots.set i t } : M).roots[i]? = some t := by
                  simp [hi]
                rw [bind_ok (get_run hg2)]
                obtain ⟨e2, hf2⟩ := force_run (m := { m1 with roots := m.roots.set i t }) t
                simp only [hw1] at hf2
                simp only
                cases he2 : eval m.worker t none with
                | mk x r2 =>
                  rw [he2] at hf2
                  cases x with
                  | error x =>
                    rw [← hw1] at hf2
                    rw [bind_err hf2]
                    exact ⟨_, rfl, hw1, t, [], by simp, fun h => by obtain ⟨_, h⟩ := h; cases h⟩
                  | ok t' =>
                    rw [← hw1] at hf2
                    rw [bind_ok hf2]
                    have hs2 := set_run (m := { m1 with roots := m.roots.set i t, epoch := e2, reg := r2 }) (i := i) (c := t')
                      (by simpa using hi)
                    simp only at hs2
                    rw [bind_ok hs2]
                    have hsz2 := (eval_sz _ _ _ _ _ he2).1
                    obtain ⟨m', h2, hw2, c2, ext, hr2, hext⟩ := ih.pairs
                      { m1 with epoch := e2, reg := r2, roots := (m.roots.set i t).set i t' } i t' (out ++ kb ++ a)
                      (k + 1) (by simp [hi]) (by omega)
                    refine ⟨m', ?_, hw2.trans hw1, c2, ext, ?_, ?_⟩
                    · rw [h2]
                      simp only [hw1]
                      cases encPairs τ m.worker t' with
                      | error e => rfl
                      | ok q => obtain ⟨b, j⟩ := q; simp [appN]; omega
                    · rw [hr2]; simp
                    · intro h
                      apply hext
                      simp only [hw1]
                      cases hq : encPairs τ m.worker t' with
                      | error e => obtain ⟨_, h⟩ := h; dsimp only at h; rw [hq] at h; cases h
                      | ok q => exact ⟨q, rfl⟩
  | _ => simp only [encPairs]; exact ⟨_, rfl, rfl, _, [], hself, fun _ => rfl⟩

theorem serOk (τ : Texts) : ∀ n, SerOk τ n
  | 0 => serOk_zero τ
  | n + 1 =>
    have ih := serOk τ n
    ⟨force_succ ih, slot_succ ih, forced_succ ih, items_succ ih, pairs_succ ih, list_succ ih, block_succ ih⟩

/-- The machine copies a value as `enc` says, and is left as it was. -/
theorem ser_enc (τ : Texts) (n : Nat) (m : M) (c : Clo) (out : Bytes) (h : 6 * sz c + 5 ≤ n) :
    ∃ m', forceSer τ n ⟨m.epoch, c⟩ out m = (app out (enc τ m.worker c), m') ∧ Same m m' :=
  (serOk τ n).force m c out h

end Verif.Par
