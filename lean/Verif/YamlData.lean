import Verif.YamlMean

/-!
# Proofs only.

Scalars mean what they say; with data only nothing is there to be evaluated.
-/

namespace Verif.Yaml

mutual
theorem lc_close (ps : List Text) : ∀ (d : Nat) (e : Exp), lc d e → lc (d + 1) (close ps d e)
  | d, .var (.free x), _ => by
    rw [close, closeVar]
    cases position ps x with
    | some i => show lc _ (.var (.bound d i x)); rw [lc]; omega
    | none => show lc _ (.var (.free x)); rw [lc]; trivial
  | d, .var (.bound s i n), h => by
    rw [lc] at h
    rw [close, closeVar, if_neg (by omega), lc]; omega
  | d, .lit p, _ => by rw [close, lc]; trivial
  | d, .letE ms vs b f, h => by
    rw [lc] at h
    rw [close, lc]
    exact ⟨lcL_close ps (d + 1) vs h.1, lc_close ps (d + 1) b h.2⟩
  | d, .lam qs b, h => by rw [lc] at h; rw [close, lc]; exact lc_close ps (d + 1) b h
  | d, .node k xs, h => by rw [lc] at h; rw [close, lc]; exact lcL_close ps d xs h
theorem lcL_close (ps : List Text) : ∀ (d : Nat) (es : List Exp), lcL d es → lcL (d + 1) (closeL ps d es)
  | d, [], _ => trivial
  | d, x :: xs, h => by
    rw [lcL] at h
    rw [closeL, lcL]
    exact ⟨lc_close ps d x h.1, lcL_close ps d xs h.2⟩
end

noncomputable def scOf (o : Outside Ev) (b : Bool) : Sc := scalarMeans (infer o) o.eu (fnOf o) b

theorem fromToken_eq (h c : Text) :
    fromToken (h, c) = if h = ['!', '!'] then coreTag c else some (.general h c) := rfl

theorem tag_eq (token : Option (Text × Text)) (self : Tag) :
    (token.bind fromToken).getD self = match token with
    | none => self
    | some (h, c) => if h = ['!', '!'] then (coreTag c).getD self else .general h c := by
  cases token with
  | none => rfl
  | some p =>
    obtain ⟨h, c⟩ := p
    show (fromToken (h, c)).getD self = _
    rw [fromToken_eq]
    dsimp only
    split <;> rfl

theorem agrees_tag (o : Outside Ev) (b : Bool) (t : Text) (g : Tag) :
    match tagMeans o.eu (fnOf o) b t g with
    | some y => convertTag o b t g = .ok (enc [] y)
    | none => ∃ er, convertTag o b t g = .error er := by
  cases g with
  | null => rfl
  | bool =>
    show Except.ok _ = Except.ok _
    congr 3
    unfold parseBool
    apply decide_eq_decide.mpr
    simp only [List.mem_cons, List.not_mem_nil, or_false]
    tauto
  | str => rfl
  | int =>
    rw [tagMeans, convertTag]
    by_cases h : JsonNumber t
    · rw [if_pos h, if_pos ((pat_json t).mpr h)]; rfl
    · rw [if_neg h, if_neg (fun k => h ((pat_json t).mp k))]; exact ⟨_, rfl⟩
  | float =>
    rw [tagMeans, convertTag]
    by_cases h : JsonNumber t
    · rw [if_pos h, if_pos ((pat_json t).mpr h)]; rfl
    · rw [if_neg h, if_neg (fun k => h ((pat_json t).mp k))]; exact ⟨_, rfl⟩
  | timestamp => cases b <;> rfl
  | general h c =>
    rw [tagMeans, convertTag]
    unfold tagEu tagEuFn tagEuSuppress
    by_cases h1 : c = ['e', 'u']
    · cases b with
      | true => simp [h1, enc]
      | false =>
        cases ho : o.eu t with
        | none => simp [h1]
        | some e => simp [h1, enc, resolve_nil]
    · by_cases h2 : c = ['e', 'u', ':', ':', 'f', 'n']
      · cases b with
        | true => simp [h2, enc]
        | false =>
          cases ho : o.euFn t with
          | none => simp [h2, fnOf, ho]
          | some e => simp [h2, enc, resolve_nil, fnOf, ho]
      · by_cases h3 : c = ['e', 'u', ':', ':', 's', 'u', 'p', 'p', 'r', 'e', 's', 's']
        · simp [h3]; rfl
        · simp [h1, h2, h3]; rfl

theorem agrees (o : Outside Ev) (b : Bool) : Agrees o b (scOf o b) := by
  intro t p g
  unfold scOf scalarMeans convertScalar
  rw [tag_eq]
  exact agrees_tag o b t _

theorem tag_fit (o : Outside Ev) (b : Bool) (hc : Closed o) (NC : Prop)
    (hn : NC → b = true ∨ ∀ t, o.eu t = none ∧ o.euFn t = none) (t : Text) (g : Tag) (y : Y)
    (h : tagMeans o.eu (fnOf o) b t g = some y) : Fit NC y := by
  have htriv : ∀ z, (∀ e, z ≠ .code e) → (∀ l, z ≠ .list l) → (∀ k v, z ≠ .map k v) → Fit NC z := by
    intro z h1 h2 h3
    cases z with
    | code e => exact absurd rfl (h1 e)
    | list l => exact absurd rfl (h2 l)
    | map k v => exact absurd rfl (h3 k v)
    | _ => exact ⟨trivial, fun _ => trivial⟩
  cases g with
  | general hd c =>
    rw [tagMeans] at h
    split at h
    · split at h
      · cases h; exact htriv _ (by simp) (by simp) (by simp)
      · rename_i hb
        cases ho : o.eu t with
        | none => rw [ho] at h; cases h
        | some e =>
          rw [ho] at h
          cases h
          refine ⟨?_, fun n => ?_⟩
          · rw [good]; exact hc.1 t e ho
          · rcases hn n with k | k
            · exact absurd k hb
            · rw [(k t).1] at ho; cases ho
    · split at h
      · split at h
        · cases h; exact htriv _ (by simp) (by simp) (by simp)
        · rename_i hb
          unfold fnOf at h
          cases ho : o.euFn t with
          | none => rw [ho] at h; cases h
          | some e =>
            rw [ho] at h
            cases h
            refine ⟨?_, fun n => ?_⟩
            · rw [good]
              show lc 0 (.lam e.1 (close e.1 0 e.2))
              rw [lc]
              exact lc_close e.1 0 e.2 (hc.2 t e.1 e.2 ho)
            · rcases hn n with k | k
              · exact absurd k hb
              · rw [(k t).2] at ho; cases ho
      · split at h
        · cases h; exact htriv _ (by simp) (by simp) (by simp)
        · cases h; exact htriv _ (by simp) (by simp) (by simp)
  | int => rw [tagMeans] at h; split at h <;> cases h; exact htriv _ (by simp) (by simp) (by simp)
  | float => rw [tagMeans] at h; split at h <;> cases h; exact htriv _ (by simp) (by simp) (by simp)
  | timestamp =>
    rw [tagMeans] at h
    split at h <;> cases h <;> exact htriv _ (by simp) (by simp) (by simp)
  | _ => cases h; exact htriv _ (by simp) (by simp) (by simp)

theorem sc_fit (o : Outside Ev) (b : Bool) (hc : Closed o) (NC : Prop)
    (hn : NC → b = true ∨ ∀ t, o.eu t = none ∧ o.euFn t = none) : FitSc NC (scOf o b) := by
  intro t p g y h
  exact tag_fit o b hc NC hn t _ y h

/-! ## Data only -/

theorem inertL_iff (es : List Exp) : InertL es ↔ ∀ e ∈ es, Inert e := by
  induction es with
  | nil => simp [InertL]
  | cons e es ih => rw [InertL, ih]; simp

mutual
theorem inert_close (ns : List Text) : ∀ (d : Nat) (e : Exp), Inert e → Inert (close ns d e)
  | d, .var (.free x), h => by rw [Inert] at h; exact h.elim
  | d, .var (.bound s i n), _ => by
    rw [close, closeVar]
    split <;> (rw [Inert]; trivial)
  | d, .lit p, _ => by rw [close, Inert]; trivial
  | d, .letE ms vs b f, h => by
    rw [Inert] at h
    rw [close, Inert]
    exact ⟨inertL_close ns (d + 1) vs h.1, inert_close ns (d + 1) b h.2⟩
  | d, .lam qs b, h => by rw [Inert] at h; exact h.elim
  | d, .node .list xs, h => by rw [Inert] at h; rw [close, Inert]; exact inertL_close ns d xs h
  | d, .node (.block ks) xs, h => by rw [Inert] at h; rw [close, Inert]; exact inertL_close ns d xs h
  | d, .node .withMeta xs, h => by rw [Inert] at h; rw [close, Inert]; exact inertL_close ns d xs h
  | d, .node .app xs, h => by rw [Inert] at h; exact h.elim
  | d, .node (.bif _) xs, h => by rw [Inert] at h; exact h.elim
  | d, .node (.other _) xs, h => by rw [Inert] at h; exact h.elim
theorem inertL_close (ns : List Text) : ∀ (d : Nat) (es : List Exp), InertL es → InertL (closeL ns d es)
  | d, [], _ => trivial
  | d, x :: xs, h => by
    rw [InertL] at h
    rw [closeL, InertL]
    exact ⟨inert_close ns d x h.1, inertL_close ns d xs h.2⟩
end

theorem insertKey_mem (k : Text) (v : Exp) : ∀ (m : List (Text × Exp)), ∀ p ∈ insertKey k v m,
    p = (k, v) ∨ p ∈ m
  | [], p, h => by rw [insertKey, List.mem_singleton] at h; exact Or.inl h
  | (k', v') :: r, p, h => by
    rw [insertKey] at h
    split at h
    · rcases List.mem_cons.mp h with h | h
      · exact Or.inl h
      · exact Or.inr (List.mem_cons_of_mem _ h)
    · rcases List.mem_cons.mp h with h | h
      · exact Or.inr (h ▸ List.mem_cons_self)
      · rcases insertKey_mem k v r p h with h | h
        · exact Or.inl h
        · exact Or.inr (List.mem_cons_of_mem _ h)

theorem collect_mem : ∀ (kvs m : List (Text × Exp)),
    ∀ p ∈ kvs.foldl (fun m kv => insertKey kv.1 kv.2 m) m, p ∈ kvs ∨ p ∈ m
  | [], m, p, h => Or.inr h
  | kv :: kvs, m, p, h => by
    rw [List.foldl_cons] at h
    rcases collect_mem kvs _ p h with h | h
    · exact Or.inl (List.mem_cons_of_mem _ h)
    · rcases insertKey_mem kv.1 kv.2 m p h with h | h
      · exact Or.inl (h ▸ List.mem_cons_self)
      · exact Or.inr h

theorem blockE_vals {P : Exp → Prop} (kvs : List (Text × Exp)) (h : ∀ p ∈ kvs, P p.2) :
    ∃ ks vs, blockE kvs = .node (.block ks) vs ∧ ∀ e ∈ vs, P e := by
  refine ⟨_, _, rfl, ?_⟩
  intro e he
  obtain ⟨p, hp, rfl⟩ := List.mem_map.mp he
  rcases collect_mem kvs [] p hp with hp | hp
  · exact h p hp
  · simp at hp

theorem inert_block (kvs : List (Text × Exp)) (h : ∀ p ∈ kvs, Inert p.2) : Inert (blockE kvs) := by
  obtain ⟨ks, vs, he, hv⟩ := blockE_vals kvs h
  rw [he, Inert, inertL_iff]
  exact hv

theorem position_some (ns : List Text) (x : Text) (h : x ∈ ns) : ∃ i, position ns x = some i := by
  induction ns with
  | nil => simp at h
  | cons n ns ih =>
    rw [position]
    by_cases e : n = x
    · rw [if_pos e]; exact ⟨0, rfl⟩
    · rw [if_neg e]
      rcases List.mem_cons.mp h with h | h
      · exact absurd h.symm e
      · obtain ⟨i, hi⟩ := ih h
        rw [hi]; exact ⟨i + 1, rfl⟩

theorem inertL_names (ns : List Text) : ∀ (vs : List Exp), (∀ e ∈ vs, ∃ n ∈ ns, e = .var (.free n)) →
    InertL (closeL ns 0 vs)
  | [], _ => trivial
  | v :: vs, h => by
    obtain ⟨n, hn, rfl⟩ := h v List.mem_cons_self
    rw [closeL, close, closeVar, InertL]
    obtain ⟨i, hi⟩ := position_some ns n hn
    rw [hi]
    refine ⟨?_, inertL_names ns vs fun e he => h e (List.mem_cons_of_mem _ he)⟩
    show Inert (.var (.bound 0 i n))
    rw [Inert]; trivial

theorem inert_let (kvs : List (Text × Exp)) (h : ∀ p ∈ kvs, Inert p.2) : Inert (defaultLet kvs) := by
  unfold defaultLet
  dsimp only
  rw [Inert]
  refine ⟨inertL_close _ 0 _ ((inertL_iff _).mpr fun e he => ?_), ?_⟩
  · obtain ⟨p, hp, rfl⟩ := List.mem_map.mp he
    exact h p hp
  · obtain ⟨ks, vs, he, hv⟩ := blockE_vals (P := fun e => ∃ n ∈ kvs.map (·.1), e = .var (.free n))
      ((kvs.map (·.1)).map fun n => (n, .var (.free n))) (by
        intro p hp
        obtain ⟨n, hn, rfl⟩ := List.mem_map.mp hp
        exact ⟨n, hn, rfl⟩)
    rw [he, close, Inert]
    exact inertL_names _ vs hv

theorem inert_scalar (o : Outside Ev) (t : Text) (p : Bool) (g : Option (Text × Text)) (e : Exp)
    (h : convertScalar o true t p g = .ok e) : Inert e := by
  unfold convertScalar at h
  generalize (g.bind fromToken).getD (if p then infer o t else .str) = tag at h
  have hlit : ∀ q, Inert (.lit q) := fun q => by rw [Inert]; trivial
  cases tag with
  | general hd c =>
    rw [convertTag, if_neg (by simp), if_neg (by simp)] at h
    split at h
    · cases h; exact hlit _
    · split at h
      · cases h
        unfold suppressMeta
        rw [Inert, InertL, InertL, InertL]
        exact ⟨hlit _, inert_block _ (by simp [hlit]), trivial⟩
      · cases h
        unfold tagMeta
        rw [Inert, InertL, InertL, InertL]
        exact ⟨hlit _, inert_block _ (by simp [hlit]), trivial⟩
  | int => rw [convertTag] at h; split at h <;> cases h; exact hlit _
  | float => rw [convertTag] at h; split at h <;> cases h; exact hlit _
  | timestamp => rw [convertTag, if_pos rfl] at h; cases h; exact hlit _
  | _ => cases h; exact hlit _

mutual
theorem inert_extract : ∀ (e : Exp), Inert e → ∀ ms, extract e = .ok ms → ∀ p ∈ ms, Inert p.2
  | .letE ns vs b true, h, ms, he, p, hp => by
    rw [Inert] at h
    rw [extract] at he
    cases he
    exact (inertL_iff vs).mp h.1 p.2 (List.of_mem_zip hp).2
  | .letE ns vs b false, h, ms, he, p, hp => by rw [extract] at he <;> simp_all
  | .node .list xs, h, ms, he, p, hp => by
    rw [Inert] at h
    rw [extract] at he
    exact inert_extractL xs h [] (by simp) ms he p hp
  | .node (.block _) xs, h, ms, he, p, hp => by rw [extract] at he <;> simp_all
  | .node .withMeta xs, h, ms, he, p, hp => by rw [extract] at he <;> simp_all
  | .node .app xs, h, ms, he, p, hp => by rw [extract] at he <;> simp_all
  | .node (.bif _) xs, h, ms, he, p, hp => by rw [extract] at he <;> simp_all
  | .node (.other _) xs, h, ms, he, p, hp => by rw [extract] at he <;> simp_all
  | .var v, h, ms, he, p, hp => by rw [extract] at he <;> simp_all
  | .lit v, h, ms, he, p, hp => by rw [extract] at he <;> simp_all
  | .lam ps v, h, ms, he, p, hp => by rw [extract] at he <;> simp_all
theorem inert_extractL : ∀ (xs : List Exp), InertL xs → ∀ (acc : List (Text × Exp)), (∀ p ∈ acc, Inert p.2) →
    ∀ ms, extractL xs acc = .ok ms → ∀ p ∈ ms, Inert p.2
  | [], _, acc, ha, ms, he, p, hp => by rw [extractL] at he; cases he; exact ha p hp
  | x :: xs, h, acc, ha, ms, he, p, hp => by
    rw [InertL] at h
    rw [extractL] at he
    cases hx : extract x with
    | error er => rw [hx] at he; cases he
    | ok es =>
      rw [hx] at he
      refine inert_extractL xs h.2 _ ?_ ms he p hp
      have hes := inert_extract x h.1 es hx
      clear he hx hp
      induction es generalizing acc with
      | nil => exact ha
      | cons q es ih =>
        rw [List.foldl_cons]
        refine ih _ ?_ (fun r hr => hes r (List.mem_cons_of_mem _ hr))
        intro r hr
        rcases List.mem_append.mp hr with hr | hr
        · exact ha r (List.mem_filter.mp hr).1
        · rw [List.mem_singleton] at hr; rw [hr]; exact hes q List.mem_cons_self
end

def Expect.inert : Expect → Prop
  | .value e => Inert e
  | .list items _ => ∀ e ∈ items, Inert e
  | .even es _ => ∀ p ∈ es, Inert p.2
  | .odd es _ _ => ∀ p ∈ es, Inert p.2

def Receiver.inert (r : Receiver) : Prop := (∀ x ∈ r.stack, x.inert) ∧ ∀ p ∈ r.anchors, Inert p.2

theorem inert_override (es : List (Text × Exp)) (k : Text) (e : Exp) (h : ∀ p ∈ es, Inert p.2) (he : Inert e) :
    ∀ p ∈ override es k e, Inert p.2 := by
  intro r hr
  rcases List.mem_append.mp hr with hr | hr
  · exact h r (List.mem_filter.mp hr).1
  · rw [List.mem_singleton] at hr; rw [hr]; exact he

theorem inert_addAll (ms : List (Text × Exp)) : ∀ (es : List (Text × Exp)), (∀ p ∈ es, Inert p.2) →
    (∀ p ∈ ms, Inert p.2) → ∀ p ∈ ms.foldl (fun es p => addNew es p.1 p.2) es, Inert p.2 := by
  induction ms with
  | nil => intro es h _; exact h
  | cons m ms ih =>
    intro es h hm
    rw [List.foldl_cons]
    refine ih _ ?_ (fun r hr => hm r (List.mem_cons_of_mem _ hr))
    unfold addNew
    split
    · exact h
    · intro r hr
      rcases List.mem_append.mp hr with hr | hr
      · exact h r hr
      · rw [List.mem_singleton] at hr; rw [hr]; exact hm m List.mem_cons_self

theorem inert_expect_feed (e : Exp) (he : Inert e) (x : Expect) (hx : x.inert) (y : Expect)
    (h : x.feed e = .ok y) : y.inert := by
  cases x with
  | value _ => cases h; exact he
  | list items a =>
    cases h
    intro z hz
    rcases List.mem_append.mp hz with hz | hz
    · exact hx z hz
    · rw [List.mem_singleton] at hz; rw [hz]; exact he
  | even es a =>
    unfold Expect.feed at h
    dsimp only at h
    split at h
    · cases h; exact hx
    · cases h; exact hx
    · cases h
  | odd es k a => cases h; exact inert_override es k e hx he

theorem inert_feed (r : Receiver) (hr : r.inert) (e : Exp) (he : Inert e) : (r.feed e).inert := by
  obtain ⟨st, an, er⟩ := r
  obtain ⟨h1, h2⟩ := hr
  dsimp only at h1 h2
  unfold Receiver.feed
  cases st with
  | nil => exact ⟨by intro x hx; rw [List.mem_singleton] at hx; rw [hx]; exact he, h2⟩
  | cons x rest =>
    have hx := h1 x List.mem_cons_self
    have hrest : ∀ z ∈ rest, z.inert := fun z hz => h1 z (List.mem_cons_of_mem _ hz)
    dsimp only
    have key : ∀ res : Except Err Expect, (∀ y, res = .ok y → y.inert) →
        (match res with
          | .ok y => (⟨y :: rest, an, er⟩ : Receiver)
          | .error er => ⟨rest, an, some er⟩).inert := by
      intro res hres
      cases res with
      | error _ => exact ⟨hrest, h2⟩
      | ok y =>
        refine ⟨?_, h2⟩
        intro z hz
        rcases List.mem_cons.mp hz with hz | hz
        · rw [hz]; exact hres y rfl
        · exact hrest z hz
    apply key
    intro y hy
    cases x with
    | odd es k a =>
      dsimp only at hy
      split at hy
      · unfold handleMerge at hy
        cases hm : extract e with
        | error _ => rw [hm] at hy; cases hy
        | ok ms =>
          rw [hm] at hy
          cases hy
          exact inert_addAll ms es hx (inert_extract e he ms hm)
      · exact inert_expect_feed e he _ hx y hy
    | _ => exact inert_expect_feed e he _ hx y hy

theorem inert_put (an : List (Nat × Exp)) (i : Nat) (e : Exp) (h : ∀ p ∈ an, Inert p.2) (he : Inert e) :
    ∀ p ∈ putAnchor an i e, Inert p.2 := by
  unfold putAnchor
  split
  · exact h
  · intro p hp
    rcases List.mem_cons.mp hp with hp | hp
    · rw [hp]; exact he
    · exact h p hp

theorem inert_event (o : Outside Ev) (r : Receiver) (hr : r.inert) (ev : Ev) (r' : Receiver)
    (h : r.onEvent o true ev = some r') : r'.inert := by
  unfold Receiver.onEvent at h
  split at h
  · cases h; exact hr
  cases ev with
  | other => cases h; exact hr
  | «alias» i =>
    dsimp only at h
    cases hg : getAnchor r.anchors i with
    | none => rw [hg] at h; cases h; exact hr
    | some e =>
      rw [hg] at h
      cases h
      refine inert_feed r hr e ?_
      unfold getAnchor at hg
      cases hf : r.anchors.find? (fun p => p.1 == i) with
      | none => rw [hf] at hg; cases hg
      | some p => rw [hf] at hg; cases hg; exact hr.2 p (List.mem_of_find?_eq_some hf)
  | scalar t p a g =>
    dsimp only at h
    split at h
    · cases h
      exact inert_feed r hr _ (by rw [Inert]; trivial)
    · cases hc : convertScalar o true t p g with
      | error er => rw [hc] at h; cases h; exact hr
      | ok e =>
        rw [hc] at h
        cases h
        have he := inert_scalar o t p g e hc
        exact inert_feed ⟨r.stack, putAnchor r.anchors a e, r.error⟩ ⟨hr.1, inert_put _ a e hr.2 he⟩ e he
  | seqStart a =>
    cases h
    refine ⟨?_, hr.2⟩
    intro x hx
    rcases List.mem_cons.mp hx with hx | hx
    · rw [hx]; exact fun e he => by simp at he
    · exact hr.1 x hx
  | mapStart a =>
    cases h
    refine ⟨?_, hr.2⟩
    intro x hx
    rcases List.mem_cons.mp hx with hx | hx
    · rw [hx]; exact fun e he => by simp at he
    · exact hr.1 x hx
  | seqEnd =>
    dsimp only at h
    split at h
    · rename_i items a rest hst
      cases h
      have hi : Inert (listE items) := by
        unfold listE
        rw [Inert, inertL_iff]
        exact hr.1 (.list items a) (by rw [hst]; exact List.mem_cons_self)
      exact inert_feed ⟨rest, putAnchor r.anchors a _, r.error⟩
        ⟨fun x hx => hr.1 x (by rw [hst]; exact List.mem_cons_of_mem _ hx), inert_put _ a _ hr.2 hi⟩ _ hi
    · cases h
  | mapEnd =>
    dsimp only at h
    split at h
    · rename_i es a rest hst
      cases h
      have hi : Inert (defaultLet es) :=
        inert_let es (hr.1 (.even es a) (by rw [hst]; exact List.mem_cons_self))
      exact inert_feed ⟨rest, putAnchor r.anchors a _, r.error⟩
        ⟨fun x hx => hr.1 x (by rw [hst]; exact List.mem_cons_of_mem _ hx), inert_put _ a _ hr.2 hi⟩ _ hi
    · cases h

theorem inert_run (o : Outside Ev) : ∀ (evs : List Ev) (r : Receiver), r.inert → ∀ r',
    runEvents o true r evs = some r' → r'.inert
  | [], r, hr, r', h => by cases h; exact hr
  | ev :: evs, r, hr, r', h => by
    rw [runEvents] at h
    cases he : r.onEvent o true ev with
    | none => rw [he] at h; cases h
    | some q => rw [he] at h; exact inert_run o evs q (inert_event o r hr ev q he) r' h

theorem inert_yaml (o : Outside Ev) (t : Text) (e : Exp) (h : readYaml o true t = .ok e) : Inert e := by
  unfold readYaml at h
  cases hs : o.scan t with
  | none => rw [hs] at h; cases h
  | some evs =>
    rw [hs] at h
    dsimp only at h
    unfold readEvents at h
    cases hr : runEvents o true {} evs with
    | none => rw [hr] at h; cases h
    | some r =>
      rw [hr] at h
      have hi := inert_run o evs {} ⟨by simp, by simp⟩ r hr
      dsimp only at h
      cases hre : r.error with
      | some _ => rw [hre] at h; cases h
      | none =>
        rw [hre] at h
        cases h
        unfold Receiver.core
        split
        · rename_i e rest hst
          exact hi.1 (.value e) (by rw [hst]; exact List.mem_cons_self)
        · exact inert_block [] (by simp)

mutual
theorem inert_toml : ∀ (v : Toml) (e : Exp), tomlCore true v = .ok e → Inert e
  | .str _, e, h => by cases h; rw [Inert]; trivial
  | .int _, e, h => by cases h; rw [Inert]; trivial
  | .float (some _), e, h => by cases h; rw [Inert]; trivial
  | .float none, e, h => by cases h
  | .bool _, e, h => by cases h; rw [Inert]; trivial
  | .datetime _, e, h => by rw [tomlCore, if_pos rfl] at h; cases h; rw [Inert]; trivial
  | .array xs, e, h => by
    rw [tomlCore] at h
    cases hx : tomlCoreL true xs with
    | error _ => rw [hx] at h; cases h
    | ok es =>
      rw [hx] at h
      cases h
      unfold listE
      rw [Inert, inertL_iff]
      exact inert_tomlL xs es hx
  | .table ks vs, e, h => by
    rw [tomlCore] at h
    cases hx : tomlCoreL true vs with
    | error _ => rw [hx] at h; cases h
    | ok es =>
      rw [hx] at h
      cases h
      exact inert_block _ fun p hp => inert_tomlL vs es hx p.2 (List.of_mem_zip hp).2
theorem inert_tomlL : ∀ (vs : List Toml) (es : List Exp), tomlCoreL true vs = .ok es → ∀ e ∈ es, Inert e
  | [], es, h, e, he => by cases h; simp at he
  | v :: vs, es, h, e, he => by
    rw [tomlCoreL] at h
    cases hv : tomlCore true v with
    | error _ => rw [hv] at h; cases h
    | ok x =>
      rw [hv] at h
      cases hx : tomlCoreL true vs with
      | error _ => rw [hx] at h; cases h
      | ok xs =>
        rw [hx] at h
        cases h
        rcases List.mem_cons.mp he with he | he
        · rw [he]; exact inert_toml v x hv
        · exact inert_tomlL vs xs hx e he
end

theorem inert_tagBlock (t : Text) : Inert (tagBlock t) :=
  inert_block _ (by intro p hp; rw [List.mem_singleton] at hp; rw [hp, Inert]; trivial)

mutual
theorem inert_edn : ∀ (v : Edn) (e : Exp), ednCore true v = .ok e → Inert e
  | .nil, e, h => by cases h; rw [Inert]; trivial
  | .bool _, e, h => by cases h; rw [Inert]; trivial
  | .char _, e, h => by cases h; rw [Inert]; trivial
  | .str _, e, h => by cases h; rw [Inert]; trivial
  | .symbol _, e, h => by cases h; rw [Inert]; trivial
  | .keyword _, e, h => by cases h; rw [Inert]; trivial
  | .int _, e, h => by cases h; rw [Inert]; trivial
  | .float (some _), e, h => by cases h; rw [Inert]; trivial
  | .float none, e, h => by cases h
  | .big _, e, h => by cases h
  | .list xs, e, h => by
    rw [ednCore] at h
    cases hx : ednCoreL true xs with
    | error _ => rw [hx] at h; cases h
    | ok es =>
      rw [hx] at h
      cases h
      unfold listE
      rw [Inert, inertL_iff]
      exact inert_ednL xs es hx
  | .map ks vs, e, h => by
    rw [ednCore] at h
    cases hk : ednKeys ks with
    | error _ => rw [hk] at h; cases h
    | ok ts =>
      rw [hk] at h
      dsimp only at h
      cases hx : ednCoreL true vs with
      | error _ => rw [hx] at h; cases h
      | ok es =>
        rw [hx] at h
        cases h
        exact inert_block _ fun p hp => inert_ednL vs es hx p.2 (List.of_mem_zip hp).2
  | .inst _, e, h => by rw [ednCore, if_pos rfl] at h; cases h; rw [Inert]; trivial
  | .uuid _, e, h => by
    cases h
    rw [Inert, InertL, InertL, InertL]
    exact ⟨by rw [Inert]; trivial, inert_tagBlock _, trivial⟩
  | .tagged t x, e, h => by
    rw [ednCore] at h
    cases hx : ednCore true x with
    | error _ => rw [hx] at h; cases h
    | ok y =>
      rw [hx] at h
      cases h
      rw [Inert, InertL, InertL, InertL]
      exact ⟨inert_edn x y hx, inert_tagBlock _, trivial⟩
theorem inert_ednL : ∀ (vs : List Edn) (es : List Exp), ednCoreL true vs = .ok es → ∀ e ∈ es, Inert e
  | [], es, h, e, he => by cases h; simp at he
  | v :: vs, es, h, e, he => by
    rw [ednCoreL] at h
    cases hv : ednCore true v with
    | error _ => rw [hv] at h; cases h
    | ok x =>
      rw [hv] at h
      cases hx : ednCoreL true vs with
      | error _ => rw [hx] at h; cases h
      | ok xs =>
        rw [hx] at h
        cases h
        rcases List.mem_cons.mp he with he | he
        · rw [he]; exact inert_edn v x hv
        · exact inert_ednL vs xs hx e he
end

theorem inert_csv (hs : List Text) (rs : List (List Text)) : Inert (readCsv hs rs) := by
  unfold readCsv listE
  rw [Inert, inertL_iff]
  intro e he
  obtain ⟨r, _, rfl⟩ := List.mem_map.mp he
  refine inert_block _ ?_
  intro p hp
  obtain ⟨q, _, rfl⟩ := List.mem_map.mp hp
  rw [Inert]; trivial

theorem inert_text (t : Text) : Inert (readText t) := by
  unfold readText listE
  rw [Inert, inertL_iff]
  intro e he
  obtain ⟨r, _, rfl⟩ := List.mem_map.mp he
  rw [Inert]; trivial

end Verif.Yaml
