import Verif.AnaProps

/-!
# Where the functions made by anaphora begin and end (C37, continued)
-/

namespace Verif.Ana

/-! ## Specification -/

mutual
/-- The expression anaphora of a cooked expression that no function inside it
takes as parameters, in order of appearance. -/
def freeExpr : Out → List Anaphor
  | .leaf _ _ | .op _ _ _ => []
  | .var _ (.expr a) => [a]
  | .var _ _ => []
  | .shunted _ xs => freeExprAll xs
  | .letE _ cs => freeExprAll cs
  | .node _ _ cs => freeExprAll cs
  | .lam ps b => (freeExpr b).filter fun a => !decide (Name.expr a ∈ ps)
def freeExprAll : List Out → List Anaphor
  | [] => []
  | x :: xs => freeExpr x ++ freeExprAll xs
end

/-- `ps` is the parameter list for the anaphora `as` (repeats count once). -/
def ParamsFor (as : List Anaphor) (ps : List Name) : Prop :=
  ∃ keys : List Anaphor, keys.Nodup ∧ (∀ a, a ∈ keys ↔ a ∈ as) ∧
    toBindingPattern Name.dummy (keys.map fun a => (a, Name.expr a)) = .ok ps

mutual
/-- `Cooked false e o`: outside any anaphoric expression, `e` means `o`: a
bracketed soup with anaphora among its own items becomes a function of all the
anaphora inside it, however deep.  `Cooked true e o`: inside such an
expression no further function is made. -/
inductive Cooked : Bool → Ex → Out → Prop
  | leaf {b s t} : Cooked b (.leaf s t) (.leaf s t)
  | op {b s f t} : Cooked b (.op s f t) (.op s f t)
  | anaphor {s a} : Cooked true (.eana s a) (.var s (.expr a))
  | letE {b s cs os} : CookedAll b cs os → Cooked b (.letE s cs) (.letE s os)
  | node {b s t cs os} : CookedAll b cs os → Cooked b (.node s t cs) (.node s t os)
  | inner {s xs br ys os} : fillGaps xs = .ok ys → CookedAll true ys os →
      Cooked true (.soup s xs br) (.shunted br os)
  | plain {s xs br ys os} : fillGaps xs = .ok ys → (∀ s a, Ex.eana s a ∉ ys) →
      CookedAll false ys os → Cooked false (.soup s xs br) (.shunted br os)
  | function {s xs br ys os ps} : fillGaps xs = .ok ys → (∃ s a, Ex.eana s a ∈ ys) →
      CookedAll true ys os → ParamsFor (freeExprAll os) ps →
      Cooked false (.soup s xs br) (.lam ps (.shunted br os))
inductive CookedAll : Bool → List Ex → List Out → Prop
  | nil {b} : CookedAll b [] []
  | cons {b x xs o os} : Cooked b x o → CookedAll b xs os → CookedAll b (x :: xs) (o :: os)
end

mutual
/-- No block anaphora. -/
def noBlock : Ex → Bool
  | .leaf _ _ | .op _ _ _ | .eana _ _ => true
  | .bana _ _ => false
  | .soup _ xs _ => noBlockAll xs
  | .letE _ cs => noBlockAll cs
  | .node _ _ cs => noBlockAll cs
def noBlockAll : List Ex → Bool
  | [] => true
  | x :: xs => noBlock x && noBlockAll xs
end

mutual
/-- Every expression anaphor is an item of some soup. -/
def direct : Ex → Bool
  | .leaf _ _ | .op _ _ _ | .bana _ _ => true
  | .eana _ _ => false
  | .soup _ xs _ => directItems xs
  | .letE _ cs => directAll cs
  | .node _ _ cs => directAll cs
def directAll : List Ex → Bool
  | [] => true
  | x :: xs => direct x && directAll xs
def directItems : List Ex → Bool
  | [] => true
  | x :: xs => (x.isAnaphor || direct x) && directItems xs
end

/-! ## Proof -/

theorem filler_kind {l r : Option Ex} {f : Option Ex} (h : filler l r = .ok f) :
    ∀ y ∈ f.toList, y.isAnaphor = true ∨ y = cat := by
  unfold filler at h
  split at h
  · cases h; simp
  · dsimp only at h
    split at h
    · cases h; simp [Ex.isAnaphor]
    · split at h
      · cases h; simp [Ex.isAnaphor]
      · cases h
  · cases h; simp

theorem fillFrom_mem : ∀ (xs ys : List Ex), fillFrom xs = .ok ys →
    ∀ y ∈ ys, y ∈ xs ∨ y.isAnaphor = true ∨ y = cat
  | [], ys, h => by cases h; simp
  | x :: xs, ys, h => by
    unfold fillFrom at h
    cases h1 : filler (some x) xs.head? with
    | error e => rw [h1] at h; cases h
    | ok f =>
      rw [h1] at h
      cases h2 : fillFrom xs with
      | error e => rw [h2] at h; cases h
      | ok zs =>
        rw [h2] at h
        cases h
        intro y hy
        rcases List.mem_cons.1 hy with rfl | hy
        · exact .inl (by simp)
        · rcases List.mem_append.1 hy with hy | hy
          · exact .inr (filler_kind h1 y hy)
          · rcases fillFrom_mem xs zs h2 y hy with h | h
            · exact .inl (by simp [h])
            · exact .inr h

theorem fillGaps_mem {xs ys : List Ex} (h : fillGaps xs = .ok ys) :
    ∀ y ∈ ys, y ∈ xs ∨ y.isAnaphor = true ∨ y = cat := by
  unfold fillGaps at h
  cases xs with
  | nil => cases h; simp
  | cons x xs =>
    dsimp only at h
    cases h1 : filler none (some x) with
    | error e => rw [h1] at h; cases h
    | ok f =>
      rw [h1] at h
      cases h2 : fillFrom (x :: xs) with
      | error e => rw [h2] at h; cases h
      | ok zs =>
        rw [h2] at h
        cases h
        intro y hy
        rcases List.mem_append.1 hy with hy | hy
        · exact .inr (filler_kind h1 y hy)
        · exact fillFrom_mem _ zs h2 y hy

theorem noBlockAll_iff : ∀ {xs : List Ex}, noBlockAll xs = true ↔ ∀ x ∈ xs, noBlock x = true
  | [] => by simp [noBlockAll]
  | x :: xs => by simp [noBlockAll, noBlockAll_iff (xs := xs)]

theorem directAll_iff : ∀ {xs : List Ex}, directAll xs = true ↔ ∀ x ∈ xs, direct x = true
  | [] => by simp [directAll]
  | x :: xs => by simp [directAll, directAll_iff (xs := xs)]

theorem directItems_iff : ∀ {xs : List Ex},
    directItems xs = true ↔ ∀ x ∈ xs, x.isAnaphor = true ∨ direct x = true
  | [] => by simp [directItems]
  | x :: xs => by simp [directItems, directItems_iff (xs := xs)]

theorem isAnaphor_iff {x : Ex} : x.isAnaphor = true ↔ ∃ s a, x = .eana s a := by
  cases x <;> simp [Ex.isAnaphor]

theorem noBlock_filled {xs ys : List Ex} (h : fillGaps xs = .ok ys) (hn : noBlockAll xs = true) :
    noBlockAll ys = true := by
  rw [noBlockAll_iff] at hn ⊢
  intro y hy
  rcases fillGaps_mem h y hy with h | h | rfl
  · exact hn y h
  · obtain ⟨s, a, rfl⟩ := isAnaphor_iff.1 h; rfl
  · rfl

theorem record_mem {a x : Anaphor} {as : List Anaphor} : x ∈ record a as ↔ x = a ∨ x ∈ as := by
  unfold record
  split
  · next h =>
    constructor
    · exact .inr
    · rintro (rfl | h')
      · exact h
      · exact h'
  · simp

theorem record_nodup {a : Anaphor} {as : List Anaphor} (h : as.Nodup) : (record a as).Nodup := by
  unfold record
  split
  · exact h
  · next h' => exact List.nodup_cons.2 ⟨h', h⟩

/-- What cooking does to the state inside an anaphoric expression. -/
def InPost (st st' : St) (fr : List Anaphor) : Prop :=
  st'.inScope = true ∧ st'.pb = [] ∧ st'.pe.Nodup ∧ ∀ a, a ∈ st'.pe ↔ a ∈ st.pe ∨ a ∈ fr

theorem wrap_ok {nm : Anaphor → Name} {as : List Anaphor} {b o : Out} (h : wrap nm as b = .ok o) :
    ∃ ps, toBindingPattern Name.dummy (as.map fun a => (a, nm a)) = .ok ps ∧ o = .lam ps b := by
  unfold wrap at h
  split at h
  · next ps hp => cases h; exact ⟨ps, hp, rfl⟩
  · cases h
  · cases h

theorem depth_mem : ∀ {xs : List Ex} {x : Ex}, x ∈ xs → x.depth ≤ depthAll xs
  | y :: ys, x, h => by
    simp only [depthAll]
    rcases List.mem_cons.1 h with rfl | h
    · omega
    · have := depth_mem h; omega

theorem by_depth {P : Ex → Prop} (h : ∀ e, (∀ x, x.depth < e.depth → P x) → P e) (e : Ex) : P e := by
  generalize hn : e.depth = n
  induction n using Nat.strongRecOn generalizing e with
  | ind n ih => subst hn; exact h e fun x hx => ih _ hx x rfl

/-- The claim `cook_in` makes about one expression. -/
def CookIn (e : Ex) : Prop := ∀ (st : St) (o : Out) (st' : St), cook st e = .ok (o, st') →
    noBlock e = true → st.pb = [] → st.inScope = true → st.pe.Nodup →
    Cooked true e o ∧ InPost st st' (freeExpr o)

theorem cookAll_in (xs : List Ex) (ih : ∀ x ∈ xs, CookIn x) (st : St) (os : List Out) (st' : St)
    (h : cookAll st xs = .ok (os, st'))
    (hb : noBlockAll xs = true) (hp : st.pb = []) (hi : st.inScope = true) (hn : st.pe.Nodup) :
    CookedAll true xs os ∧ InPost st st' (freeExprAll os) := by
  induction xs generalizing st os st' with
  | nil =>
    rw [cookAll] at h; cases h
    exact ⟨.nil, hi, hp, hn, by simp [freeExprAll]⟩
  | cons x xs ihx =>
    rw [cookAll] at h
    simp only [noBlockAll, Bool.and_eq_true] at hb
    cases h1 : cook st x with
    | error e => rw [h1] at h; cases h
    | ok r =>
      obtain ⟨o, st1⟩ := r
      rw [h1] at h
      dsimp only at h
      obtain ⟨h2, k1, k2, k3, k4⟩ := ih x (by simp) st o st1 h1 hb.1 hp hi hn
      cases h3 : cookAll st1 xs with
      | error e => rw [h3] at h; cases h
      | ok r =>
        obtain ⟨os1, st2⟩ := r
        rw [h3] at h
        cases h
        obtain ⟨h4, l1, l2, l3, l4⟩ := ihx (fun y hy => ih y (by simp [hy])) st1 os1 st' h3 hb.2 k2 k1 k3
        refine ⟨.cons h2 h4, l1, l2, l3, ?_⟩
        intro a
        rw [l4, k4, freeExprAll, List.mem_append, or_assoc]

theorem cook_in (e : Ex) : CookIn e := by
  refine by_depth (P := CookIn) (fun e ih => ?_) e
  intro st o st' h hb hp hi hn
  cases e with
  | leaf s t =>
    rw [cook] at h; cases h
    exact ⟨.leaf, hi, hp, hn, by simp [freeExpr]⟩
  | op s f t =>
    rw [cook] at h; cases h
    exact ⟨.op, hi, hp, hn, by simp [freeExpr]⟩
  | eana s a =>
    rw [cook] at h; cases h
    refine ⟨.anaphor, hi, hp, record_nodup hn, ?_⟩
    intro x; simp only [record_mem, freeExpr, List.mem_singleton]; exact Or.comm
  | bana s a => simp [noBlock] at hb
  | node s t cs =>
    rw [cook] at h
    cases h1 : cookAll st cs with
    | error e => rw [h1] at h; cases h
    | ok r =>
      obtain ⟨os, st1⟩ := r
      rw [h1] at h; cases h
      obtain ⟨h2, h3⟩ := cookAll_in cs (fun x hx => ih x (by have := depth_mem hx; simp only [Ex.depth]; omega)) st os st' h1 (by simpa [noBlock] using hb) hp hi hn
      exact ⟨.node h2, by simpa [freeExpr] using h3⟩
  | letE s cs =>
    rw [cook] at h
    cases h1 : cookAll st cs with
    | error e => rw [h1] at h; cases h
    | ok r =>
      obtain ⟨os, st1⟩ := r
      rw [h1] at h
      obtain ⟨h2, h3⟩ := cookAll_in cs (fun x hx => ih x (by have := depth_mem hx; simp only [Ex.depth]; omega)) st os st1 h1 (by simpa [noBlock] using hb) hp hi hn
      dsimp only at h
      rw [h3.2.1] at h
      simp only [List.isEmpty_nil, Bool.not_true, Bool.false_and, Bool.false_eq_true, if_false] at h
      cases h
      exact ⟨.letE h2, by simpa [freeExpr] using h3⟩
  | soup s xs br =>
    rw [cook] at h
    split at h
    · cases h
    · next filled hf =>
      dsimp only at h
      rw [hi] at h
      simp only [Bool.not_true, Bool.false_and, Bool.false_eq_true, if_false] at h
      cases h1 : cookAll st filled with
      | error e => rw [h1] at h; cases h
      | ok r =>
        obtain ⟨os, st1⟩ := r
        rw [h1] at h
        cases h
        obtain ⟨h2, h3⟩ := cookAll_in filled (fun x hx => ih x (by have := depth_mem hx; have := fillGaps_depth hf; simp only [Ex.depth]; omega)) st os st1 h1
          (noBlock_filled hf (by simpa [noBlock] using hb)) hp hi hn
        exact ⟨.inner hf h2, hi, h3.2.1, h3.2.2.1, by simpa [freeExpr] using h3.2.2.2⟩

/-- The claim `cook_out` makes about one expression. -/
def CookOut (e : Ex) : Prop := ∀ (o : Out) (st' : St), cook St.init e = .ok (o, st') →
    noBlock e = true → direct e = true → Cooked false e o ∧ st' = St.init

theorem cookAll_out (xs : List Ex) (ih : ∀ x ∈ xs, CookOut x) (os : List Out) (st' : St)
    (h : cookAll St.init xs = .ok (os, st'))
    (hb : noBlockAll xs = true) (hd : directAll xs = true) :
    CookedAll false xs os ∧ st' = St.init := by
  induction xs generalizing os st' with
  | nil => rw [cookAll] at h; cases h; exact ⟨.nil, rfl⟩
  | cons x xs ihx =>
    rw [cookAll] at h
    simp only [noBlockAll, Bool.and_eq_true] at hb
    simp only [directAll, Bool.and_eq_true] at hd
    cases h1 : cook St.init x with
    | error e => rw [h1] at h; cases h
    | ok r =>
      obtain ⟨o, st1⟩ := r
      rw [h1] at h
      dsimp only at h
      obtain ⟨h2, k1⟩ := ih x (by simp) o st1 h1 hb.1 hd.1
      subst k1
      cases h3 : cookAll St.init xs with
      | error e => rw [h3] at h; cases h
      | ok r =>
        obtain ⟨os1, st2⟩ := r
        rw [h3] at h
        cases h
        obtain ⟨h4, l1⟩ := ihx (fun y hy => ih y (by simp [hy])) os1 st' h3 hb.2 hd.2
        exact ⟨.cons h2 h4, l1⟩

theorem cook_out (e : Ex) : CookOut e := by
  refine by_depth (P := CookOut) (fun e ih => ?_) e
  intro o st' h hb hd
  cases e with
  | leaf s t => rw [cook] at h; cases h; exact ⟨.leaf, rfl⟩
  | op s f t => rw [cook] at h; cases h; exact ⟨.op, rfl⟩
  | eana s a => simp [direct] at hd
  | bana s a => simp [noBlock] at hb
  | node s t cs =>
    rw [cook] at h
    cases h1 : cookAll St.init cs with
    | error e => rw [h1] at h; cases h
    | ok r =>
      obtain ⟨os, st1⟩ := r
      rw [h1] at h; cases h
      obtain ⟨h2, h3⟩ := cookAll_out cs (fun x hx => ih x (by have := depth_mem hx; simp only [Ex.depth]; omega)) os st' h1 (by simpa [noBlock] using hb)
        (by simpa [direct] using hd)
      exact ⟨.node h2, h3⟩
  | letE s cs =>
    rw [cook] at h
    cases h1 : cookAll St.init cs with
    | error e => rw [h1] at h; cases h
    | ok r =>
      obtain ⟨os, st1⟩ := r
      rw [h1] at h
      obtain ⟨h2, h3⟩ := cookAll_out cs (fun x hx => ih x (by have := depth_mem hx; simp only [Ex.depth]; omega)) os st1 h1 (by simpa [noBlock] using hb)
        (by simpa [direct] using hd)
      subst h3
      cases h
      exact ⟨.letE h2, rfl⟩
  | soup s xs br =>
    rw [cook] at h
    split at h
    · cases h
    · next filled hf =>
      have hnb := noBlock_filled hf (by simpa [noBlock] using hb)
      have hdi : directItems xs = true := by simpa [direct] using hd
      rw [directItems_iff] at hdi
      cases ha : filled.any Ex.isAnaphor with
      | false =>
        have hno : ∀ y ∈ filled, y.isAnaphor = false := by
          intro y hy
          cases hy' : y.isAnaphor with
          | false => rfl
          | true => rw [List.any_eq_true.2 ⟨y, hy, hy'⟩] at ha; cases ha
        have hda : directAll filled = true := by
          rw [directAll_iff]
          intro y hy
          rcases fillGaps_mem hf y hy with h' | h' | rfl
          · rcases hdi y h' with h'' | h''
            · rw [hno y hy] at h''; cases h''
            · exact h''
          · rw [hno y hy] at h'; cases h'
          · rfl
        dsimp only at h
        rw [ha] at h
        simp only [Bool.and_false, Bool.false_eq_true, if_false] at h
        cases h1 : cookAll St.init filled with
        | error e => rw [h1] at h; cases h
        | ok r =>
          obtain ⟨os, st1⟩ := r
          rw [h1] at h
          obtain ⟨h2, h3⟩ := cookAll_out filled (fun x hx => ih x (by have := depth_mem hx; have := fillGaps_depth hf; simp only [Ex.depth]; omega)) os st1 h1 hnb hda
          subst h3
          cases h
          refine ⟨.plain hf ?_ h2, rfl⟩
          intro s a hm
          have := hno _ hm
          cases this
      | true =>
        have hyes : ∃ s a, Ex.eana s a ∈ filled := by
          obtain ⟨y, hy, hy'⟩ := List.any_eq_true.1 ha
          obtain ⟨s, a, rfl⟩ := isAnaphor_iff.1 hy'
          exact ⟨s, a, hy⟩
        dsimp only at h
        rw [ha] at h
        simp only [Bool.and_true, St.init, Bool.not_false, if_true] at h
        cases h1 : cookAll ⟨true, [], []⟩ filled with
        | error e => rw [h1] at h; cases h
        | ok r =>
          obtain ⟨os, st1⟩ := r
          rw [h1] at h
          obtain ⟨h2, k1, k2, k3, k4⟩ := cookAll_in filled (fun x _ => cook_in x) ⟨true, [], []⟩ os st1 h1 hnb rfl rfl .nil
          dsimp only at h
          cases h3 : wrap Name.expr st1.pe (.shunted br os) with
          | error e => rw [h3] at h; cases h
          | ok r =>
            rw [h3] at h
            obtain ⟨ps, hps, ho⟩ := wrap_ok h3
            dsimp only at h
            rw [k2, ho] at h
            cases h
            refine ⟨.function hf hyes h2 ⟨st1.pe, k3, ?_, hps⟩, rfl⟩
            intro a; rw [k4]; simp

/-- A program whose anaphora are all written among the items of expressions is
cooked as specified: the outermost expression with anaphora of its own becomes
a function of all the anaphora in it, and nothing is carried over to the rest
of the program.  (Programs with block anaphora are left out.) -/
theorem cook_is_specified_partial (e : Ex) (o : Out) (st' : St)
    (h : cook St.init e = .ok (o, st')) (hb : noBlock e = true) (hd : direct e = true) :
    Cooked false e o ∧ st' = St.init := cook_out e o st' h hb hd

theorem paramsFor_covers {as : List Anaphor} {ps : List Name} (h : ParamsFor as ps) :
    ∀ a ∈ as, Name.expr a ∈ ps := by
  obtain ⟨keys, hn, hm, hp⟩ := h
  intro a ha
  refine pattern_covers _ _ ?_ ps hp a (Name.expr a) ?_
  · simpa [List.map_map, Function.comp_def] using hn
  · exact List.mem_map.2 ⟨a, (hm a).2 ha, rfl⟩

mutual
theorem cooked_closed : ∀ {e : Ex} {o : Out}, Cooked false e o → freeExpr o = []
  | _, _, .leaf => by simp [freeExpr]
  | _, _, .op => by simp [freeExpr]
  | _, _, .letE h => by simp only [freeExpr]; exact cookedAll_closed h
  | _, _, .node h => by simp only [freeExpr]; exact cookedAll_closed h
  | _, _, .plain _ _ h => by simp only [freeExpr]; exact cookedAll_closed h
  | _, _, .function _ _ h hp => by
    simp only [freeExpr]
    rw [List.filter_eq_nil_iff]
    intro a ha
    simp [paramsFor_covers hp a ha]
theorem cookedAll_closed : ∀ {xs : List Ex} {os : List Out}, CookedAll false xs os → freeExprAll os = []
  | _, _, .nil => by simp [freeExprAll]
  | _, _, .cons h hs => by simp only [freeExprAll]; rw [cooked_closed h, cookedAll_closed hs]; rfl
end

/-- No anaphor is left without a function that takes it as a parameter. -/
theorem every_anaphor_is_a_parameter (e : Ex) (o : Out) (st' : St)
    (h : cook St.init e = .ok (o, st')) (hb : noBlock e = true) (hd : direct e = true) :
    freeExpr o = [] := cooked_closed (cook_out e o st' h hb hd).1

/-- Anonymous anaphora whose occurrence tokens increase through the text, as
the desugarer hands them out, become parameters in order of appearance. -/
theorem params_in_order_of_appearance (ts : List Nat) (hne : ts ≠ [])
    (ht : ts.Pairwise (· < ·)) (ps : List Name)
    (h : ParamsFor (ts.map Anaphor.anon) ps) : ps = ts.map fun t => Name.expr (.anon t) := by
  obtain ⟨keys, hn, hm, hp⟩ := h
  have hd : ((keys.map fun a => (a, Name.expr a)).map Prod.fst).Nodup := by
    simpa [List.map_map, Function.comp_def] using hn
  have hkne : keys ≠ [] := by
    rintro rfl
    cases ts with
    | nil => exact hne rfl
    | cons t ts => have := (hm (.anon t)).2 (by simp); simp at this
  obtain ⟨qs, h1, h2, h3⟩ := anonymous_pattern Name.dummy (keys.map fun a => (a, Name.expr a)) hd
    (by simpa using hkne) (by
      rintro ⟨a, x⟩ hp
      obtain ⟨b, hb, he⟩ := List.mem_map.1 hp
      cases he
      obtain ⟨t, _, rfl⟩ := List.mem_map.1 ((hm _).1 hb)
      exact ⟨t, rfl⟩)
  rw [hp] at h1
  cases h1
  have hq : ∀ q ∈ qs, q.2 = Name.expr (.anon q.1) := by
    rintro ⟨t, x⟩ hq
    obtain ⟨b, _, he⟩ := List.mem_map.1 ((h3 t x).1 hq)
    cases he; rfl
  have hmem : ∀ t, t ∈ qs.map Prod.fst ↔ t ∈ ts := by
    intro t
    constructor
    · intro h
      obtain ⟨⟨t', x⟩, hq', rfl⟩ := List.mem_map.1 h
      obtain ⟨b, hb, he⟩ := List.mem_map.1 ((h3 t' x).1 hq')
      cases he
      obtain ⟨t'', ht'', he⟩ := List.mem_map.1 ((hm _).1 hb)
      cases he; exact ht''
    · intro h
      refine List.mem_map.2 ⟨(t, Name.expr (.anon t)), (h3 _ _).2 ?_, rfl⟩
      exact List.mem_map.2 ⟨_, (hm _).2 (List.mem_map.2 ⟨t, h, rfl⟩), rfl⟩
  have hs : (qs.map Prod.fst).Pairwise (· < ·) := List.pairwise_map.2 h2
  have huniq : qs.map Prod.fst = ts := by
    generalize qs.map Prod.fst = us at hs hmem
    clear h3 hq hp h2 hm hn hd hkne hne
    have inc_nat : ∀ {as bs : List Nat}, as.Pairwise (· < ·) → bs.Pairwise (· < ·) →
        (∀ x, x ∈ as ↔ x ∈ bs) → as = bs := by
      intro as
      induction as with
      | nil =>
        intro bs _ _ h
        cases bs with
        | nil => rfl
        | cons b bs => exact absurd ((h b).2 (by simp)) (by simp)
      | cons a as ih =>
        intro bs ha hb h
        cases bs with
        | nil => exact absurd ((h a).1 (by simp)) (by simp)
        | cons b bs =>
          have ha' := List.pairwise_cons.1 ha
          have hb' := List.pairwise_cons.1 hb
          have hab : a = b := by
            rcases List.mem_cons.1 ((h a).1 (by simp)) with h1 | h1
            · exact h1
            · rcases List.mem_cons.1 ((h b).2 (by simp)) with h2 | h2
              · exact h2.symm
              · have := ha'.1 b h2; have := hb'.1 a h1; omega
          subst hab
          congr 1
          refine ih ha'.2 hb'.2 fun x => ⟨fun hx => ?_, fun hx => ?_⟩
          · rcases List.mem_cons.1 ((h x).1 (by simp [hx])) with rfl | h1
            · have := ha'.1 x hx; omega
            · exact h1
          · rcases List.mem_cons.1 ((h x).2 (by simp [hx])) with rfl | h1
            · have := hb'.1 x hx; omega
            · exact h1
    exact inc_nat hs ht hmem
  rw [← huniq, List.map_map]
  exact List.map_congr_left hq

/-! ## Sections are filled in order of appearance -/

/-- The locations of the operators of a soup that have one. -/
def opSmids : List Ex → List Nat
  | [] => []
  | .op s _ _ :: xs => if s = 0 then opSmids xs else s :: opSmids xs
  | _ :: xs => opSmids xs

/-- The anaphora among the items of a soup, in order. -/
def anaphoraOf : List Ex → List Anaphor
  | [] => []
  | .eana _ a :: xs => a :: anaphoraOf xs
  | _ :: xs => anaphoraOf xs

theorem anaphoraOf_append : ∀ xs ys : List Ex,
    anaphoraOf (xs ++ ys) = anaphoraOf xs ++ anaphoraOf ys
  | [], ys => rfl
  | x :: xs, ys => by
    have ih := anaphoraOf_append xs ys
    cases x <;> simp [anaphoraOf, ih]

theorem bindSides_right_op {x : Ex} (h : (bindSides (some x)).2 = true) : ∃ s f t, x = .op s f t := by
  cases x <;> simp [bindSides] at h
  exact ⟨_, _, _, rfl⟩

theorem bindSides_left_op {x : Ex} (h : (bindSides (some x)).1 = true) : ∃ s f t, x = .op s f t := by
  cases x <;> simp [bindSides] at h
  exact ⟨_, _, _, rfl⟩

/-- What gap filling puts between `l` and `r`. -/
theorem filler_anaphora {l r : Option Ex} {f : Option Ex} (h : filler l r = .ok f) :
    anaphoraOf f.toList = [] ∨
    (∃ s fx t, r = some (.op s fx t) ∧ s ≠ 0 ∧ anaphoraOf f.toList = [.implicit s .left]) ∨
    (∃ s fx t, l = some (.op s fx t) ∧ s ≠ 0 ∧ anaphoraOf f.toList = [.implicit s .right]) := by
  unfold filler at h
  split at h
  · cases h; left; rfl
  · next h1 h2 =>
    dsimp only at h
    split at h
    · next hs =>
      cases h
      right; left
      cases r with
      | none => simp at hs
      | some r =>
        obtain ⟨s, f, t, rfl⟩ := bindSides_left_op h2
        exact ⟨s, f, t, rfl, by simpa [Ex.smid] using hs, rfl⟩
    · split at h
      · next hs =>
        cases h
        right; right
        cases l with
        | none => simp at hs
        | some l =>
          obtain ⟨s, f, t, rfl⟩ := bindSides_right_op h1
          exact ⟨s, f, t, rfl, by simpa [Ex.smid] using hs, rfl⟩
      · cases h
  · cases h; left; rfl

theorem fillFrom_sections : ∀ (x : Ex) (xs ys : List Ex), fillFrom (x :: xs) = .ok ys →
    (opSmids (x :: xs)).Pairwise (· < ·) → anaphoraOf (x :: xs) = [] →
    Inc (anaphoraOf ys) ∧ ∀ a ∈ anaphoraOf ys,
      (∃ s f t, x = .op s f t ∧ s ≠ 0 ∧ a = .implicit s .right) ∨
      (∃ s d, s ∈ opSmids xs ∧ a = .implicit s d) := by
  intro x xs
  induction xs generalizing x with
  | nil =>
    intro ys h hp hn
    simp only [fillFrom, List.head?_nil] at h
    cases h1 : filler (some x) none with
    | error e => rw [h1] at h; cases h
    | ok f =>
      rw [h1] at h
      cases h
      have hx : anaphoraOf (x :: (f.toList ++ [])) = anaphoraOf f.toList := by
        rw [List.append_nil]
        have := anaphoraOf_append [x] f.toList
        rw [hn] at this; simpa using this
      rw [hx]
      rcases filler_anaphora h1 with h2 | ⟨s, fx, t, hr, _⟩ | ⟨s, fx, t, hl, hs, h2⟩
      · rw [h2]; exact ⟨.nil, by simp⟩
      · cases hr
      · rw [h2]
        refine ⟨by simp [Inc], ?_⟩
        intro a ha
        simp only [List.mem_singleton] at ha
        exact .inl ⟨s, fx, t, Option.some.inj hl, hs, ha⟩
  | cons x1 xs ih =>
    intro ys h hp hn
    have hn1 : anaphoraOf (x1 :: xs) = [] := by
      have := anaphoraOf_append [x] (x1 :: xs)
      simp only [List.singleton_append, hn] at this
      exact (List.append_eq_nil_iff.1 this.symm).2
    have hx0 : anaphoraOf [x] = [] := by
      have := anaphoraOf_append [x] (x1 :: xs)
      simp only [List.singleton_append, hn] at this
      exact (List.append_eq_nil_iff.1 this.symm).1
    have hp1 : (opSmids (x1 :: xs)).Pairwise (· < ·) := by
      cases x <;> simp only [opSmids] at hp <;> try exact hp
      split at hp
      · exact hp
      · exact (List.pairwise_cons.1 hp).2
    unfold fillFrom at h
    simp only [List.head?_cons] at h
    cases h1 : filler (some x) (some x1) with
    | error e => rw [h1] at h; cases h
    | ok f =>
      rw [h1] at h
      cases h2 : fillFrom (x1 :: xs) with
      | error e => rw [h2] at h; cases h
      | ok zs =>
        rw [h2] at h
        cases h
        obtain ⟨i1, i2⟩ := ih x1 zs h2 hp1 hn1
        have hx : anaphoraOf (x :: (f.toList ++ zs)) = anaphoraOf f.toList ++ anaphoraOf zs := by
          have := anaphoraOf_append [x] (f.toList ++ zs)
          rw [hx0, anaphoraOf_append f.toList] at this; simpa using this
        have hzs : ∀ a ∈ anaphoraOf zs, ∃ s d, s ∈ opSmids (x1 :: xs) ∧ a = .implicit s d := by
          intro a ha
          rcases i2 a ha with ⟨s, fx, t, he, hs, ha'⟩ | ⟨s, d, hs, ha'⟩
          · subst he; exact ⟨s, .right, by simp [opSmids, hs], ha'⟩
          · refine ⟨s, d, ?_, ha'⟩
            cases x1 <;> simp only [opSmids] <;> try exact hs
            split
            · exact hs
            · exact List.mem_cons_of_mem _ hs
        rw [hx]
        rcases filler_anaphora h1 with h3 | ⟨s, fx, t, hr, hs, h3⟩ | ⟨s, fx, t, hl, hs, h3⟩
        · rw [h3]
          refine ⟨by simpa using i1, ?_⟩
          intro a ha
          exact .inr (hzs a (by simpa using ha))
        · rw [h3]
          have hx1 := Option.some.inj hr
          subst hx1
          simp only [opSmids, hs, if_false] at hp1
          refine ⟨?_, ?_⟩
          · rw [List.singleton_append, Inc, List.pairwise_cons]
            refine ⟨?_, i1⟩
            intro a ha
            rcases i2 a ha with ⟨s', fx', t', he, _, rfl⟩ | ⟨s', d, hs', rfl⟩
            · cases he; rw [lt_implicit]; exact .inr ⟨rfl, rfl, rfl⟩
            · rw [lt_implicit]; exact .inl ((List.pairwise_cons.1 hp1).1 s' hs')
          · intro a ha
            rcases List.mem_append.1 ha with ha | ha
            · simp only [List.mem_singleton] at ha
              exact .inr ⟨s, .left, by simp [opSmids, hs], ha⟩
            · exact .inr (hzs a ha)
        · rw [h3]
          have hx1 := Option.some.inj hl
          subst hx1
          rw [opSmids, if_neg hs] at hp
          refine ⟨?_, ?_⟩
          · rw [List.singleton_append, Inc, List.pairwise_cons]
            refine ⟨?_, i1⟩
            intro a ha
            obtain ⟨s', d, hs', rfl⟩ := hzs a ha
            rw [lt_implicit]; exact .inl ((List.pairwise_cons.1 hp).1 s' hs')
          · intro a ha
            rcases List.mem_append.1 ha with ha | ha
            · simp only [List.mem_singleton] at ha
              exact .inl ⟨s, fx, t, rfl, hs, ha⟩
            · exact .inr (hzs a ha)

/-- The operands a section leaves out are numbered in order of appearance: the
anaphora inserted are strictly increasing from left to right in the order that
decides the parameter list. -/
theorem sections_in_order_of_appearance (xs ys : List Ex) (h : fillGaps xs = .ok ys)
    (hp : (opSmids xs).Pairwise (· < ·)) (hn : anaphoraOf xs = []) :
    (anaphoraOf ys).Pairwise fun a b => a.lt b = true := by
  cases xs with
  | nil => cases h; exact .nil
  | cons x xs =>
    unfold fillGaps at h
    dsimp only at h
    cases h1 : filler none (some x) with
    | error e => rw [h1] at h; cases h
    | ok f =>
      rw [h1] at h
      cases h2 : fillFrom (x :: xs) with
      | error e => rw [h2] at h; cases h
      | ok zs =>
        rw [h2] at h
        cases h
        obtain ⟨i1, i2⟩ := fillFrom_sections x xs zs h2 hp hn
        rw [anaphoraOf_append]
        rcases filler_anaphora h1 with h3 | ⟨s, fx, t, hr, hs, h3⟩ | ⟨s, fx, t, hl, hs, h3⟩
        · rw [h3]; simpa using i1
        · rw [h3]
          have hx1 := Option.some.inj hr
          subst hx1
          rw [opSmids, if_neg hs] at hp
          rw [List.singleton_append, List.pairwise_cons]
          refine ⟨?_, i1⟩
          intro a ha
          rcases i2 a ha with ⟨s', fx', t', he, _, rfl⟩ | ⟨s', d, hs', rfl⟩
          · cases he; rw [lt_implicit]; exact .inr ⟨rfl, rfl, rfl⟩
          · rw [lt_implicit]; exact .inl ((List.pairwise_cons.1 hp).1 s' hs')
        · cases hl

/-! ## Examples and counterexamples -/

theorem cook_soup_ok {st : St} {s : Nat} {xs filled : List Ex} {br : Bool}
    (hf : fillGaps xs = .ok filled) :
    cook st (.soup s xs br) =
      (let wrapLambda := !st.inScope && filled.any Ex.isAnaphor
      let st1 := if wrapLambda then { st with inScope := true } else st
      match cookAll st1 filled with
      | .error e => .error e
      | .ok (atoms, st2) =>
        let st3 := { st2 with inScope := st1.inScope }
        if wrapLambda then
          match wrap Name.expr st3.pe (.shunted br atoms) with
          | .error e => .error e
          | .ok o => .ok (o, { st3 with inScope := false, pe := [] })
        else .ok (.shunted br atoms, st3)) := by
  rw [cook]
  split
  · next e h => rw [hf] at h; cases h
  · next f h => rw [hf] at h; cases h; rfl

/-- `(_ + 1)` in a list with `(2 * _)`: two functions of one parameter each. -/
example : cook St.init (.node 1 9 [.soup 2 [.eana 3 (.anon 3), .op 4 .infixLeft 1, .leaf 5 1] false,
      .soup 6 [.leaf 7 2, .op 8 .infixLeft 2, .eana 9 (.anon 9)] false])
    = .ok (.node 1 9 [.lam [.expr (.anon 3)]
        (.shunted false [.var 3 (.expr (.anon 3)), .op 4 .infixLeft 1, .leaf 5 1]),
      .lam [.expr (.anon 9)]
        (.shunted false [.leaf 7 2, .op 8 .infixLeft 2, .var 9 (.expr (.anon 9))])], St.init) := by
  have f1 : fillGaps [.eana 3 (.anon 3), .op 4 .infixLeft 1, .leaf 5 1]
      = .ok [.eana 3 (.anon 3), .op 4 .infixLeft 1, .leaf 5 1] := rfl
  have f2 : fillGaps [.leaf 7 2, .op 8 .infixLeft 2, .eana 9 (.anon 9)]
      = .ok [.leaf 7 2, .op 8 .infixLeft 2, .eana 9 (.anon 9)] := rfl
  simp only [cook, cookAll, cook_soup_ok f1, cook_soup_ok f2]
  simp only [St.init, Ex.isAnaphor, List.any, Bool.not_false, Bool.true_or, Bool.or_true,
    Bool.false_or, Bool.and_true, if_true]
  rfl

/-- Without the condition that anaphora are items of soups, they leak into the
next function of the program: in `{ a: _  b: (_ + 1) }`, where the desugarer
leaves the first `_` bare (rowan_ast.rs:2152-2156), `b` becomes a function of
two parameters. -/
theorem bare_anaphor_leaks :
    ∃ e ps body s, cook St.init e = .ok (.letE s [.var 2 (.expr (.anon 2)), .lam ps body], St.init)
      ∧ freeExpr body = [.anon 4] ∧ ps = [.expr (.anon 2), .expr (.anon 4)] := by
  refine ⟨.letE 1 [.eana 2 (.anon 2),
      .soup 3 [.eana 4 (.anon 4), .op 5 .infixLeft 1, .leaf 6 1] false],
    [.expr (.anon 2), .expr (.anon 4)],
    .shunted false [.var 4 (.expr (.anon 4)), .op 5 .infixLeft 1, .leaf 6 1], 1, ?_, ?_, rfl⟩
  · have f1 : fillGaps [.eana 4 (.anon 4), .op 5 .infixLeft 1, .leaf 6 1]
        = .ok [.eana 4 (.anon 4), .op 5 .infixLeft 1, .leaf 6 1] := rfl
    simp only [cook, cookAll, cook_soup_ok f1]
    simp only [St.init, Ex.isAnaphor, List.any, Bool.not_false, Bool.true_or,
      Bool.and_true, if_true]
    rfl
  · simp [freeExpr, freeExprAll]

/-- Which block a block anaphor makes a function depends on the order of
definitions: in `{ a: •0  b: { c: •1 } }` the outer block becomes a function of
two parameters; with the two definitions swapped, the inner block is a function
of its own. -/
theorem block_scope_depends_on_order :
    (∃ body, cook St.init (.letE 1 [.bana 2 (.num 0), .letE 3 [.bana 4 (.num 1)]])
      = .ok (.lam [.block (.num 0), .block (.num 1)] body, St.init)) ∧
    (∃ inner x, cook St.init (.letE 1 [.letE 3 [.bana 4 (.num 1)], .bana 2 (.num 0)])
      = .ok (.lam [.block (.num 0)] (.letE 1 [.lam [.dummy 0, .block (.num 1)] inner, x]),
          St.init)) := by
  constructor
  · refine ⟨.letE 1 [.var 2 (.block (.num 0)), .letE 3 [.var 4 (.block (.num 1))]], ?_⟩
    simp only [cook, cookAll]
    rfl
  · refine ⟨.letE 3 [.var 4 (.block (.num 1))], .var 2 (.block (.num 0)), ?_⟩
    simp only [cook, cookAll]
    rfl

example : ParamsFor ([3, 5, 9].map Anaphor.anon)
    [.expr (.anon 3), .expr (.anon 5), .expr (.anon 9)] :=
  ⟨[.anon 9, .anon 3, .anon 5], by decide, by intro a; simp; grind, by decide⟩

example : fillGaps [.op 4 .infixLeft 1, .op 6 .infixLeft 2]
    = .ok [.eana 4 (.implicit 4 .left), .op 4 .infixLeft 1, .eana 6 (.implicit 6 .left),
        .op 6 .infixLeft 2, .eana 6 (.implicit 6 .right)] := rfl

end Verif.Ana
