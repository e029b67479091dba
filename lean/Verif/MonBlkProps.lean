import Verif.MonBlkSpec

/-!
# Monadic blocks: theorems
-/

namespace Verif.MonBlk

variable {V : Type}

/-! ## The chain -/

theorem chain_nil (sp : Spec) (t : Term V) : chain sp [] t = retOf sp t := rfl

theorem chain_cons (sp : Spec) (p : String × Term V) (ss : List (String × Term V)) (t : Term V) :
    chain sp (p :: ss) t = bindOf sp p.1 p.2 (chain sp ss t) := by
  simp [chain, List.foldl_append]

theorem eval_ret (I : Interp V) (sp : Spec) (t : Term V) (ρ : Env V) :
    (retOf sp t).eval I ρ = retIn I ρ sp (t.eval I ρ) := by
  cases sp <;> rfl

theorem eval_bind (I : Interp V) (sp : Spec) (x : String) (v t : Term V) (ρ : Env V) :
    (bindOf sp x v t).eval I ρ = bindIn I ρ sp (v.eval I ρ) fun a => t.eval I (ρ.set x a) := by
  cases sp <;> rfl

theorem ins_same (I : Interp V) {ρ σ : Env V} {sp : Spec} (h : ∀ x ∈ heads sp, σ x = ρ x) :
    bindIn I σ sp = bindIn I ρ sp ∧ retIn I σ sp = retIn I ρ sp := by
  cases sp with
  | namespaced ns =>
    have e := h ns (by simp [heads])
    exact ⟨by funext v f; simp [bindIn, e], by funext v; simp [retIn, e]⟩
  | explicit b r =>
    have e := h b (by simp [heads])
    have e' := h r (by simp [heads])
    exact ⟨by funext v f; simp [bindIn, e], by funext v; simp [retIn, e']⟩

theorem chain_eval (I : Interp V) {sp : Spec} {ρ : Env V} (t : Term V) (ss : List (String × Term V))
    (hn : ∀ x ∈ heads sp, x ∉ ss.map Prod.fst) (σ : Env V) (hσ : ∀ x ∈ heads sp, σ x = ρ x) :
    (chain sp ss t).eval I σ =
      runs (bindIn I ρ sp) (retIn I ρ sp) (ss.map fun p => (p.1, p.2.eval I)) (t.eval I) σ := by
  induction ss generalizing σ with
  | nil =>
    rw [chain_nil, eval_ret, (ins_same I hσ).2]; rfl
  | cons p ss ih =>
    rw [chain_cons, eval_bind, (ins_same I hσ).1]
    simp only [List.map_cons, runs]
    congr 1
    funext v
    apply ih
    · intro x hx hm
      exact hn x hx (List.mem_cons_of_mem _ hm)
    · intro x hx
      have : x ≠ p.1 := fun e => hn x hx (by simp [e])
      simp [Env.set, this, hσ x hx]

theorem names_write (b : List (String × Term V)) : names (write b) = .ok (b.map Prod.fst) := by
  induction b with
  | nil => rfl
  | cons p b ih =>
    have : names (write (p :: b)) = match names (write b) with
      | .ok xs => .ok (p.1 :: xs)
      | .error e => .error e := rfl
    rw [this, ih]; rfl

theorem bodies_write (ty : Option String) (b : List (String × Term V)) :
    bodies ty (write b) = .ok (b.map fun p => wrap ty p.2) := by
  induction b with
  | nil => rfl
  | cons p b ih =>
    have : bodies ty (write (p :: b)) = match bodies ty (write b) with
      | .ok ts => .ok (wrap ty p.2 :: ts)
      | .error e => .error e := rfl
    rw [this, ih]; rfl

theorem zip_map {α β γ : Type} (f : α → β) (g : α → γ) (l : List α) :
    (l.map f).zip (l.map g) = l.map fun a => (f a, g a) := by
  induction l with
  | nil => rfl
  | cons a l ih => simp [ih]

theorem steps_write (ty : Option String) {b : List (String × Term V)} (hb : b ≠ []) :
    steps ty (write b) = .ok (b.map fun p => (p.1, wrap ty p.2)) := by
  have : (write b).isEmpty = false := by cases b <;> simp_all [write]
  simp [steps, this, names_write, bodies_write, zip_map]

theorem wrap_eval (I : Interp V) (ty : Option String) (t : Term V) : (wrap ty t).eval I = t.eval I := by
  cases ty <;> rfl

theorem chain_write (I : Interp V) {sp : Spec} (ρ : Env V) (ty : Option String) (t : Term V)
    {b : List (String × Term V)} (hn : ∀ x ∈ heads sp, x ∉ b.map Prod.fst) :
    (chain sp (b.map fun p => (p.1, wrap ty p.2)) t).eval I ρ =
      runs (bindIn I ρ sp) (retIn I ρ sp) (b.map fun p => (p.1, p.2.eval I)) (t.eval I) ρ := by
  rw [chain_eval I t _ (by simpa [List.map_map, Function.comp_def] using hn) ρ fun _ _ => rfl]
  simp [List.map_map, Function.comp_def, wrap_eval]

/-! ## Meaning -/

/-- A monadic block with a return expression means its steps in order and then `return` of the expression, if no step has the
name of the monad. The type of the monad changes nothing. Missing for the full statement (`means_false`): steps with that name. -/
theorem means_partial (r : Reg) (sp : Spec) (ty : Option String) {b : List (String × Term V)} (hb : b ≠ [])
    (hn : ∀ x ∈ heads sp, x ∉ b.map Prod.fst) {e : Elem V} {u : Term V} (he : e.term r = .ok u) :
    ∃ t, explicitly r sp ty (write b) [e] = .ok t ∧ ∀ I ρ, t.eval I ρ =
      runs (bindIn I ρ sp) (retIn I ρ sp) (b.map fun p => (p.1, p.2.eval I)) (u.eval I) ρ := by
  refine ⟨chain sp (b.map fun p => (p.1, wrap ty p.2)) u, ?_, fun I ρ => chain_write I ρ ty u hn⟩
  simp [explicitly, steps_write ty hb, returnChain, he, dots]

/-- Numbers as values: a call adds up, and a function is what it gives for one. -/
def toy : Interp Nat where
  fn f := f 1
  app f as := f + as.sum
  look v _ := v
  block es := (es.map Prod.snd).sum
  dot := 0

/-- A step with the name of the monad (`{ :state state: state.get }.state`) takes the monad away from the steps after it. -/
theorem means_false : ¬ ∀ (V : Type) (r : Reg) (sp : Spec) (ty : Option String) (b : List (String × Term V)), b ≠ [] →
    ∀ (e : Elem V) (u : Term V), e.term r = .ok u →
    ∃ t, explicitly r sp ty (write b) [e] = .ok t ∧ ∀ I ρ, t.eval I ρ =
      runs (bindIn I ρ sp) (retIn I ρ sp) (b.map fun p => (p.1, p.2.eval I)) (u.eval I) ρ := by
  intro h
  obtain ⟨t, ht, hv⟩ := h Nat ⟨fun _ => true, fun _ => none⟩ (.namespaced "state") none
    [("state", .user fun _ => 1)] (by simp) (.name "state") (.var "state") rfl
  have : t = chain (.namespaced "state") [("state", .user fun _ => 1)] (.var "state") := by
    injection ht.symm
  subst this
  exact absurd (hv toy fun _ => 0) (by decide)

/-- With `let`, which calls the function on the value, the block is a row of definitions. -/
theorem let_means {bind : V → (V → V) → V} {ret : V → V} (h1 : ∀ v f, bind v f = f v) (h2 : ∀ v, ret v = v)
    (ss : List (String × (Env V → V))) (last : Env V → V) (ρ : Env V) :
    runs bind ret ss last ρ = last (defs ss ρ) := by
  induction ss generalizing ρ with
  | nil => simp [runs, defs, h2]
  | cons s ss ih => simp [runs, defs, h1, ih]

/-- With `for`, the block is the list of what the expression gives for each choice, the last step the fastest. -/
theorem for_means {bind : V → (V → V) → V} {ret : V → V} {list : List V → V}
    (h1 : ∀ l f g, (∀ v ∈ l, f v = list (g v)) → bind (list l) f = list (l.flatMap g)) (h2 : ∀ v, ret v = list [v])
    (ss : List (String × (Env V → List V))) (last : Env V → V) (ρ : Env V) :
    runs bind ret (ss.map fun s => (s.1, fun σ => list (s.2 σ))) last ρ = list ((choices ss ρ).map last) := by
  induction ss generalizing ρ with
  | nil => simp [runs, choices, h2]
  | cons s ss ih =>
    simp only [List.map_cons, runs, choices, List.map_flatMap]
    exact h1 _ _ _ fun v _ => ih _

/-! ## Blocks that report their names -/

theorem insert_entries (ρ : Env V) (x : String) (ks : List String) :
    insert x (ρ x) (ks.map fun k => (k, ρ k)) =
      (if x ∈ ks then ks else ks ++ [x]).map fun k => (k, ρ k) := by
  induction ks with
  | nil => simp [insert]
  | cons k ks ih =>
    by_cases h : k = x
    · subst h; simp [insert]
    · have h' : x ≠ k := fun e => h e.symm
      simp only [List.map_cons, insert, h, if_false, ih, List.mem_cons, h', false_or]
      split <;> simp

theorem entries_from (ρ : Env V) (xs ks : List String) :
    xs.foldl (fun m x => insert x (ρ x) m) (ks.map fun k => (k, ρ k)) =
      (ks ++ (firsts xs).filter (· ∉ ks)).map fun k => (k, ρ k) := by
  induction xs generalizing ks with
  | nil => simp [firsts]
  | cons x xs ih =>
    rw [List.foldl_cons, insert_entries, ih]
    congr 1
    by_cases h : x ∈ ks
    · simp only [h, if_true, firsts]
      congr 1
      rw [List.filter_cons_of_neg (by simp [h]), List.filter_filter]
      apply List.filter_congr
      intro y _
      by_cases e : y = x
      · subst e; simp [h]
      · simp [e]
    · simp only [h, if_false, firsts]
      rw [List.filter_cons_of_pos (by simp [h]), List.filter_filter, List.append_assoc, List.singleton_append]
      congr 2
      apply List.filter_congr
      intro y _
      simp [not_or, Bool.and_comm]

theorem entries_are (ρ : Env V) (xs : List String) : entries ρ xs = (firsts xs).map fun k => (k, ρ k) := by
  have := entries_from ρ xs []
  simpa [entries] using this

theorem mem_firsts {x : String} {xs : List String} : x ∈ firsts xs ↔ x ∈ xs := by
  induction xs with
  | nil => simp [firsts]
  | cons y ys ih =>
    by_cases h : x = y <;> simp [firsts, ih, h]

theorem firsts_nodup (xs : List String) : (firsts xs).Nodup := by
  induction xs with
  | nil => simp [firsts]
  | cons y ys ih => exact List.nodup_cons.mpr ⟨by simp, ih.filter _⟩

/-- The names a block reports: each but `_`, once. -/
theorem reported_is (b : List (String × Term V)) :
    (reported b).Nodup ∧ ∀ x, x ∈ reported b ↔ x ≠ "_" ∧ x ∈ b.map Prod.fst := by
  refine ⟨firsts_nodup _, fun x => ?_⟩
  rw [reported, mem_firsts, List.mem_filter]
  simp [and_comm]

/-- A monadic block without a return expression means its steps in order and then `return` of a block of all names but `_`,
each with what it stands for in the end, if no step has the name of the monad. -/
theorem reports_partial (sp : Spec) (ty : Option String) {b : List (String × Term V)} (hb : b ≠ [])
    (hn : ∀ x ∈ heads sp, x ∉ b.map Prod.fst) :
    ∃ t, implicit sp ty (write b) = .ok t ∧ ∀ I ρ, t.eval I ρ =
      runs (bindIn I ρ sp) (retIn I ρ sp) (b.map fun p => (p.1, p.2.eval I))
        (fun σ => I.block ((reported b).map fun k => (k, σ k))) ρ := by
  refine ⟨_, by simp only [implicit, steps_write ty hb]; rfl, fun I ρ => ?_⟩
  rw [chain_write I ρ ty _ hn]
  congr 1
  funext σ
  simp [Term.eval, entries_are, reported, List.map_map, Function.comp_def]

theorem reports_false : ¬ ∀ (V : Type) (sp : Spec) (ty : Option String) (b : List (String × Term V)), b ≠ [] →
    ∃ t, implicit sp ty (write b) = .ok t ∧ ∀ I ρ, t.eval I ρ =
      runs (bindIn I ρ sp) (retIn I ρ sp) (b.map fun p => (p.1, p.2.eval I))
        (fun σ => I.block ((reported b).map fun k => (k, σ k))) ρ := by
  intro h
  obtain ⟨t, ht, hv⟩ := h Nat (.namespaced "random") none [("random", .user fun _ => 1)] (by simp)
  have : t = chain (.namespaced "random") [("random", .user fun _ => 1)] (.named ["random"]) := by
    injection ht.symm
  subst this
  exact absurd (hv toy fun _ => 0) (by decide)

/-- A block without steps is an error, both ways. -/
theorem empty_block (r : Reg) (sp : Spec) (ty : Option String) (ret : List (Elem V)) :
    implicit (V := V) sp ty [] = .error .emptyBlock ∧ explicitly r sp ty [] ret = .error .emptyBlock :=
  ⟨rfl, rfl⟩

/-! ## Which blocks, and how much after them -/

theorem names_params (ds : List (Decl V)) : names (ds.map fun d => { d with params := [] }) = names ds := by
  induction ds with
  | nil => rfl
  | cons d ds ih =>
    obtain ⟨n, ps, t⟩ := d
    cases n with
    | none => rfl
    | some x => simp only [List.map_cons, names]; rw [ih]

theorem bodies_params (ty : Option String) (ds : List (Decl V)) :
    bodies ty (ds.map fun d => { d with params := [] }) = bodies ty ds := by
  induction ds with
  | nil => rfl
  | cons d ds ih =>
    obtain ⟨n, ps, t⟩ := d
    cases t with
    | none => rfl
    | some x => simp only [List.map_cons, bodies]; rw [ih]

/-- Parameters of steps are lost. -/
theorem params_lost (r : Reg) (sp : Spec) (ty : Option String) (ds : List (Decl V)) (ret : List (Elem V)) :
    implicit sp ty (ds.map fun d => { d with params := [] }) = implicit sp ty ds ∧
      explicitly r sp ty (ds.map fun d => { d with params := [] }) ret = explicitly r sp ty ds ret := by
  have : steps ty (ds.map fun d => { d with params := [] }) = steps ty ds := by
    simp [steps, names_params, bodies_params]
  simp [implicit, explicitly, this]

/-- So a step `f(x): body` is not the function that it is in a plain block. -/
theorem params_false : ¬ ∀ (V : Type) (r : Reg) (sp : Spec) (f x : String) (body : Term V),
    f ∉ heads sp → ∃ t, explicitly r sp none [⟨some f, [x], some body⟩] [.name f] = .ok t ∧ ∀ I ρ, t.eval I ρ =
      runs (bindIn I ρ sp) (retIn I ρ sp) [(f, fun σ => I.fn fun v => body.eval I (σ.set x v))] (fun σ => σ f) ρ := by
  intro h
  obtain ⟨t, ht, hv⟩ := h Nat ⟨fun _ => true, fun _ => none⟩ (.namespaced "let") "f" "x" (.var "x") (by decide)
  have : t = chain (.namespaced "let") [("f", .var "x")] (.var "f") := by injection ht.symm
  subst this
  exact absurd (hv toy fun _ => 0) (by decide)

theorem names_safe (ds : List (Decl V)) : names ds ≠ .error .panic := by
  induction ds with
  | nil => simp [names]
  | cons d ds ih =>
    unfold names
    split
    · simp
    · split
      · simp
      · rename_i e he; intro h; injection h with h; exact ih (by rw [he, h])

theorem bodies_safe (ty : Option String) (ds : List (Decl V)) : bodies ty ds ≠ .error .panic := by
  induction ds with
  | nil => simp [bodies]
  | cons d ds ih =>
    unfold bodies
    split
    · simp
    · split
      · simp
      · rename_i e he; intro h; injection h with h; exact ih (by rw [he, h])

theorem steps_safe (ty : Option String) (ds : List (Decl V)) : steps ty ds ≠ .error .panic := by
  unfold steps
  split
  · simp
  · split
    · rename_i e he; intro h; injection h with h; exact names_safe ds (by rw [he, h])
    · split
      · rename_i e he; intro h; injection h with h; exact bodies_safe ty ds (by rw [he, h])
      · simp

theorem implicit_safe (sp : Spec) (ty : Option String) (ds : List (Decl V)) : implicit sp ty ds ≠ .error .panic := by
  unfold implicit
  split
  · rename_i e he; intro h; injection h with h; exact steps_safe ty ds (by rw [he, h])
  · simp

theorem term_safe (r : Reg) (e : Elem V) : e.term r ≠ .error .panic := by
  unfold Elem.term
  split
  · simp
  · simp
  · simp
  · simp
  · split
    · split
      · exact implicit_safe _ _ _
      · simp
    · simp
  · exact implicit_safe _ _ _
  · simp

theorem explicitly_safe (r : Reg) (sp : Spec) (ty : Option String) (ds : List (Decl V)) (ret : List (Elem V)) :
    explicitly r sp ty ds ret ≠ .error .panic := by
  unfold explicitly
  split
  · rename_i e he; intro h; injection h with h; exact steps_safe ty ds (by rw [he, h])
  · split
    · rename_i e he
      intro h
      injection h with h
      subst h
      cases ret with
      | nil => simp [returnChain] at he
      | cons a as =>
        simp only [returnChain] at he
        split at he
        · simp at he
        · rename_i er her; injection he with he; exact term_safe r a (by rw [her, he])
    · simp

theorem put_safe {f : Term V → Piece V} {t : Except Err (Term V)} {rest : Except Err (List (Piece V))}
    (h1 : t ≠ .error .panic) (h2 : rest ≠ .error .panic) : put f t rest ≠ .error .panic := by
  unfold put
  split
  · rename_i e; intro h; injection h with h; exact h1 (by rw [h])
  · split
    · simp
    · rename_i e; intro h; injection h with h; exact h2 (by rw [h])

theorem ends_cons {e : Elem V} {l : List (Elem V)} (h : ¬ EndsInDot (e :: l)) : ¬ EndsInDot l := by
  rintro ⟨pre, x, rfl, hx⟩
  exact h ⟨e :: pre, x, rfl, hx⟩

/-- Elements that do not end with a monadic block and a dot are read without a panic. -/
theorem panics_partial (r : Reg) (pending : Bool) (l : List (Elem V)) (h : ¬ EndsInDot l) :
    scan r pending l ≠ .error .panic := by
  fun_induction scan r pending l with
  | case1 => simp
  | case2 => simp
  | case3 p sp ds => exact absurd ⟨[], _, rfl, .inr ⟨_, _, rfl⟩⟩ h
  | case4 p sp ds e rest ih => exact put_safe (explicitly_safe _ _ _ _ _) (ih (ends_cons (ends_cons (ends_cons h))))
  | case5 => rename_i ih; exact put_safe (implicit_safe _ _ _) (ih (ends_cons h))
  | case6 => exact put_safe (implicit_safe _ _ _) (put_safe (by simp) (by simp))
  | case7 => exact absurd ⟨[], _, rfl, .inl ⟨_, _, _, rfl⟩⟩ h
  | case8 => rename_i ih; exact put_safe (implicit_safe _ _ _) (ih (ends_cons h))
  | case9 =>
    rename_i ih
    exact put_safe (explicitly_safe _ _ _ _ _) (ih (ends_cons (ends_cons (ends_cons h))))
  | case10 => rename_i ih; exact put_safe (implicit_safe _ _ _) (ih (ends_cons h))
  | _ => rename_i ih; exact put_safe (by simp) (ih (ends_cons h))

/-- `{ :io x: a }.` with nothing after the dot panics, as does a bracket block. -/
theorem panics_false : ¬ ∀ (V : Type) (r : Reg) (l : List (Elem V)), scan r false l ≠ .error .panic := by
  intro h
  exact h Nat ⟨fun _ => true, fun _ => none⟩ [.block ⟨some (.namespaced "io"), [], .dot⟩, .dot] (by simp [scan])

/-- Each such end panics, whatever the block holds, registered or not. -/
theorem panics_always (r : Reg) (sp : Spec) (ds : List (Decl V)) (t : Term V) :
    scan r false [.block ⟨some sp, ds, t⟩, .dot] = .error .panic ∧
      ∀ p, scan r p [.bracket (some sp) ds, .dot] = .error .panic :=
  ⟨by simp [scan], fun p => by simp [scan]⟩

/-- The return expression is the one element after the dot; what stands after it is read as if the block were a value. -/
theorem one_return (r : Reg) (sp : Spec) (ds : List (Decl V)) (t : Term V) (e : Elem V) (rest : List (Elem V)) :
    scan r false (.block ⟨some sp, ds, t⟩ :: .dot :: e :: rest) =
        put .term (explicitly r sp (r.typeOf sp) ds [e]) (scan r false rest) ∧
      ∀ p, scan r p (.bracket (some sp) ds :: .dot :: e :: rest) =
        put .term (explicitly r sp (r.typeOf sp) ds [e]) (scan r p rest) :=
  ⟨by simp [scan], fun p => by simp [scan]⟩

/-- A block with no dot after it reports its names, if its monad is known. -/
theorem no_return (r : Reg) {sp : Spec} (hr : r.has sp = true) (ds : List (Decl V)) (t : Term V) {rest : List (Elem V)}
    (h : ∀ l, rest ≠ .dot :: l) :
    scan r false (.block ⟨some sp, ds, t⟩ :: rest) =
      put .term (implicit sp (r.typeOf sp) ds) (scan r false rest) := by
  cases rest with
  | nil => simp [scan, hr]
  | cons x xs =>
    cases x with
    | dot => exact absurd rfl (h xs)
    | _ => rw [scan] <;> simp [hr]

/-- After a dot a block of a known monad reports its names, and a dot after it is a lookup. -/
theorem under_dot (r : Reg) {sp : Spec} (hr : r.has sp = true) (ds : List (Decl V)) (t : Term V) (rest : List (Elem V)) :
    scan r true (.block ⟨some sp, ds, t⟩ :: rest) =
      put .under (implicit sp (r.typeOf sp) ds) (scan r false rest) := by
  cases rest with
  | nil => simp [scan, hr]
  | cons x xs =>
    cases x with
    | dot => cases xs <;> simp [scan, hr]
    | _ => rw [scan] <;> simp [hr]

/-- A block whose tag is no monad is a plain block, if no dot comes after it. Missing for the full statement
(`tagged_false`): with a dot. -/
theorem tagged_partial (r : Reg) {sp : Spec} (hr : r.has sp = false) (ds : List (Decl V)) (t : Term V) {rest : List (Elem V)}
    (h : ∀ l, rest ≠ .dot :: l) :
    scan r false (.block ⟨some sp, ds, t⟩ :: rest) = put .term (.ok t) (scan r false rest) := by
  cases rest with
  | nil => simp [scan, hr]
  | cons x xs =>
    cases x with
    | dot => exact absurd rfl (h xs)
    | _ => rw [scan] <;> simp [hr]

/-- `{ :secret x: 1 }.x` is not a lookup in the block: it calls `secret.bind`. -/
theorem tagged_false : ¬ ∀ (V : Type) (r : Reg) (sp : Spec) (ds : List (Decl V)) (t : Term V) (rest : List (Elem V)),
    r.has sp = false →
    scan r false (.block ⟨some sp, ds, t⟩ :: rest) = put .term (.ok t) (scan r false rest) := by
  intro h
  have := h Nat ⟨fun _ => false, fun _ => none⟩ (.namespaced "secret") [] .dot [.dot, .name "x"] rfl
  simp [scan, explicitly, steps, put] at this

/-- A bracket block with no dot after it reports its names, wherever it stands. -/
theorem bracket_reports (r : Reg) (p : Bool) (sp : Spec) (ds : List (Decl V)) {rest : List (Elem V)}
    (h : ∀ l, rest ≠ .dot :: l) :
    scan r p (.bracket (some sp) ds :: rest) = put .term (implicit sp (r.typeOf sp) ds) (scan r p rest) := by
  cases rest with
  | nil => simp [scan]
  | cons x xs =>
    cases x with
    | dot => exact absurd rfl (h xs)
    | _ => rw [scan] <;> simp

/-- Rows without blocks stay as they are, in order, and a monadic block after them is read as after the last of them. -/
theorem row_stays (r : Reg) (p : Bool) (l rest : List (Elem V)) (h : ∀ e ∈ l, simple e ≠ none) (ps : List (Piece V))
    (hr : scan r (pends p l) rest = .ok ps) :
    scan r p (l ++ rest) = .ok ((l.filterMap simple).map .term ++ ps) := by
  induction l generalizing p with
  | nil => simpa [pends] using hr
  | cons e l ih =>
    have h1 := h e (by simp)
    have h2 : ∀ x ∈ l, simple x ≠ none := fun x hx => h x (by simp [hx])
    cases e with
    | dot => simp [scan, ih true h2 (by simpa [pends] using hr), put, simple]
    | name x => simp [scan, ih false h2 (by simpa [pends] using hr), put, simple]
    | op t => simp [scan, ih p h2 (by simpa [pends] using hr), put, simple]
    | _ => simp [simple] at h1

/-- An element as a return expression: a block is read by its tag, and others stay. -/
theorem element_is (r : Reg) (x : String) (t : Term V) (ds : List (Decl V)) (sp : Spec) :
    Elem.term r (.name x : Elem V) = .ok (.var x) ∧ Elem.term r (.other t) = .ok t ∧
      Elem.term r (.block ⟨none, ds, t⟩) = .ok t ∧
      (r.has sp = false → Elem.term r (.block ⟨some sp, ds, t⟩) = .ok t) ∧
      (r.has sp = true → Elem.term r (.block ⟨some sp, ds, t⟩) = implicit sp (r.typeOf sp) ds) :=
  ⟨rfl, rfl, rfl, fun h => by simp [Elem.term, h], fun h => by simp [Elem.term, h]⟩

theorem dots_row (ks : List String) (u : Term V) :
    dots u (ks.flatMap fun k => [Elem.dot, .name k]) = ks.foldl .look u := by
  induction ks generalizing u with
  | nil => simp [dots]
  | cons k ks ih => simpa [dots] using ih _

/-- A return expression of an element and names is a row of lookups from the left. -/
theorem lookups_row (r : Reg) {e : Elem V} {u : Term V} (he : e.term r = .ok u) (ks : List String) :
    returnChain r (e :: ks.flatMap fun k => [Elem.dot, .name k]) = .ok (ks.foldl .look u) := by
  simp [returnChain, he, dots_row]

/-- Plain blocks stay, whatever comes after. -/
theorem plain_stays (r : Reg) (ds : List (Decl V)) (t : Term V) (rest : List (Elem V)) :
    scan r false (.block ⟨none, ds, t⟩ :: rest) = put .term (.ok t) (scan r false rest) := by
  simp [scan]

/-! ## Metadata -/

/-- A symbol names a monad, unless it is `:main` or `:suppress`. -/
theorem symbol_spec (cs : List Char) :
    specOf (.lit (':' :: cs)) = some (.namespaced (String.ofList cs)) ↔ cs ≠ "main".toList ∧ cs ≠ "suppress".toList := by
  simp only [specOf]
  split
  · rename_i h; constructor
    · simp
    · rintro ⟨a, b⟩; rcases h with h | h <;> contradiction
  · rename_i h; simp only [not_or] at h; simp only [true_iff]; exact h

/-- A literal that is no symbol names none. -/
theorem literal_spec {c : Char} (h : c ≠ ':') (cs : List Char) : specOf (.lit (c :: cs)) = none := by
  unfold specOf
  split <;> simp_all

theorem last_none {k : String} {kvs : List (String × Option (List Char))} (h : k ∉ kvs.map Prod.fst) :
    last k kvs = none := by
  induction kvs with
  | nil => rfl
  | cons e es ih =>
    simp only [List.map_cons, List.mem_cons, not_or] at h
    have h1 : e.1 ≠ k := fun x => h.1 x.symm
    simp only [last, h1, if_false, ih h.2, ite_self]

/-- The last of the declarations of a key counts. -/
theorem last_is {k : String} (v : Option (List Char)) (pre : List (String × Option (List Char)))
    {post : List (String × Option (List Char))} (h : k ∉ post.map Prod.fst) :
    last k (pre ++ (k, v) :: post) = v.map strip := by
  induction pre with
  | nil =>
    have : post.any (·.1 = k) = false := by
      rw [List.any_eq_false]
      intro x hx
      simp only [decide_eq_true_eq]
      exact fun e => h (List.mem_map.mpr ⟨x, hx, e⟩)
    show (if post.any (·.1 = k) then last k post else if k = k then v.map strip else none) = _
    rw [this]; simp
  | cons e es ih =>
    have : (es ++ (k, v) :: post).any (·.1 = k) = true := by simp
    show (if (es ++ (k, v) :: post).any (·.1 = k) then last k (es ++ (k, v) :: post)
      else if e.1 = k then e.2.map strip else none) = _
    rw [this, if_pos rfl, ih]

/-- A block of metadata names a monad by `monad`, or, with the mark, by `namespace`, and else by both of `bind` and
`return`. -/
theorem block_spec (kvs : List (String × Option (List Char))) (sp : Spec) :
    (specOf (.block false kvs) = some sp ↔ ∃ ns, last "monad" kvs = some ns ∧ sp = .namespaced (String.ofList ns)) ∧
      (specOf (.block true kvs) = some sp ↔
        (∃ ns, last "namespace" kvs = some ns ∧ sp = .namespaced (String.ofList ns)) ∨
          last "namespace" kvs = none ∧ ∃ b r, last "bind" kvs = some b ∧ last "return" kvs = some r ∧
            sp = .explicit (String.ofList b) (String.ofList r)) := by
  constructor
  · cases h : last "monad" kvs <;> simp [specOf, h, eq_comm]
  · cases h : last "namespace" kvs with
    | some ns => simp [specOf, h, eq_comm]
    | none => cases hb : last "bind" kvs <;> cases hr : last "return" kvs <;> simp [specOf, h, hb, hr, eq_comm]

/-! ## Cases that meet the hypotheses -/

/-- `a . b + { :io x: t }`: the block is not under the dot. -/
example (t : Term Nat) : scan ⟨fun _ => true, fun _ => none⟩ false
    [.name "a", .dot, .name "b", .op t, .block ⟨some (.namespaced "io"), write [("x", t)], .dot⟩] =
      .ok [.term (.var "a"), .term .dot, .term (.var "b"), .term t,
        .term (chain (.namespaced "io") [("x", t)] (.named ["x"]))] :=
  row_stays _ _ [.name "a", .dot, .name "b", .op t] [.block ⟨some (.namespaced "io"), write [("x", t)], .dot⟩]
    (by simp [simple]) _ rfl

/-- `{ :for x: xs y: f(x) }.(x + y)`: two steps, the second of which uses the first. -/
example : ∃ t, explicitly ⟨fun _ => true, fun _ => some "[a]"⟩ (.namespaced "for") (some "[a]")
    (write [("x", .user fun ρ => ρ "xs"), ("y", .user fun ρ => ρ "x" + 1)]) [.other (.user fun ρ => ρ "x" + ρ "y")] = .ok t ∧
    ∀ (I : Interp Nat) ρ, t.eval I ρ = bindIn I ρ (.namespaced "for") (ρ "xs") fun x =>
      bindIn I ρ (.namespaced "for") (x + 1) fun y => retIn I ρ (.namespaced "for") (x + y) := by
  obtain ⟨t, ht, hv⟩ := means_partial (V := Nat) ⟨fun _ => true, fun _ => some "[a]"⟩ (.namespaced "for") (some "[a]")
    (b := [("x", .user fun ρ => ρ "xs"), ("y", .user fun ρ => ρ "x" + 1)]) (by simp) (by decide)
    (e := .other (.user fun ρ => ρ "x" + ρ "y")) rfl
  refine ⟨t, ht, fun I ρ => ?_⟩
  rw [hv]
  simp [runs, Term.eval, Env.set]

example : reported (V := Nat) [("a", .dot), ("_", .dot), ("b", .dot), ("a", .dot)] = ["a", "b"] := by decide

example : heads (.namespaced "io") = ["io"] ∧ "io" ∉ ["a", "_", "b", "a"] := by decide

/-- Values with lists, which meet the hypotheses of `for_means`. -/
inductive Tree where
  | num (n : Nat)
  | list (l : List Tree)

def Tree.items : Tree → List Tree
  | .num _ => []
  | .list l => l

example (ss : List (String × (Env Tree → List Tree))) (last : Env Tree → Tree) (ρ : Env Tree) :
    runs (fun v f => .list (v.items.flatMap fun x => (f x).items)) (fun v => .list [v])
      (ss.map fun s => (s.1, fun σ => .list (s.2 σ))) last ρ = .list ((choices ss ρ).map last) := by
  apply for_means
  · intro l f g h
    congr 1
    exact List.flatMap_congr fun v hv => by rw [h v hv]; rfl
  · intro v; rfl

example : runs (fun v f => f v) id [("x", fun _ => 1), ("x", fun ρ => ρ "x" + 1)] (fun ρ => ρ "x") (fun _ => 0) = 2 := by
  rw [let_means (bind := fun v f => f v) (ret := id) (fun _ _ => rfl) fun _ => rfl]; decide

example : choices (V := Nat) [("x", fun _ => [1, 2]), ("y", fun ρ => [ρ "x", 10])] (fun _ => 0) |>.map
    (fun ρ => (ρ "x", ρ "y")) |> (· = [(1, 1), (1, 10), (2, 2), (2, 10)]) := by decide

example (xs : List (Elem Nat)) : ¬ EndsInDot (xs ++ [.dot, .name "x"]) := by
  rintro ⟨pre, e, h, _⟩
  have := congrArg (fun l => l.getLast?) h
  simp at this

example : specOf (.block true [("bind", some "b".toList), ("return", some ":r".toList)]) = some (.explicit "b" "r") := by
  decide

end Verif.MonBlk
