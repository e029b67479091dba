import Verif.DemLoops

/-!
# The demand analysis as a whole

Proofs only.
-/

namespace Verif.Dem
open Verif.Comp
variable {K : Type}

/-! ## What is asked of names -/

theorem uses_none : Uses none_ := fun _ _ _ h => by cases h

theorem uses_one (s b : Nat) : Uses (one s b) := by
  intro s' b' d h
  unfold one at h
  split at h
  · cases h; exact ⟨.inl rfl, .inr rfl, rfl, rfl⟩
  · cases h

theorem uses_unshift {e : Asks} (h : Uses e) : Uses (unshift e) := fun s i d hd => h (s + 1) i d hd

theorem plus_use {d e : Demand} (hd : d = absent ∨ Use d) (he : Use e) : Use (plus d e) := by
  obtain ⟨c, s, w, r⟩ := d
  obtain ⟨c', s', w', r'⟩ := e
  obtain ⟨h1, h2, h3, h4⟩ := he
  simp only at h1 h2 h3 h4
  subst h3 h4
  rcases hd with hd | ⟨h5, h6, h7, h8⟩
  · cases hd
    refine ⟨?_, ?_, rfl, rfl⟩
    · rcases h1 with rfl | rfl <;> simp [plus, plusCard]
    · rcases h2 with rfl | rfl <;> simp [plus, plusStrict]
  · simp only at h5 h6 h7 h8
    subst h7 h8
    refine ⟨?_, ?_, rfl, rfl⟩
    · rcases h1 with rfl | rfl <;> rcases h5 with rfl | rfl <;> simp [plus, plusCard]
    · rcases h2 with rfl | rfl <;> rcases h6 with rfl | rfl <;> simp [plus, plusStrict]

theorem scale_use {d e : Demand} (hd : Use d) (he : Use e) : Use (scale d e) := by
  obtain ⟨c, s, w, r⟩ := d
  obtain ⟨c', s', w', r'⟩ := e
  obtain ⟨h1, h2, h3, h4⟩ := he
  obtain ⟨h5, h6, h7, h8⟩ := hd
  simp only at h1 h2 h3 h4 h5 h6 h7 h8
  subst h4 h8
  refine ⟨?_, ?_, rfl, rfl⟩
  · rcases h1 with rfl | rfl <;> rcases h5 with rfl | rfl <;> simp [scale, scaleCard]
  · rcases h2 with rfl | rfl <;> rcases h6 with rfl | rfl <;> simp [scale, scaleStrict]

theorem uses_merge {a b : Asks} (ha : Uses a) (hb : Uses b) : Uses (merge a b) := by
  intro s i d h
  unfold merge at h
  cases hbs : b s i with
  | none => rw [hbs] at h; exact ha s i d h
  | some e =>
    rw [hbs] at h
    cases h
    refine plus_use ?_ (hb s i e hbs)
    cases has : a s i with
    | none => exact .inl rfl
    | some d => exact .inr (ha s i d has)

theorem uses_scaled {e : Asks} {d : Demand} (he : Uses e) (hd : Use d) : Uses (scaled e d) := by
  intro s i r h
  obtain ⟨r', hr, rfl⟩ := Option.map_eq_some_iff.1 h
  exact scale_use (he s i r' hr) hd

theorem uses_outward {body : Asks} {es : List Asks} {ds : List Demand} (hb : Uses body) (he : ∀ e ∈ es, Uses e) :
    Uses (outward body es ds) := by
  induction es generalizing body ds with
  | nil => unfold outward; exact hb
  | cons e es ih =>
    cases ds with
    | nil => exact hb
    | cons d ds =>
      unfold outward
      refine ih ?_ fun e h => he e (by simp [h])
      split
      · exact uses_merge hb (uses_unshift (he e (by simp)))
      · exact hb

/-- A signature speaks of uses, or says that there is none. -/
def SigOk (s : Sig) : Prop := ∀ d ∈ s, d.card = .absent ∨ Use d

theorem signature_ok {e : Asks} (h : Uses e) (n : Nat) : SigOk (signature e n) := by
  intro d hd
  obtain ⟨i, _, rfl⟩ := List.mem_map.1 hd
  unfold asked
  cases he : e 0 i with
  | none => exact .inl rfl
  | some d => exact .inr (h _ _ _ he)

theorem argAsked_ok {sig : Option Sig} (h : ∀ s, sig = some s → SigOk s) (i : Nat) :
    (argAsked sig i).card = .absent ∨ Use (argAsked sig i) := by
  have hl : Use lazyMulti := ⟨.inr rfl, .inl rfl, rfl, rfl⟩
  unfold argAsked
  cases sig with
  | none => exact .inr hl
  | some s =>
    simp only [Option.getD_some]
    cases hi : s[i]? with
    | none => exact .inr hl
    | some d => exact h s rfl d (List.mem_of_getElem? hi)

/-! ## It comes to an end -/

/-- What comes of an expression is as it should be. -/
structure OutOk (o : Out K) : Prop where
  env : Uses o.env
  sig : ∀ s, o.sig = some s → SigOk s

theorem calledSig_ok {seeds : String → Option Sig} (hs : Sound seeds) {f : Exp K} {sig : Option Sig}
    (h : ∀ s, sig = some s → SigOk s) : ∀ s, calledSig seeds f sig = some s → SigOk s := by
  intro s hc
  unfold calledSig at hc
  split at hc
  · exact hs _ _ hc
  · split at hc
    · exact h s hc
    · cases hc
  · cases hc

mutual
theorem ana_ends {seeds : String → Option Sig} (hs : Sound seeds) {turns : Nat} (x : Exp K) (h : 4 * width x < turns) (σ : Named) :
    ∃ o σ', ana seeds turns x σ = some (o, σ') ∧ OutOk o := by
  match x with
  | .var s b name => exact ⟨_, _, rfl, uses_one s b, fun _ h => by cases h⟩
  | .let_ bs body =>
    simp only [width] at h
    obtain ⟨o, σ1, h1, ho⟩ := ana_ends (turns := turns) hs body (by omega) σ
    obtain ⟨bs', es, ss, σ2, h2, hl, he⟩ := anaBinds_ends (turns := turns) hs bs (by omega) σ1
    have h3 := letDemands_ends ho.env he (turns := turns) (block := isBlock o.x) (by omega)
    obtain ⟨ds, hd⟩ := Option.isSome_iff_exists.1 h3
    refine ⟨_, _, by simp only [ana, h1, h2, hd]; exact rfl, uses_outward (uses_unshift ho.env) he, fun _ h => by cases h⟩
  | .lam smid n body =>
    obtain ⟨o, σ1, h1, ho⟩ := ana_ends (turns := turns) hs body (by simpa only [width] using h) σ
    exact ⟨_, _, by simp only [ana, h1]; exact rfl, uses_unshift ho.env, fun s h => by cases h; exact signature_ok ho.env n⟩
  | .app smid f args =>
    simp only [width] at h
    obtain ⟨o, σ1, h1, ho⟩ := ana_ends (turns := turns) hs f (by omega) σ
    obtain ⟨xs, e, σ2, h2, he⟩ := anaArgs_ends (turns := turns) hs (calledSig_ok (f := f) hs ho.sig) args (by omega) 0 o.env σ1 ho.env
    exact ⟨_, _, by simp only [ana, h1, h2]; exact rfl, he, fun _ h => by cases h⟩
  | .lookup smid obj key =>
    obtain ⟨o, σ1, h1, ho⟩ := ana_ends (turns := turns) hs obj (by simpa only [width] using h) σ
    exact ⟨⟨.lookup smid o.x key, o.env, none⟩, σ1, by simp only [ana, h1], ho.env, fun _ h => by cases h⟩
  | .lookupOr smid obj key dft =>
    simp only [width] at h
    obtain ⟨o, σ1, h1, ho⟩ := ana_ends (turns := turns) hs obj (by omega) σ
    obtain ⟨o', σ2, h2, ho'⟩ := ana_ends (turns := turns) hs dft (by omega) σ1
    exact ⟨_, _, by simp only [ana, h1, h2]; exact rfl, uses_merge ho.env ho'.env, fun _ h => by cases h⟩
  | .list smid xs =>
    obtain ⟨xs, e, σ2, h2, he⟩ := anaItems_ends (turns := turns) hs xs (by simpa only [width] using h) none_ σ uses_none
    exact ⟨_, _, by simp only [ana, h2]; exact rfl, he, fun _ h => by cases h⟩
  | .block smid kvs =>
    obtain ⟨xs, e, σ2, h2, he⟩ := anaKvs_ends (turns := turns) hs kvs (by simpa only [width] using h) none_ σ uses_none
    exact ⟨_, _, by simp only [ana, h2]; exact rfl, he, fun _ h => by cases h⟩
  | .metaOf smid body m =>
    simp only [width] at h
    obtain ⟨o, σ1, h1, ho⟩ := ana_ends (turns := turns) hs body (by omega) σ
    obtain ⟨o', σ2, h2, ho'⟩ := ana_ends (turns := turns) hs m (by omega) σ1
    exact ⟨⟨.metaOf smid o.x o'.x, merge o.env o'.env, o.sig⟩, σ2, by simp only [ana, h1, h2], uses_merge ho.env ho'.env, ho.sig⟩
  | .free _ | .lit _ | .intrinsic _ | .operator _ _ | .other => exact ⟨_, _, rfl, uses_none, fun _ h => by cases h⟩
termination_by structural x
theorem anaArgs_ends {seeds : String → Option Sig} (hs : Sound seeds) {turns : Nat} {sig : Option Sig}
    (hg : ∀ s, sig = some s → SigOk s) (xs : Exps K) (h : 4 * widthAll xs < turns) (i : Nat) (e : Asks) (σ : Named) (he : Uses e) :
    ∃ ys e' σ', anaArgs seeds turns sig xs i e σ = some (ys, e', σ') ∧ Uses e' := by
  match xs with
  | .nil => exact ⟨_, _, _, rfl, he⟩
  | .cons x xs =>
    simp only [widthAll] at h
    obtain ⟨o, σ1, h1, ho⟩ := ana_ends (turns := turns) hs x (by omega) σ
    have hd := argAsked_ok hg i
    have hm : Uses (if (argAsked sig i).card != .absent then merge e (scaled o.env (argAsked sig i)) else e) := by
      split
      · rename_i hne
        refine uses_merge he (uses_scaled ho.env ?_)
        rcases hd with hd | hd
        · rw [hd] at hne; cases hne
        · exact hd
      · exact he
    obtain ⟨ys, e', σ2, h2, he'⟩ := anaArgs_ends (turns := turns) hs hg xs (by omega) (i + 1) _ σ1 hm
    exact ⟨_, _, _, by simp only [anaArgs, h1, h2]; exact rfl, he'⟩
termination_by structural xs
theorem anaItems_ends {seeds : String → Option Sig} (hs : Sound seeds) {turns : Nat} (xs : Exps K) (h : 4 * widthAll xs < turns)
    (e : Asks) (σ : Named) (he : Uses e) : ∃ ys e' σ', anaItems seeds turns xs e σ = some (ys, e', σ') ∧ Uses e' := by
  match xs with
  | .nil => exact ⟨_, _, _, rfl, he⟩
  | .cons x xs =>
    simp only [widthAll] at h
    obtain ⟨o, σ1, h1, ho⟩ := ana_ends (turns := turns) hs x (by omega) σ
    obtain ⟨ys, e', σ2, h2, he'⟩ := anaItems_ends (turns := turns) hs xs (by omega) _ σ1 (uses_merge he ho.env)
    exact ⟨_, _, _, by simp only [anaItems, h1, h2]; exact rfl, he'⟩
termination_by structural xs
theorem anaKvs_ends {seeds : String → Option Sig} (hs : Sound seeds) {turns : Nat} (kvs : Kvs K) (h : 4 * widthKvs kvs < turns)
    (e : Asks) (σ : Named) (he : Uses e) : ∃ ys e' σ', anaKvs seeds turns kvs e σ = some (ys, e', σ') ∧ Uses e' := by
  match kvs with
  | .nil => exact ⟨_, _, _, rfl, he⟩
  | .cons k x rest =>
    simp only [widthKvs] at h
    obtain ⟨o, σ1, h1, ho⟩ := ana_ends (turns := turns) hs x (by omega) σ
    obtain ⟨ys, e', σ2, h2, he'⟩ := anaKvs_ends (turns := turns) hs rest (by omega) _ σ1 (uses_merge he ho.env)
    exact ⟨_, _, _, by simp only [anaKvs, h1, h2]; exact rfl, he'⟩
termination_by structural kvs
theorem anaBinds_ends {seeds : String → Option Sig} (hs : Sound seeds) {turns : Nat} (bs : Binds K) (h : 4 * widthBinds bs < turns)
    (σ : Named) : ∃ bs' es ss σ', anaBinds seeds turns bs σ = some (bs', es, ss, σ') ∧ es.length = count bs ∧ ∀ e ∈ es, Uses e := by
  match bs with
  | .nil => exact ⟨_, _, _, _, rfl, rfl, by simp⟩
  | .cons name d x rest =>
    simp only [widthBinds] at h
    obtain ⟨o, σ1, h1, ho⟩ := ana_ends (turns := turns) hs x (by omega) σ
    obtain ⟨bs', es, ss, σ2, h2, hl, he⟩ := anaBinds_ends (turns := turns) hs rest (by omega) σ1
    refine ⟨_, _, _, _, by simp only [anaBinds, h1, h2]; exact rfl, by simp [count, hl], ?_⟩
    intro e he'
    rcases List.mem_cons.1 he' with rfl | he'
    · exact ho.env
    · exact he e he'
termination_by structural bs
end

/-! ## It writes on bindings and does nothing else -/

theorem putAll_bare (bs : Binds K) (ds : List Demand) : bareBinds (putAll bs ds) = bareBinds bs := by
  match bs, ds with
  | .nil, ds => cases ds <;> rfl
  | .cons _ _ _ _, [] => rfl
  | .cons name d x rest, e :: ds => simp only [putAll, bareBinds, putAll_bare rest ds]
termination_by structural bs

mutual
theorem ana_bare {seeds : String → Option Sig} {turns : Nat} (x : Exp K) {σ σ' : Named} {o : Out K}
    (h : ana seeds turns x σ = some (o, σ')) : bare o.x = bare x := by
  match x with
  | .var s b name => simp only [ana] at h; cases h; rfl
  | .let_ bs body =>
    simp only [ana] at h
    split at h
    · cases h
    · rename_i o1 σ1 h1
      split at h
      · cases h
      · rename_i bs' es ss σ2 h2
        split at h
        · cases h
        · cases h
          simp only [bare, putAll_bare, ana_bare body h1, anaBinds_bare bs h2]
  | .lam smid n body =>
    simp only [ana] at h
    split at h
    · cases h
    · rename_i o1 σ1 h1
      cases h
      simp only [bare, ana_bare body h1]
  | .app smid f args =>
    simp only [ana] at h
    split at h
    · cases h
    · rename_i o1 σ1 h1
      split at h
      · cases h
      · rename_i xs e σ2 h2
        cases h
        simp only [bare, ana_bare f h1, anaArgs_bare args h2]
  | .lookup smid obj key =>
    simp only [ana] at h
    split at h
    · cases h
    · rename_i o1 σ1 h1
      cases h
      simp only [bare, ana_bare obj h1]
  | .lookupOr smid obj key dft =>
    simp only [ana] at h
    split at h
    · cases h
    · rename_i o1 σ1 h1
      split at h
      · cases h
      · rename_i o2 σ2 h2
        cases h
        simp only [bare, ana_bare obj h1, ana_bare dft h2]
  | .list smid xs =>
    simp only [ana] at h
    split at h
    · cases h
    · rename_i ys e σ1 h1
      cases h
      simp only [bare, anaItems_bare xs h1]
  | .block smid kvs =>
    simp only [ana] at h
    split at h
    · cases h
    · rename_i ys e σ1 h1
      cases h
      simp only [bare, anaKvs_bare kvs h1]
  | .metaOf smid body m =>
    simp only [ana] at h
    split at h
    · cases h
    · rename_i o1 σ1 h1
      split at h
      · cases h
      · rename_i o2 σ2 h2
        cases h
        simp only [bare, ana_bare body h1, ana_bare m h2]
  | .free _ | .lit _ | .intrinsic _ | .operator _ _ | .other => simp only [ana] at h; cases h; rfl
termination_by structural x
theorem anaArgs_bare {seeds : String → Option Sig} {turns : Nat} {sig : Option Sig} (xs : Exps K) {i : Nat} {e e' : Asks}
    {σ σ' : Named} {ys : Exps K} (h : anaArgs seeds turns sig xs i e σ = some (ys, e', σ')) : bareAll ys = bareAll xs := by
  match xs with
  | .nil => simp only [anaArgs] at h; cases h; rfl
  | .cons x xs =>
    simp only [anaArgs] at h
    split at h
    · cases h
    · rename_i o σ1 h1
      split at h
      · cases h
      · rename_i zs e1 σ2 h2
        cases h
        simp only [bareAll, ana_bare x h1, anaArgs_bare xs h2]
termination_by structural xs
theorem anaItems_bare {seeds : String → Option Sig} {turns : Nat} (xs : Exps K) {e e' : Asks}
    {σ σ' : Named} {ys : Exps K} (h : anaItems seeds turns xs e σ = some (ys, e', σ')) : bareAll ys = bareAll xs := by
  match xs with
  | .nil => simp only [anaItems] at h; cases h; rfl
  | .cons x xs =>
    simp only [anaItems] at h
    split at h
    · cases h
    · rename_i o σ1 h1
      split at h
      · cases h
      · rename_i zs e1 σ2 h2
        cases h
        simp only [bareAll, ana_bare x h1, anaItems_bare xs h2]
termination_by structural xs
theorem anaKvs_bare {seeds : String → Option Sig} {turns : Nat} (kvs : Kvs K) {e e' : Asks}
    {σ σ' : Named} {ys : Kvs K} (h : anaKvs seeds turns kvs e σ = some (ys, e', σ')) : bareKvs ys = bareKvs kvs := by
  match kvs with
  | .nil => simp only [anaKvs] at h; cases h; rfl
  | .cons k x rest =>
    simp only [anaKvs] at h
    split at h
    · cases h
    · rename_i o σ1 h1
      split at h
      · cases h
      · rename_i zs e1 σ2 h2
        cases h
        simp only [bareKvs, ana_bare x h1, anaKvs_bare rest h2]
termination_by structural kvs
theorem anaBinds_bare {seeds : String → Option Sig} {turns : Nat} (bs : Binds K) {σ σ' : Named} {bs' : Binds K} {es : List Asks}
    {ss : List (Option Sig)} (h : anaBinds seeds turns bs σ = some (bs', es, ss, σ')) : bareBinds bs' = bareBinds bs := by
  match bs with
  | .nil => simp only [anaBinds] at h; cases h; rfl
  | .cons name d x rest =>
    simp only [anaBinds] at h
    split at h
    · cases h
    · rename_i o σ1 h1
      split at h
      · cases h
      · rename_i rest' es' ss' σ2 h2
        cases h
        simp only [bareBinds, ana_bare x h1, anaBinds_bare rest h2]
termination_by structural bs
end

end Verif.Dem
