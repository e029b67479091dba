import Verif.FuseRun

/-!
# Folding keeps what is shown, and comes to an end

Proofs only.
-/

namespace Verif.Fuse
open Verif.Fold
variable {K : Type} {P : Comp.World K}

/-! ## Steps one after the other -/

inductive Star {α : Type} (R : α → α → Prop) : α → α → Prop where
  | nil {x} : Star R x x
  | cons {x y z} : R x y → Star R y z → Star R x z

theorem Star.trans {α : Type} {R : α → α → Prop} {x y z : α} (h : Star R x y) (h' : Star R y z) : Star R x z := by
  induction h with
  | nil => exact h'
  | cons hr _ ih => exact .cons hr (ih h')

theorem Star.map {α β : Type} {R : α → α → Prop} {Q : β → β → Prop} (f : α → β) (hf : ∀ x y, R x y → Q (f x) (f y)) {x y : α}
    (h : Star R x y) : Star Q (f x) (f y) := by
  induction h with
  | nil => exact .nil
  | cons hr _ ih => exact .cons (hf _ _ hr) ih

theorem Star.both {α β γ : Type} {R : α → α → Prop} {Q : β → β → Prop} {W : γ → γ → Prop} (f : α → β → γ)
    (hr : ∀ x, R x x) (hq : ∀ x, Q x x) (hf : ∀ x y a b, R x y → Q a b → W (f x a) (f y b)) {x y : α} {a b : β}
    (h : Star R x y) (h' : Star Q a b) : Star W (f x a) (f y b) :=
  (h.map (f · a) fun _ _ h => hf _ _ _ _ h (hq _)).trans (h'.map (f y) fun _ _ h => hf _ _ _ _ (hr _) h)

theorem star_shows {x y : Comp.Exp K} (h : Star (T P) x y) (p : List Nat) (s : Sem.Seen K) :
    Comp.Shows P x p s ↔ Comp.Shows P y p s := by
  induction h with
  | nil => exact Iff.rfl
  | cons hr _ ih => exact (shows_same hr p s).trans ih

/-! ## Nodes -/

theorem fields_same {xs ys : Comp.Exps K} (h : Ts P xs ys) (ks : List K) : Tk P (Inl.fields ks xs) (Inl.fields ks ys) := by
  match ks, h with
  | [], _ => exact .nil
  | _ :: _, .nil => exact .nil
  | k :: ks, .cons hx hxs => exact .cons hx (fields_same hxs ks)

theorem lookupOr_same {k : K} {x y d e : Comp.Exp K} (hx : T P x y) (hd : T P d e) : T P (lookupOr k x d) (lookupOr k y e) :=
  .head (.app (T.refl _) (.cons (T.refl _) (.cons hd (.cons hx .nil))))

theorem lookupFail_same {k : K} {x y : Comp.Exp K} (hx : T P x y) : T P (lookupFail k x) (lookupFail k y) :=
  .head (.app (T.refl _) (.cons (T.refl _) (.cons hx .nil)))

theorem node_same (k : Inl.Kind K) {xs ys : Comp.Exps K} (h : Ts P xs ys) : T P (meanNode k xs) (meanNode k ys) := by
  match k with
  | .list => exact .head (.list h)
  | .block ks => exact .head (.block (fields_same h ks))
  | .lookup k => match h with
    | .nil => exact T.refl _
    | .cons hx .nil => exact lookupOr_same hx (lookupFail_same hx)
    | .cons _ (.cons _ _) => exact T.refl _
  | .lookupOr k => match h with
    | .nil => exact T.refl _
    | .cons _ .nil => exact T.refl _
    | .cons hx (.cons hd .nil) => exact lookupOr_same hx hd
    | .cons _ (.cons _ (.cons _ _)) => exact T.refl _
  | .operator => match h with
    | .nil => exact T.refl _
    | .cons hx .nil => exact .head (.operator hx)
    | .cons _ (.cons _ _) => exact T.refl _
  | .other => exact T.refl _

/-! ## Folding -/

section
variable [DecidableEq K] {sym : K → Prop}

theorem member_first (k : K) (ks : List K) (xs : Inl.Exps K) :
    (member k ks xs).map mean = first k (Inl.fields ks (meanL xs)) := by
  match ks, xs with
  | [], .nil => rfl
  | [], .cons _ _ => rfl
  | _ :: _, .nil => rfl
  | k' :: ks, .cons x xs =>
    simp only [member, meanL, Inl.fields, first]
    split
    · rfl
    · exact member_first k ks xs
termination_by structural ks

theorem keyed_fields {ks : List K} (h : ∀ k ∈ ks, sym k) (xs : Comp.Exps K) : KvSym sym (Inl.fields ks xs) := by
  match ks, xs with
  | [], .nil => trivial
  | [], .cons _ _ => trivial
  | _ :: _, .nil => trivial
  | k :: ks, .cons x xs => exact ⟨h k (by simp), keyed_fields (fun k hk => h k (by simp [hk])) xs⟩

/-- The four ways to fold. -/
inductive Folds : Inl.Exp K → Inl.Exp K → Prop where
  | lookup {k ks xs y} : member k ks xs = some y → Folds (.node (.lookup k) (.cons (.node (.block ks) xs) .nil)) y
  | found {k ks xs d y} : member k ks xs = some y → Folds (.node (.lookupOr k) (.cons (.node (.block ks) xs) (.cons d .nil))) y
  | missing {k ks xs d} : member k ks xs = none → Folds (.node (.lookupOr k) (.cons (.node (.block ks) xs) (.cons d .nil))) d
  | head {x xs} : Folds (.app (.intrinsic "HEAD") (.cons (.node .list (.cons x xs)) .nil)) x
  | tail {x xs} : Folds (.app (.intrinsic "TAIL") (.cons (.node .list (.cons x xs)) .nil)) (.node .list xs)

theorem lookup_folds {x y : Inl.Exp K} (hf : foldLookup x = some y) : Folds x y := by
  unfold foldLookup at hf
  split at hf
  · exact .lookup hf
  · split at hf
    · rename_i hz
      cases hf
      exact .found hz
    · rename_i hz
      cases hf
      exact .missing hz
  · cases hf

theorem head_folds {x y : Inl.Exp K} (hf : foldHead x = some y) : Folds x y := by
  unfold foldHead at hf
  split at hf
  · split at hf
    · rename_i hn
      subst hn
      split at hf
      · cases hf
        exact .head
      · cases hf
    · cases hf
  · cases hf

theorem tail_folds {x y : Inl.Exp K} (hf : foldTail x = some y) : Folds x y := by
  unfold foldTail at hf
  split at hf
  · split at hf
    · rename_i hn
      subst hn
      split at hf
      · cases hf
        exact .tail
      · cases hf
    · cases hf
  · cases hf

theorem fold_folds {x y : Inl.Exp K} (hf : fold x = some y) : Folds x y := by
  unfold fold at hf
  rcases Option.or_eq_some_iff.1 hf with hf | ⟨_, hf⟩
  · exact lookup_folds hf
  · rcases Option.or_eq_some_iff.1 hf with hf | ⟨_, hf⟩
    · exact head_folds hf
    · exact tail_folds hf

theorem leads_join {x : Comp.Exp K} {g : Comp.Exp K} (h : Leads P x (.exp g)) : T P x g :=
  .join ⟨.exp g, h, fun _ _ => ⟨0, .zero⟩⟩

theorem fold_same (h : Std sym P) {x y : Inl.Exp K} (hk : Keyed sym x) (hf : fold x = some y) : T P (mean x) (mean y) := by
  match fold_folds hf with
  | .lookup (k := k) (ks := ks) (xs := xs) hm =>
    have := lookup_leads h (k := k) hk.1 _ (keyed_fields hk.2.1.1 (meanL xs)) (lookupFail k (.block 0 (Inl.fields ks (meanL xs))))
    rw [← member_first, hm] at this
    exact leads_join this
  | .found (k := k) (xs := xs) (d := d) hm =>
    have := lookup_leads h (k := k) hk.1 _ (keyed_fields hk.2.1.1 (meanL xs)) (mean d)
    rw [← member_first, hm] at this
    exact leads_join this
  | .missing (k := k) (xs := xs) (d := d) hm =>
    have := lookup_leads h (k := k) hk.1 _ (keyed_fields hk.2.1.1 (meanL xs)) (mean d)
    rw [← member_first, hm] at this
    exact leads_join this
  | .head => exact leads_join (head_leads h _ _)
  | .tail => exact .join ⟨_, tail_leads h _ _, list_leads _⟩

theorem member_keyed {k : K} {ks : List K} {xs : Inl.Exps K} {y : Inl.Exp K} (h : KeyedL sym xs) (hm : member k ks xs = some y) :
    Keyed sym y := by
  match ks, xs with
  | [], .nil => cases hm
  | [], .cons _ _ => cases hm
  | _ :: _, .nil => cases hm
  | k' :: ks, .cons x xs =>
    unfold member at hm
    split at hm
    · cases hm
      exact h.1
    · exact member_keyed h.2 hm
termination_by structural ks

theorem fold_keyed {x y : Inl.Exp K} (hk : Keyed sym x) (hf : fold x = some y) : Keyed sym y := by
  match fold_folds hf with
  | .lookup hm => exact member_keyed hk.2.1.2 hm
  | .found hm => exact member_keyed hk.2.1.2 hm
  | .missing _ => exact hk.2.2.1
  | .head => exact hk.2.1.2.1
  | .tail => exact ⟨trivial, hk.2.1.2.2⟩

end

/-! ## Walking -/

/-- What is asked of a function on expressions to be kept by a walk. -/
def Keeps (sym : K → Prop) (P : Comp.World K) (f : Inl.Exp K → Option (Inl.Exp K)) : Prop :=
  ∀ x y, Keyed sym x → f x = some y → Keyed sym y ∧ Star (T P) (mean x) (mean y)

variable {sym : K → Prop}

theorem mapExps_keeps {f : Inl.Exp K → Option (Inl.Exp K)} (hf : Keeps sym P f) {xs ys : Inl.Exps K} (hk : KeyedL sym xs)
    (h : mapExps f xs = some ys) : KeyedL sym ys ∧ Star (Ts P) (meanL xs) (meanL ys) := by
  match xs with
  | .nil =>
    cases h
    exact ⟨trivial, .nil⟩
  | .cons x xs =>
    simp only [mapExps, Option.bind_eq_some_iff, Option.map_eq_some_iff] at h
    obtain ⟨y, hy, zs, hz, rfl⟩ := h
    have h1 := hf x y hk.1 hy
    have h2 := mapExps_keeps hf hk.2 hz
    exact ⟨⟨h1.1, h2.1⟩, Star.both Comp.Exps.cons T.refl Ts.refl (fun _ _ _ _ => .cons) h1.2 h2.2⟩
termination_by structural xs

theorem mapBinds_keeps {f : Inl.Exp K → Option (Inl.Exp K)} (hf : Keeps sym P f) {xs ys : Inl.Binds K} (hk : KeyedB sym xs)
    (h : mapBinds f xs = some ys) : KeyedB sym ys ∧ Star (Tb P) (meanB xs) (meanB ys) := by
  match xs with
  | .nil =>
    cases h
    exact ⟨trivial, .nil⟩
  | .cons n x xs =>
    simp only [mapBinds, Option.bind_eq_some_iff, Option.map_eq_some_iff] at h
    obtain ⟨y, hy, zs, hz, rfl⟩ := h
    have h1 := hf x y hk.1 hy
    have h2 := mapBinds_keeps hf hk.2 hz
    exact ⟨⟨h1.1, h2.1⟩, Star.both (Comp.Binds.cons n {}) T.refl Tb.refl (fun _ _ _ _ => .cons) h1.2 h2.2⟩
termination_by structural xs

theorem walk_keeps {f : Inl.Exp K → Option (Inl.Exp K)} (hf : Keeps sym P f) : Keeps sym P (walk f) := by
  intro x r hk h
  match x with
  | .var v => cases h; exact ⟨hk, .nil⟩
  | .lit v => cases h; exact ⟨hk, .nil⟩
  | .intrinsic v => cases h; exact ⟨hk, .nil⟩
  | .let_ t bs b =>
    simp only [walk, Option.bind_eq_some_iff, Option.map_eq_some_iff] at h
    obtain ⟨bs', hb, b', hb', rfl⟩ := h
    have h1 := mapBinds_keeps hf hk.1 hb
    have h2 := hf _ _ hk.2 hb'
    exact ⟨⟨h1.1, h2.1⟩, Star.both Comp.Exp.let_ Tb.refl T.refl (fun _ _ _ _ h h' => .head (.let_ h h')) h1.2 h2.2⟩
  | .lam i ps b =>
    simp only [walk, Option.map_eq_some_iff] at h
    obtain ⟨b', hb', rfl⟩ := h
    have h2 := hf b b' hk hb'
    exact ⟨h2.1, Star.map (Comp.Exp.lam 0 ps.length) (fun _ _ h => .head (.lam h)) h2.2⟩
  | .app g xs =>
    simp only [walk, Option.bind_eq_some_iff, Option.map_eq_some_iff] at h
    obtain ⟨g', hg, xs', hx, rfl⟩ := h
    have h1 := hf _ _ hk.1 hg
    have h2 := mapExps_keeps hf hk.2 hx
    exact ⟨⟨h1.1, h2.1⟩, Star.both (Comp.Exp.app 0) T.refl Ts.refl (fun _ _ _ _ h h' => .head (.app h h')) h1.2 h2.2⟩
  | .metaOf x m =>
    simp only [walk, Option.bind_eq_some_iff, Option.map_eq_some_iff] at h
    obtain ⟨x', hx, m', hm, rfl⟩ := h
    have h1 := hf _ _ hk.1 hx
    have h2 := hf _ _ hk.2 hm
    exact ⟨⟨h1.1, h2.1⟩, Star.both (Comp.Exp.metaOf 0) T.refl T.refl (fun _ _ _ _ h h' => .head (.metaOf h h')) h1.2 h2.2⟩
  | .node k xs =>
    simp only [walk, Option.map_eq_some_iff] at h
    obtain ⟨xs', hx, rfl⟩ := h
    have h2 := mapExps_keeps hf hk.2 hx
    exact ⟨⟨hk.1, h2.1⟩, Star.map (meanNode k) (fun _ _ h => node_same k h) h2.2⟩

theorem fuse_keeps [DecidableEq K] (h : Std sym P) (n : Nat) : Keeps sym P (fuse n) := by
  induction n with
  | zero => intro x y _ hx; cases hx
  | succ n ih =>
    intro x y hk hx
    simp only [fuse, Option.bind_eq_some_iff] at hx
    obtain ⟨r, hr, hx⟩ := hx
    have h1 := walk_keeps ih x r hk hr
    split at hx
    · rename_i z hz
      have h2 := ih z y (fold_keyed h1.1 hz) hx
      exact ⟨h2.1, h1.2.trans (.cons (fold_same h h1.1 hz) h2.2)⟩
    · cases hx
      exact h1

/-! ## Coming to an end -/

section
variable [DecidableEq K]

mutual
/-- Nothing in it folds. -/
def Still : Inl.Exp K → Prop
  | .var v => fold (.var v : Inl.Exp K) = none
  | .let_ t bs b => fold (.let_ t bs b) = none ∧ StillB bs ∧ Still b
  | .lam i ps b => fold (.lam i ps b) = none ∧ Still b
  | .app f xs => fold (.app f xs) = none ∧ Still f ∧ StillL xs
  | .lit p => fold (.lit p : Inl.Exp K) = none
  | .intrinsic n => fold (.intrinsic n : Inl.Exp K) = none
  | .metaOf x m => fold (.metaOf x m) = none ∧ Still x ∧ Still m
  | .node k xs => fold (.node k xs) = none ∧ StillL xs
def StillL : Inl.Exps K → Prop
  | .nil => True
  | .cons x xs => Still x ∧ StillL xs
def StillB : Inl.Binds K → Prop
  | .nil => True
  | .cons _ x rest => Still x ∧ StillB rest
end

/-- Its parts are so. -/
def Inside : Inl.Exp K → Prop
  | .let_ _ bs b => StillB bs ∧ Still b
  | .lam _ _ b => Still b
  | .app f xs => Still f ∧ StillL xs
  | .metaOf x m => Still x ∧ Still m
  | .node _ xs => StillL xs
  | _ => True

theorem still_iff (x : Inl.Exp K) : Still x ↔ fold x = none ∧ Inside x := by
  cases x <;> simp [Still, Inside]

theorem member_still {k : K} {ks : List K} {xs : Inl.Exps K} {y : Inl.Exp K} (h : StillL xs) (hm : member k ks xs = some y) :
    Still y ∧ levels y ≤ levelsL xs := by
  match ks, xs with
  | [], .nil => cases hm
  | [], .cons _ _ => cases hm
  | _ :: _, .nil => cases hm
  | k' :: ks, .cons x xs =>
    unfold member at hm
    split at hm
    · cases hm
      exact ⟨h.1, by simp [levelsL]; omega⟩
    · have := member_still h.2 hm
      exact ⟨this.1, by simp [levelsL]; omega⟩
termination_by structural ks

theorem fold_still {x y : Inl.Exp K} (h : Inside x) (hf : fold x = some y) : Still y ∧ levels y < levels x := by
  match fold_folds hf with
  | .lookup hm =>
    have := member_still ((still_iff _).1 h.1).2 hm
    exact ⟨this.1, by simp only [levels, levelsL]; omega⟩
  | .found hm =>
    have := member_still ((still_iff _).1 h.1).2 hm
    exact ⟨this.1, by simp only [levels, levelsL]; omega⟩
  | .missing _ => exact ⟨h.2.1, by simp only [levels, levelsL]; omega⟩
  | .head => exact ⟨((still_iff _).1 h.2.1).2.1, by simp only [levels, levelsL]; omega⟩
  | .tail => exact ⟨(still_iff _).2 ⟨rfl, ((still_iff _).1 h.2.1).2.2⟩, by simp only [levels, levelsL]; omega⟩

theorem mapExps_self {f : Inl.Exp K → Option (Inl.Exp K)} {n : Nat} (hf : ∀ x, Still x → levels x ≤ n → f x = some x)
    {xs : Inl.Exps K} (h : StillL xs) (hn : levelsL xs ≤ n) : mapExps f xs = some xs := by
  match xs with
  | .nil => rfl
  | .cons x xs =>
    simp only [levelsL] at hn
    simp [mapExps, hf x h.1 (by omega), mapExps_self hf h.2 (by omega)]
termination_by structural xs

theorem mapBinds_self {f : Inl.Exp K → Option (Inl.Exp K)} {n : Nat} (hf : ∀ x, Still x → levels x ≤ n → f x = some x)
    {xs : Inl.Binds K} (h : StillB xs) (hn : levelsB xs ≤ n) : mapBinds f xs = some xs := by
  match xs with
  | .nil => rfl
  | .cons m x xs =>
    simp only [levelsB] at hn
    simp [mapBinds, hf x h.1 (by omega), mapBinds_self hf h.2 (by omega)]
termination_by structural xs

theorem fuse_still {n : Nat} : ∀ x : Inl.Exp K, Still x → levels x ≤ n → fuse n x = some x := by
  induction n with
  | zero =>
    intro x _ hn
    cases x <;> simp [levels] at hn
  | succ n ih =>
    intro x h hn
    obtain ⟨hf, hi⟩ := (still_iff x).1 h
    have : walk (fuse n) x = some x := by
      cases x with
      | var | lit | intrinsic => rfl
      | let_ t bs b =>
        simp only [levels] at hn
        simp [walk, mapBinds_self ih hi.1 (by omega), ih b hi.2 (by omega)]
      | lam i ps b =>
        simp only [levels] at hn
        simp [walk, ih b hi (by omega)]
      | app f xs =>
        simp only [levels] at hn
        simp [walk, mapExps_self ih hi.2 (by omega), ih f hi.1 (by omega)]
      | metaOf x m =>
        simp only [levels] at hn
        simp [walk, ih x hi.1 (by omega), ih m hi.2 (by omega)]
      | node k xs =>
        simp only [levels] at hn
        simp [walk, mapExps_self ih hi (by omega)]
    simp [fuse, this, hf]

/-- What a function has to do to what has no more than so many levels. -/
def Settles (n : Nat) (f : Inl.Exp K → Option (Inl.Exp K)) : Prop :=
  ∀ x, levels x ≤ n → ∃ y, f x = some y ∧ Still y ∧ levels y ≤ levels x

theorem mapExps_settles {f : Inl.Exp K → Option (Inl.Exp K)} {n : Nat} (hf : Settles n f) (xs : Inl.Exps K) (hn : levelsL xs ≤ n) :
    ∃ ys, mapExps f xs = some ys ∧ StillL ys ∧ levelsL ys ≤ levelsL xs := by
  match xs with
  | .nil => exact ⟨.nil, rfl, trivial, by simp⟩
  | .cons x xs =>
    simp only [levelsL] at hn
    obtain ⟨y, hy, h1, h2⟩ := hf x (by omega)
    obtain ⟨ys, hys, h3, h4⟩ := mapExps_settles hf xs (by omega)
    exact ⟨.cons y ys, by simp [mapExps, hy, hys], ⟨h1, h3⟩, by simp only [levelsL]; omega⟩
termination_by structural xs

theorem mapBinds_settles {f : Inl.Exp K → Option (Inl.Exp K)} {n : Nat} (hf : Settles n f) (xs : Inl.Binds K) (hn : levelsB xs ≤ n) :
    ∃ ys, mapBinds f xs = some ys ∧ StillB ys ∧ levelsB ys ≤ levelsB xs := by
  match xs with
  | .nil => exact ⟨.nil, rfl, trivial, by simp⟩
  | .cons m x xs =>
    simp only [levelsB] at hn
    obtain ⟨y, hy, h1, h2⟩ := hf x (by omega)
    obtain ⟨ys, hys, h3, h4⟩ := mapBinds_settles hf xs (by omega)
    exact ⟨.cons m y ys, by simp [mapBinds, hy, hys], ⟨h1, h3⟩, by simp only [levelsB]; omega⟩
termination_by structural xs

theorem walk_settles {f : Inl.Exp K → Option (Inl.Exp K)} {n : Nat} (hf : Settles n f) (x : Inl.Exp K) (hn : levels x ≤ n + 1) :
    ∃ y, walk f x = some y ∧ Inside y ∧ levels y ≤ levels x := by
  match x with
  | .var v => exact ⟨_, rfl, trivial, Nat.le_refl _⟩
  | .lit v => exact ⟨_, rfl, trivial, Nat.le_refl _⟩
  | .intrinsic v => exact ⟨_, rfl, trivial, Nat.le_refl _⟩
  | .let_ t bs b =>
    simp only [levels] at hn
    obtain ⟨bs', h, h1, h2⟩ := mapBinds_settles hf bs (by omega)
    obtain ⟨b', h', h3, h4⟩ := hf b (by omega)
    exact ⟨.let_ t bs' b', by simp [walk, h, h'], ⟨h1, h3⟩, by simp only [levels]; omega⟩
  | .lam i ps b =>
    simp only [levels] at hn
    obtain ⟨b', h', h3, h4⟩ := hf b (by omega)
    exact ⟨.lam i ps b', by simp [walk, h'], h3, by simp only [levels]; omega⟩
  | .app g xs =>
    simp only [levels] at hn
    obtain ⟨xs', h, h1, h2⟩ := mapExps_settles hf xs (by omega)
    obtain ⟨b', h', h3, h4⟩ := hf g (by omega)
    exact ⟨.app b' xs', by simp [walk, h, h'], ⟨h3, h1⟩, by simp only [levels]; omega⟩
  | .metaOf x m =>
    simp only [levels] at hn
    obtain ⟨x', h, h1, h2⟩ := hf x (by omega)
    obtain ⟨b', h', h3, h4⟩ := hf m (by omega)
    exact ⟨.metaOf x' b', by simp [walk, h, h'], ⟨h1, h3⟩, by simp only [levels]; omega⟩
  | .node k xs =>
    simp only [levels] at hn
    obtain ⟨xs', h, h1, h2⟩ := mapExps_settles hf xs (by omega)
    exact ⟨.node k xs', by simp [walk, h], h1, by simp only [levels]; omega⟩

theorem fuse_settles (n : Nat) : Settles n (fuse (K := K) n) := by
  induction n with
  | zero =>
    intro x hn
    cases x <;> simp [levels] at hn
  | succ n ih =>
    intro x hn
    obtain ⟨r, hr, hi, hl⟩ := walk_settles ih x hn
    cases hf : fold r with
    | none => exact ⟨r, by simp [fuse, hr, hf], (still_iff r).2 ⟨hf, hi⟩, hl⟩
    | some y =>
      obtain ⟨h1, h2⟩ := fold_still hi hf
      exact ⟨y, by simp [fuse, hr, hf, fuse_still (n := n) y h1 (by omega)], h1, by omega⟩

/-- More levels make no difference. -/
def Up (f g : Inl.Exp K → Option (Inl.Exp K)) : Prop := ∀ x y, f x = some y → g x = some y

omit [DecidableEq K] in
theorem mapExps_up {f g : Inl.Exp K → Option (Inl.Exp K)} (hf : Up f g) {xs ys : Inl.Exps K} (h : mapExps f xs = some ys) :
    mapExps g xs = some ys := by
  match xs with
  | .nil => exact h
  | .cons x xs =>
    simp only [mapExps, Option.bind_eq_some_iff, Option.map_eq_some_iff] at h ⊢
    obtain ⟨y, hy, zs, hz, rfl⟩ := h
    exact ⟨y, hf _ _ hy, zs, mapExps_up hf hz, rfl⟩
termination_by structural xs

omit [DecidableEq K] in
theorem mapBinds_up {f g : Inl.Exp K → Option (Inl.Exp K)} (hf : Up f g) {xs ys : Inl.Binds K} (h : mapBinds f xs = some ys) :
    mapBinds g xs = some ys := by
  match xs with
  | .nil => exact h
  | .cons n x xs =>
    simp only [mapBinds, Option.bind_eq_some_iff, Option.map_eq_some_iff] at h ⊢
    obtain ⟨y, hy, zs, hz, rfl⟩ := h
    exact ⟨y, hf _ _ hy, zs, mapBinds_up hf hz, rfl⟩
termination_by structural xs

omit [DecidableEq K] in
theorem walk_up {f g : Inl.Exp K → Option (Inl.Exp K)} (hf : Up f g) : Up (walk f) (walk g) := by
  intro x r h
  match x with
  | .var v | .lit v | .intrinsic v => exact h
  | .let_ t bs b =>
    simp only [walk, Option.bind_eq_some_iff, Option.map_eq_some_iff] at h ⊢
    obtain ⟨bs', hb, b', hb', rfl⟩ := h
    exact ⟨bs', mapBinds_up hf hb, b', hf _ _ hb', rfl⟩
  | .lam i ps b =>
    simp only [walk, Option.map_eq_some_iff] at h ⊢
    obtain ⟨b', hb', rfl⟩ := h
    exact ⟨b', hf _ _ hb', rfl⟩
  | .app g xs =>
    simp only [walk, Option.bind_eq_some_iff, Option.map_eq_some_iff] at h ⊢
    obtain ⟨g', hg, xs', hx, rfl⟩ := h
    exact ⟨g', hf _ _ hg, xs', mapExps_up hf hx, rfl⟩
  | .metaOf x m =>
    simp only [walk, Option.bind_eq_some_iff, Option.map_eq_some_iff] at h ⊢
    obtain ⟨x', hx, m', hm, rfl⟩ := h
    exact ⟨x', hf _ _ hx, m', hf _ _ hm, rfl⟩
  | .node k xs =>
    simp only [walk, Option.map_eq_some_iff] at h ⊢
    obtain ⟨xs', hx, rfl⟩ := h
    exact ⟨xs', mapExps_up hf hx, rfl⟩

theorem fuse_up (n : Nat) : Up (fuse (K := K) n) (fuse (n + 1)) := by
  induction n with
  | zero => intro x y h; cases h
  | succ n ih =>
    intro x y h
    simp only [fuse, Option.bind_eq_some_iff] at h
    obtain ⟨r, hr, h⟩ := h
    rw [fuse, Option.bind_eq_some_iff]
    refine ⟨r, walk_up ih x r hr, ?_⟩
    cases hf : fold r with
    | none =>
      rw [hf] at h
      exact h
    | some z =>
      rw [hf] at h
      exact ih _ _ h

theorem fuse_mono {n m : Nat} (h : n ≤ m) : Up (fuse (K := K) n) (fuse m) := by
  induction h with
  | refl => exact fun _ _ h => h
  | step _ ih => exact fun x y hx => fuse_up _ x y (ih x y hx)

theorem fuse_one {n m : Nat} {x y z : Inl.Exp K} (h : fuse n x = some y) (h' : fuse m x = some z) : y = z := by
  have h1 := fuse_mono (Nat.le_max_left n m) x y h
  have h2 := fuse_mono (Nat.le_max_right n m) x z h'
  rw [h1] at h2
  exact Option.some.inj h2

/-! ## What is left -/

theorem still_list {xs : Inl.Exps K} {x : Inl.Exp K} (h : StillL xs) (hx : x ∈ xs.list) : Still x := by
  match xs with
  | .nil => simp [Inl.Exps.list] at hx
  | .cons y ys =>
    simp only [Inl.Exps.list, List.mem_cons] at hx
    rcases hx with rfl | hx
    · exact h.1
    · exact still_list h.2 hx
termination_by structural xs

theorem still_binds {xs : Inl.Binds K} {p : String × Inl.Exp K} (h : StillB xs) (hx : p ∈ xs.list) : Still p.2 := by
  match xs with
  | .nil => simp [Inl.Binds.list] at hx
  | .cons n y ys =>
    simp only [Inl.Binds.list, List.mem_cons] at hx
    rcases hx with rfl | hx
    · exact h.1
    · exact still_binds h.2 hx
termination_by structural xs

theorem part_still {x y : Inl.Exp K} (hp : Part y x) (h : Still x) : Still y := by
  induction hp with
  | self => exact h
  | bound hm _ ih => exact ih (still_binds h.2.1 hm)
  | body _ ih => exact ih h.2.2
  | lam _ ih => exact ih h.2
  | fn _ ih => exact ih h.2.1
  | arg hm _ ih => exact ih (still_list h.2.2 hm)
  | about _ ih => exact ih h.2.1
  | notes _ ih => exact ih h.2.2
  | item hm _ ih => exact ih (still_list h.2 hm)

theorem member_some {k : K} {ks : List K} {xs : Inl.Exps K} (hl : ks.length = xs.list.length) (hk : k ∈ ks) :
    member k ks xs ≠ none := by
  match ks, xs with
  | [], _ => simp at hk
  | _ :: _, .nil => simp [Inl.Exps.list] at hl
  | k' :: ks, .cons x xs =>
    unfold member
    split
    · simp
    · rename_i hne
      rcases List.mem_cons.1 hk with rfl | hk
      · exact absurd rfl hne
      · exact member_some (by simpa [Inl.Exps.list] using hl) hk
termination_by structural ks

theorem redex_fold {x : Inl.Exp K} (h : Redex x) : fold x ≠ none := by
  match h with
  | .lookup hl hk =>
    have := member_some hl hk
    simp [fold, foldLookup, this]
  | .lookupOr =>
    simp only [fold, foldLookup]
    split <;> simp
  | .head => simp [fold, foldLookup, foldHead]
  | .tail => simp [fold, foldLookup, foldHead, foldTail]

/-! ## Calls -/

theorem member_apps {k : K} {ks : List K} {xs : Inl.Exps K} {y : Inl.Exp K} (hm : member k ks xs = some y) :
    Inl.apps y ≤ Inl.appsL xs := by
  match ks, xs with
  | [], .nil => cases hm
  | [], .cons _ _ => cases hm
  | _ :: _, .nil => cases hm
  | k' :: ks, .cons x xs =>
    unfold member at hm
    split at hm
    · cases hm
      simp [Inl.appsL]
    · have := member_apps hm
      simp only [Inl.appsL]
      omega
termination_by structural ks

theorem fold_apps {x y : Inl.Exp K} (hf : fold x = some y) : Inl.apps y ≤ Inl.apps x := by
  match fold_folds hf with
  | .lookup hm =>
    have := member_apps hm
    simp only [Inl.apps, Inl.appsL]
    omega
  | .found hm =>
    have := member_apps hm
    simp only [Inl.apps, Inl.appsL]
    omega
  | .missing _ | .head | .tail =>
    simp only [Inl.apps, Inl.appsL]
    omega

omit [DecidableEq K] in
theorem mapExps_apps {f : Inl.Exp K → Option (Inl.Exp K)} (hf : ∀ x y, f x = some y → Inl.apps y ≤ Inl.apps x) {xs ys : Inl.Exps K}
    (h : mapExps f xs = some ys) : Inl.appsL ys ≤ Inl.appsL xs := by
  match xs with
  | .nil => cases h; exact Nat.le_refl _
  | .cons x xs =>
    simp only [mapExps, Option.bind_eq_some_iff, Option.map_eq_some_iff] at h
    obtain ⟨y, hy, zs, hz, rfl⟩ := h
    have h1 := hf x y hy
    have h2 := mapExps_apps hf hz
    simp only [Inl.appsL]
    omega
termination_by structural xs

omit [DecidableEq K] in
theorem mapBinds_apps {f : Inl.Exp K → Option (Inl.Exp K)} (hf : ∀ x y, f x = some y → Inl.apps y ≤ Inl.apps x) {xs ys : Inl.Binds K}
    (h : mapBinds f xs = some ys) : Inl.appsB ys ≤ Inl.appsB xs := by
  match xs with
  | .nil => cases h; exact Nat.le_refl _
  | .cons n x xs =>
    simp only [mapBinds, Option.bind_eq_some_iff, Option.map_eq_some_iff] at h
    obtain ⟨y, hy, zs, hz, rfl⟩ := h
    have h1 := hf x y hy
    have h2 := mapBinds_apps hf hz
    simp only [Inl.appsB]
    omega
termination_by structural xs

omit [DecidableEq K] in
theorem walk_apps {f : Inl.Exp K → Option (Inl.Exp K)} (hf : ∀ x y, f x = some y → Inl.apps y ≤ Inl.apps x) {x r : Inl.Exp K}
    (h : walk f x = some r) : Inl.apps r ≤ Inl.apps x := by
  match x with
  | .var v | .lit v | .intrinsic v => cases h; exact Nat.le_refl _
  | .let_ t bs b =>
    simp only [walk, Option.bind_eq_some_iff, Option.map_eq_some_iff] at h
    obtain ⟨bs', hb, b', hb', rfl⟩ := h
    have h1 := mapBinds_apps hf hb
    have h2 := hf _ _ hb'
    simp only [Inl.apps]
    omega
  | .lam i ps b =>
    simp only [walk, Option.map_eq_some_iff] at h
    obtain ⟨b', hb', rfl⟩ := h
    exact hf b b' hb'
  | .app g xs =>
    simp only [walk, Option.bind_eq_some_iff, Option.map_eq_some_iff] at h
    obtain ⟨g', hg, xs', hx, rfl⟩ := h
    have h1 := mapExps_apps hf hx
    have h2 := hf _ _ hg
    simp only [Inl.apps]
    omega
  | .metaOf x m =>
    simp only [walk, Option.bind_eq_some_iff, Option.map_eq_some_iff] at h
    obtain ⟨x', hx, m', hm, rfl⟩ := h
    have h1 := hf _ _ hx
    have h2 := hf _ _ hm
    simp only [Inl.apps]
    omega
  | .node k xs =>
    simp only [walk, Option.map_eq_some_iff] at h
    obtain ⟨xs', hx, rfl⟩ := h
    exact mapExps_apps hf hx

theorem fuse_calls (n : Nat) : ∀ x y : Inl.Exp K, fuse n x = some y → Inl.apps y ≤ Inl.apps x := by
  induction n with
  | zero => intro x y h; cases h
  | succ n ih =>
    intro x y h
    simp only [fuse, Option.bind_eq_some_iff] at h
    obtain ⟨r, hr, h⟩ := h
    have h1 := walk_apps ih hr
    split at h
    · rename_i z hz
      have h2 := fold_apps hz
      have h3 := ih _ _ h
      omega
    · cases h
      exact h1

end
end Verif.Fuse
