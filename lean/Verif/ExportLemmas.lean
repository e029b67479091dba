import Verif.ExportSpec

/-!
# Rendering sends the events of the data
-/

namespace Verif.Export

mutual
/-- The events of data. -/
def ser : Data → List Event
  | .scalar t p => [.scalar t p]
  | .list t xs => .seqStart t :: (serItems xs ++ [.seqEnd])
  | .block t fs => .blockStart t :: (serFields fs ++ [.blockEnd])
def serItems : Items → List Event
  | .nil => []
  | .cons d r => ser d ++ serItems r
def serFields : Fields → List Event
  | .nil => []
  | .cons k d r => ser k ++ ser d ++ serFields r
end

@[simp] theorem Tr.seq_ok (a b : Tr) : (a.seq b).ok = (a.ok && b.ok) := by
  unfold Tr.seq; split <;> simp_all

@[simp] theorem Tr.send_seq (x : List Event) (b : Tr) : (Tr.send x).seq b = ⟨x ++ b.evs, b.ok⟩ := by
  simp [Tr.seq, Tr.send]

@[simp] theorem Tr.mk_seq (x : List Event) (b : Tr) : (⟨x, true⟩ : Tr).seq b = ⟨x ++ b.evs, b.ok⟩ := by
  simp [Tr.seq]

@[simp] theorem Tr.done_seq (b : Tr) : Tr.done.seq b = b := by simp [Tr.seq, Tr.done]

@[simp] theorem Tr.send_ok (x : List Event) : (Tr.send x).ok = true := rfl
@[simp] theorem Tr.send_evs (x : List Event) : (Tr.send x).evs = x := rfl
@[simp] theorem Tr.done_ok : Tr.done.ok = true := rfl
@[simp] theorem Tr.done_evs : Tr.done.evs = [] := rfl
@[simp] theorem Tr.err_ok : Tr.err.ok = false := rfl

theorem Tr.send_mk (x : List Event) : (⟨x, true⟩ : Tr) = Tr.send x := rfl

/-! ## Natives -/

theorem serItems_ofList (ds : List Data) : serItems (Items.ofList ds) = ds.flatMap ser := by
  induction ds with
  | nil => rfl
  | cons d r ih => simp [Items.ofList, serItems, ih]

theorem elems_ser {xs ps} (h : Each ElemIs xs ps) :
    (xs.map fun e => Event.scalar none (elemPrim e)) = serItems (Items.ofList (ps.map (Data.scalar none))) := by
  induction h with
  | nil => rfl
  | @cons a b as bs hab _ ih =>
    have : elemPrim a = b := by
      cases a with
      | num f => obtain ⟨n, h1, rfl⟩ := hab; simp [elemPrim, h1]
      | str s => exact hab.symm
      | sym s => exact hab.symm
    simp [Items.ofList, serItems, ser, ih, this]

theorem flatMap_range_eq {α : Type} (f : Nat → List α) (rows : List Data) (g : Data → List α)
    (h : ∀ i, ∀ hi : i < rows.length, f i = g rows[i]) : (List.range rows.length).flatMap f = rows.flatMap g := by
  induction rows generalizing f with
  | nil => rfl
  | cons d r ih =>
    have h0 := h 0 (by simp)
    have := ih (fun i => f (i + 1)) (fun i hi => h (i + 1) (Nat.succ_lt_succ hi))
    rw [List.length_cons, List.range_succ_eq_map, List.flatMap_cons, List.flatMap_map, List.flatMap_cons]
    rw [← this, h0]
    rfl

theorem nd_ser : ∀ (shape : List Nat) (tag : Option String) (get : List Nat → Option Int) (d : Data),
    NdIs tag shape get d → emitNd tag shape get = ser d
  | [], tag, get, d, ⟨f, n, h1, h2, h3⟩ => by simp [emitNd, h1, h2, h3, ser]
  | n :: rest, tag, get, d, ⟨rows, h1, h2, h3⟩ => by
    subst h1 h2
    rw [emitNd, ser, serItems_ofList,
      flatMap_range_eq _ rows ser (fun i hi => nd_ser rest none _ _ (h3 i hi))]

theorem native_ser {t n d} (h : NatIs t n d) : emitNative t n = Tr.send (ser d) := by
  cases h with
  | sym => rfl
  | str => rfl
  | num => rfl
  | zdt => rfl
  | set h => simp [emitNative, ser, elems_ser h]
  | vec h => simp [emitNative, ser, elems_ser h]
  | nd h => simp [emitNative, nd_ser _ _ _ _ h]

theorem elems_exist : ∀ xs : List Elem, xs.all goodElem = true → ∃ ps, Each ElemIs xs ps
  | [], _ => ⟨[], .nil⟩
  | x :: xs, h => by
    simp only [List.all_cons, Bool.and_eq_true] at h
    obtain ⟨ps, hp⟩ := elems_exist xs h.2
    cases x with
    | num f =>
      have h1 : (Arith.fromF64 f).isSome = true := h.1
      obtain ⟨n, hn⟩ := Option.isSome_iff_exists.mp h1
      exact ⟨.num n :: ps, .cons ⟨n, hn, rfl⟩ hp⟩
    | str s => exact ⟨.str s :: ps, .cons rfl hp⟩
    | sym s => exact ⟨.sym s :: ps, .cons rfl hp⟩

theorem rows_exist (P : Nat → Data → Prop) : ∀ n, (∀ i, i < n → ∃ d, P i d) →
    ∃ rows : List Data, rows.length = n ∧ ∀ i, ∀ h : i < rows.length, P i rows[i]
  | 0, _ => ⟨[], rfl, fun i h => absurd h (by simp)⟩
  | n + 1, h => by
    obtain ⟨rows, h1, h2⟩ := rows_exist P n (fun i hi => h i (by omega))
    obtain ⟨d, hd⟩ := h n (by omega)
    refine ⟨rows ++ [d], by simp [h1], fun i hi => ?_⟩
    by_cases hlt : i < rows.length
    · rw [List.getElem_append_left hlt]; exact h2 i hlt
    · have : i = n := by simp at hi; omega
      subst this
      rw [List.getElem_append_right (by omega)]
      simpa [h1] using hd

theorem nd_exist : ∀ (shape : List Nat) (tag : Option String) (get : List Nat → Option Int),
    goodNd shape get = true → ∃ d, NdIs tag shape get d
  | [], tag, get, h => by
    rw [goodNd] at h
    split at h
    · rename_i f hf
      obtain ⟨n, hn⟩ := Option.isSome_iff_exists.mp h
      exact ⟨_, f, n, hf, hn, rfl⟩
    · simp at h
  | n :: rest, tag, get, h => by
    rw [goodNd, List.all_eq_true] at h
    obtain ⟨rows, h1, h2⟩ := rows_exist (fun i d => NdIs none rest (fun ix => get (i :: ix)) d) n
      (fun i hi => nd_exist rest none _ (h i (by simpa using hi)))
    exact ⟨_, rows, h1, rfl, h2⟩

theorem native_exist {t n} (g : goodNative n = true) (h : (emitNative t n).ok = true) : ∃ d, NatIs t n d := by
  cases n with
  | sym => exact ⟨_, .sym⟩
  | str => exact ⟨_, .str⟩
  | num => exact ⟨_, .num⟩
  | zdt => exact ⟨_, .zdt⟩
  | set xs => obtain ⟨ps, hp⟩ := elems_exist xs g; exact ⟨_, .set hp⟩
  | vec xs => obtain ⟨ps, hp⟩ := elems_exist xs g; exact ⟨_, .vec hp⟩
  | nd s f => obtain ⟨d, hd⟩ := nd_exist s t f g; exact ⟨_, .nd hd⟩
  | «opaque» => cases h

/-! ## Small facts -/

/-- What the lookup of a tag found, and the tag asked for. -/
def TagOk : TagLook → Option String → Prop
  | .absent, t => t = none
  | .str (.ready s), t => t = some s
  | _, _ => False

theorem start_ok {e tag t} (h : TagOk tag t) : start e tag = Tr.send [e t] := by
  cases tag with
  | absent => cases h; rfl
  | str c => cases c with
    | ready s => cases h; rfl
    | susp s => cases h
    | bad => cases h
  | fail => cases h

theorem tagOk_of {m : Meta} {t} (p : m.tag.plain = true) (h : m.Tag t) : TagOk m.tag t := by
  cases h with
  | absent h => rw [h]; rfl
  | str h1 h2 =>
    rename_i c s
    rw [h1] at p ⊢
    cases c with
    | ready s' => cases h2; rfl
    | susp s' => cases p
    | bad => cases p

theorem tag_of {m : Meta} {t} (h : TagOk m.tag t) : m.Tag t := by
  cases hm : m.tag with
  | absent => rw [hm] at h; cases h; exact .absent hm
  | str c =>
    rw [hm] at h
    cases c with
    | ready s => cases h; exact .str hm rfl
    | susp s => cases h
    | bad => cases h
  | fail => rw [hm] at h; cases h

theorem shows_iff {m : Meta} : m.Shows ↔ m.suppresses = some false := by
  unfold Meta.Shows Meta.suppresses
  cases m.export_ <;> simp

theorem hides_iff {m : Meta} : m.Hides ↔ m.suppresses = some true := by
  unfold Meta.Hides Meta.suppresses
  cases m.export_ <;> simp

theorem hidden_iff {v : Val} : Hidden v ↔ suppressed v = some true := by
  constructor
  · rintro ⟨m, w, rfl, h⟩; exact hides_iff.mp h
  · intro h
    cases v with
    | ann m w => exact ⟨m, w, rfl, hides_iff.mpr h⟩
    | _ => cases h

theorem isHidden_iff {v : Val} : isHidden v = true ↔ Hidden v := by
  rw [hidden_iff]
  cases v with
  | ann m w =>
    simp only [isHidden, suppressed, Meta.suppresses]
    cases m.export_ <;> simp
  | _ => simp [isHidden, suppressed]

theorem isFn_iff {v : Val} : isFn v = true ↔ IsFn v := by
  constructor
  · intro h
    induction v with
    | fn => exact .fn
    | ann m v ih => exact .ann (ih h)
    | _ => cases h
  · intro h
    induction h with
    | fn => rfl
    | ann _ ih => exact ih

theorem spine_iff {v : Val} {xs} : spine v = some xs ↔ Spine v xs := by
  constructor
  · intro h
    induction v generalizing xs with
    | nil => cases h; exact .nil
    | cons h' t _ ih =>
      simp only [spine, Option.map_eq_some_iff] at h
      obtain ⟨ys, h1, rfl⟩ := h
      exact .cons (ih h1)
    | ann m v ih => exact .ann (ih h)
    | _ => cases h
  · intro h
    induction h with
    | nil => rfl
    | cons _ ih => simp [spine, ih]
    | ann _ ih => exact ih

theorem saturated_eq (v : Val) :
    saturated v = if isFail v then none else some (!isFn v) := by
  induction v with
  | ann m v ih => exact ih
  | _ => rfl

theorem isAt_fail {t v d} (h : IsAt t v d) : isFail v = false := by
  induction v generalizing t d with
  | ann m v ih => cases h with | ann h => simpa [isFail] using ih h
  | fail => cases h
  | _ => rfl

theorem is_fail {v d} (h : Is v d) : isFail v = false := by
  cases h with
  | plain _ h => exact isAt_fail h
  | ann _ _ h => simpa [isFail] using isAt_fail h

theorem is_suppressed {v d} (h : Is v d) : suppressed v = some false := by
  cases h with
  | plain hn h =>
    cases v with
    | ann m w => exact absurd rfl (hn m w)
    | fail => cases h
    | _ => rfl
  | ann h _ _ => exact shows_iff.mp h

theorem wanted_shown {v d} (h : Is v d) (hf : ¬ IsFn v) : wanted v = some true := by
  have h1 : isFn v = false := by
    cases hh : isFn v with
    | false => rfl
    | true => exact absurd (isFn_iff.mp hh) hf
  simp [wanted, saturated_eq, is_fail h, is_suppressed h, h1]

theorem rend_top {tag v} (h : ∀ m w, v ≠ .ann m w) : rend true tag v = rend false tag v := by
  cases v with
  | ann m w => exact absurd rfl (h m w)
  | _ => simp only [rend]

theorem good_top {tag v} (h : ∀ m w, v ≠ .ann m w) : good true tag v = good false tag v := by
  cases v with
  | ann m w => exact absurd rfl (h m w)
  | _ => simp only [good]

theorem spine_nil {l} (h : Spine l []) : ItemsOf l .nil := by
  generalize hx : ([] : List Val) = xs at h
  induction h with
  | nil => exact .nil
  | ann _ ih => exact .ann (ih hx)
  | cons _ _ => cases hx

theorem spine_one {l v dv} (h : Spine l [v]) (h2 : Is v dv) : ItemsOf l (.cons dv .nil) := by
  generalize hx : [v] = xs at h
  induction h with
  | nil => cases hx
  | ann _ ih => exact .ann (ih hx)
  | cons hs _ => cases hx; exact .cons h2 (spine_nil hs)

theorem itemsOf_spine {l k v dk dv} (h : Spine l [k, v]) (h1 : Is k dk) (h2 : Is v dv) :
    ItemsOf l (.cons dk (.cons dv .nil)) := by
  generalize hx : [k, v] = xs at h
  induction h with
  | nil => cases hx
  | ann _ ih => exact .ann (ih hx)
  | cons hs _ => cases hx; exact .cons h1 (spine_one hs h2)

theorem isFn_not_fail {w} (h : IsFn w) : isFail w = false := by
  induction h with
  | fn => rfl
  | ann _ ih => exact ih

/-! ## Data is rendered as it is -/

theorem rend_sound (v : Val) :
    (∀ tag t d, TagOk tag t → good false tag v = true → IsAt t v d → rend false tag v = Tr.send (ser d)) ∧
    (∀ d, good true .absent v = true → Is v d → rend true .absent v = Tr.send (ser d)) ∧
    (∀ ds, goodItems v = true → ItemsOf v ds → items v = Tr.send (serItems ds)) ∧
    (∀ fs, goodFields v = true → FieldsOf v fs → blockItems v = Tr.send (serFields fs)) ∧
    (goodEntry v = true →
      (∀ k w dk dw, EntryIs v (.native k w) → ¬ IsFn w → NatIs none k dk → Is w dw →
        kv v = Tr.send (ser dk ++ ser dw)) ∧
      (∀ k w dk dw, EntryIs v (.listed k w) → ¬ IsFn w → Is k dk → Is w dw →
        kv v = Tr.send (ser dk ++ ser dw)) ∧
      (∀ x, EntryIs v x → Hidden x.val ∨ IsFn x.val → kv v = Tr.done)) := by
  have top_of : ∀ v : Val, (∀ m w, v ≠ .ann m w) →
      (∀ tag t d, TagOk tag t → good false tag v = true → IsAt t v d → rend false tag v = Tr.send (ser d)) →
      (∀ d, good true .absent v = true → Is v d → rend true .absent v = Tr.send (ser d)) := by
    intro v hn h d g hi
    cases hi with
    | plain _ hi => rw [rend_top hn]; rw [good_top hn] at g; exact h _ _ _ rfl g hi
    | ann => exact absurd rfl (hn _ _)
  have leaf : ∀ v : Val, (∀ m w, v ≠ .ann m w) → v ≠ .nil → (∀ h t, v ≠ .cons h t) → (∀ k w, v ≠ .pair k w) →
      (∀ l, v ≠ .kvlist l) →
      (∀ tag t d, TagOk tag t → good false tag v = true → IsAt t v d → rend false tag v = Tr.send (ser d)) →
      (∀ tag t d, TagOk tag t → good false tag v = true → IsAt t v d → rend false tag v = Tr.send (ser d)) ∧
      (∀ d, good true .absent v = true → Is v d → rend true .absent v = Tr.send (ser d)) ∧
      (∀ ds, goodItems v = true → ItemsOf v ds → items v = Tr.send (serItems ds)) ∧
      (∀ fs, goodFields v = true → FieldsOf v fs → blockItems v = Tr.send (serFields fs)) ∧
      (goodEntry v = true →
        (∀ k w dk dw, EntryIs v (.native k w) → ¬ IsFn w → NatIs none k dk → Is w dw →
          kv v = Tr.send (ser dk ++ ser dw)) ∧
        (∀ k w dk dw, EntryIs v (.listed k w) → ¬ IsFn w → Is k dk → Is w dw →
          kv v = Tr.send (ser dk ++ ser dw)) ∧
        (∀ x, EntryIs v x → Hidden x.val ∨ IsFn x.val → kv v = Tr.done)) := by
    intro v h1 h2 h3 h4 h5 h
    refine ⟨h, top_of v h1 h, ?_, ?_, fun _ => ⟨?_, ?_, ?_⟩⟩
    · intro ds _ hi; cases hi <;> first | exact absurd rfl h2 | exact absurd rfl (h3 _ _) | exact absurd rfl (h1 _ _)
    · intro ds _ hi; cases hi <;> first | exact absurd rfl h2 | exact absurd rfl (h3 _ _) | exact absurd rfl (h1 _ _)
    · intro k w dk dw hi; cases hi <;> first | exact absurd rfl (h4 _ _) | exact absurd rfl (h5 _) | exact absurd rfl (h1 _ _)
    · intro k w dk dw hi; cases hi <;> first | exact absurd rfl (h4 _ _) | exact absurd rfl (h5 _) | exact absurd rfl (h1 _ _)
    · intro x hi; cases hi <;> first | exact absurd rfl (h4 _ _) | exact absurd rfl (h5 _) | exact absurd rfl (h1 _ _)
  induction v with
  | unit =>
    refine leaf _ (by simp) (by simp) (by simp) (by simp) (by simp) ?_
    intro tag t d ht g hi
    cases tag <;> simp [good, TagLook.isAbsent] at g
    cases ht; cases hi; rfl
  | tt =>
    refine leaf _ (by simp) (by simp) (by simp) (by simp) (by simp) ?_
    intro tag t d ht g hi
    cases tag <;> simp [good, TagLook.isAbsent] at g
    cases ht; cases hi; rfl
  | ff =>
    refine leaf _ (by simp) (by simp) (by simp) (by simp) (by simp) ?_
    intro tag t d ht g hi
    cases tag <;> simp [good, TagLook.isAbsent] at g
    cases ht; cases hi; rfl
  | fn => exact leaf _ (by simp) (by simp) (by simp) (by simp) (by simp) (fun _ _ _ _ _ h => nomatch h)
  | other => exact leaf _ (by simp) (by simp) (by simp) (by simp) (by simp) (fun _ _ _ _ _ h => nomatch h)
  | fail => exact leaf _ (by simp) (by simp) (by simp) (by simp) (by simp) (fun _ _ _ _ _ h => nomatch h)
  | bare n =>
    refine leaf _ (by simp) (by simp) (by simp) (by simp) (by simp) ?_
    intro tag t d ht g hi
    cases tag <;> simp [good, TagLook.isAbsent] at g
    cases ht; cases hi with | bare hi => rw [rend]; exact native_ser hi
  | box c =>
    refine leaf _ (by simp) (by simp) (by simp) (by simp) (by simp) ?_
    intro tag t d ht g hi
    cases hi with
    | box hc hn =>
      rw [rend]
      cases c with
      | bad => cases hc
      | ready n =>
        cases hc
        cases tag with
        | absent => cases ht; exact native_ser hn
        | str c' => cases c' with
          | ready s => cases ht; exact native_ser hn
          | susp s => cases ht
          | bad => cases ht
        | fail => cases ht
      | susp n =>
        cases hc
        cases tag <;> simp [good, TagLook.isAbsent] at g
        cases ht; exact native_ser hn
  | nil =>
    have hr : ∀ tag t d, TagOk tag t → good false tag Val.nil = true → IsAt t .nil d →
        rend false tag .nil = Tr.send (ser d) := by
      intro tag t d ht _ hi
      cases hi
      rw [rend, start_ok ht]
      rfl
    refine ⟨hr, top_of _ (by simp) hr, ?_, ?_, fun _ => ⟨?_, ?_, ?_⟩⟩
    · intro ds _ hi; cases hi; rfl
    · intro ds _ hi; cases hi; rfl
    · intro k w dk dw hi; cases hi
    · intro k w dk dw hi; cases hi
    · intro x hi; cases hi
  | pair k w ihw =>
    refine ⟨fun _ _ _ _ _ h => (nomatch h), top_of _ (by simp) (fun _ _ _ _ _ h => (nomatch h)),
      fun _ _ h => (nomatch h), fun _ _ h => (nomatch h), fun g => ⟨?_, ?_, ?_⟩⟩
    · intro k' w' dk dw hi hf hk hw
      cases hi
      simp only [goodEntry, Bool.and_eq_true] at g
      rw [kv, wanted_shown hw hf]
      simp only [native_ser hk, (ihw.2.1 _ g.1.2 hw), Tr.send_seq, Tr.send_evs, Tr.send_ok, Tr.send_mk]
    · intro k' w' dk dw hi; cases hi
    · intro x hi hh
      cases hi
      simp only [goodEntry, Bool.and_eq_true, Bool.not_eq_true', Bool.and_eq_false_iff] at g
      have hsat := saturated_eq w
      simp only [Entry.val] at hh
      rw [kv]
      cases hfail : isFail w with
      | true =>
        have h1 : isHidden w = false := by
          rcases g.2 with h | h
          · exact h
          · rw [hfail] at h; cases h
        exfalso
        rcases hh with hh | hh
        · rw [isHidden_iff.mpr hh] at h1; cases h1
        · rw [isFn_not_fail hh] at hfail; cases hfail
      | false =>
        rw [hfail] at hsat
        simp only [Bool.false_eq_true, if_false] at hsat
        unfold wanted
        rw [hsat]
        cases hfn : isFn w with
        | true => rfl
        | false =>
          rcases hh with hh | hh
          · rw [hidden_iff.mp hh]; rfl
          · rw [isFn_iff.mpr hh] at hfn; cases hfn
  | kvlist l ihl =>
    refine ⟨fun _ _ _ _ _ h => (nomatch h), top_of _ (by simp) (fun _ _ _ _ _ h => (nomatch h)),
      fun _ _ h => (nomatch h), fun _ _ h => (nomatch h), fun g => ⟨?_, ?_, ?_⟩⟩
    · intro k' w' dk dw hi; cases hi
    · intro k w dk dw hi _ hk hw
      cases hi with
      | kvlist hs =>
        simp only [goodEntry, Bool.and_eq_true] at g
        rw [kv, ihl.2.2.1 _ g.1 (itemsOf_spine hs hk hw)]
        simp [serItems]
    · intro x hi hh
      cases hi with
      | kvlist hs =>
        simp only [goodEntry, Bool.and_eq_true, twoShown, spine_iff.mpr hs, Bool.not_eq_true'] at g
        simp only [Entry.val] at hh
        rcases hh with hh | hh
        · rw [isHidden_iff.mpr hh] at g; simp at g
        · rw [isFn_iff.mpr hh] at g; simp at g
  | cons h t ihh iht =>
    have hit : ∀ ds, goodItems (Val.cons h t) = true → ItemsOf (.cons h t) ds →
        (rend true .absent h).seq (items t) = Tr.send (serItems ds) := by
      intro ds g hi
      simp only [goodItems, Bool.and_eq_true] at g
      cases hi with
      | cons hd hr =>
        rw [ihh.2.1 _ g.1 hd, iht.2.2.1 _ g.2 hr]
        simp [serItems, Tr.send]
      | hidden hh hr =>
        obtain ⟨m, w, rfl, hm⟩ := hh
        rw [rend, hides_iff.mp hm, if_pos rfl, iht.2.2.1 _ g.2 hr]
        simp
    have hr : ∀ tag t' d, TagOk tag t' → good false tag (Val.cons h t) = true → IsAt t' (.cons h t) d →
        rend false tag (.cons h t) = Tr.send (ser d) := by
      intro tag t' d ht g hi
      cases hi with
      | cons hi =>
        rw [rend, start_ok ht, hit _ (by rw [good] at g; rw [goodItems]; exact g) hi]
        simp [ser, Tr.send]
    refine ⟨hr, top_of _ (by simp) hr, ?_, ?_, fun _ => ⟨?_, ?_, ?_⟩⟩
    · intro ds g hi; rw [items]; exact hit ds g hi
    · intro fs g hi
      simp only [goodFields, Bool.and_eq_true] at g
      rw [blockItems]
      cases hi with
      | native he hf hk hw hr =>
        rw [(ihh.2.2.2.2 g.1).1 _ _ _ _ he hf hk hw, iht.2.2.2.1 _ g.2 hr]
        simp [serFields, Tr.send]
      | listed he hf hk hw hr =>
        rw [(ihh.2.2.2.2 g.1).2.1 _ _ _ _ he hf hk hw, iht.2.2.2.1 _ g.2 hr]
        simp [serFields, Tr.send]
      | hidden he hh hr =>
        rw [(ihh.2.2.2.2 g.1).2.2 _ he hh, iht.2.2.2.1 _ g.2 hr]
        simp
    · intro k w dk dw hi; cases hi
    · intro k w dk dw hi; cases hi
    · intro x hi; cases hi
  | block i ihi =>
    refine leaf _ (by simp) (by simp) (by simp) (by simp) (by simp) ?_
    intro tag t d ht g hi
    cases hi with
    | block hi =>
      rw [rend, start_ok ht, ihi.2.2.2.1 _ (by simpa [good] using g) hi]
      simp [ser, Tr.send]
  | ann m w ih =>
    refine ⟨?_, ?_, ?_, ?_, fun g => ⟨?_, ?_, ?_⟩⟩
    · intro tag t d ht g hi
      cases hi with
      | ann hi =>
        rw [rend]
        rw [good] at g
        exact ih.1 _ _ _ ht g hi
    · intro d g hi
      cases hi with
      | plain hn => exact absurd rfl (hn _ _)
      | ann hs ht hi =>
        simp only [good, if_true, Bool.and_eq_true] at g
        rw [rend, if_pos rfl, shows_iff.mp hs]
        exact ih.1 _ _ _ (tagOk_of g.1 ht) g.2 hi
    · intro ds g hi
      cases hi with | ann hi => rw [items]; exact ih.2.2.1 _ (by simpa [goodItems] using g) hi
    · intro ds g hi
      cases hi with | ann hi => rw [blockItems]; exact ih.2.2.2.1 _ (by simpa [goodFields] using g) hi
    · intro k w' dk dw hi hf hk hw
      cases hi with | ann hi => rw [kv]; exact (ih.2.2.2.2 (by simpa [goodEntry] using g)).1 _ _ _ _ hi hf hk hw
    · intro k w' dk dw hi hf hk hw
      cases hi with | ann hi => rw [kv]; exact (ih.2.2.2.2 (by simpa [goodEntry] using g)).2.1 _ _ _ _ hi hf hk hw
    · intro x hi hh
      cases hi with | ann hi => rw [kv]; exact (ih.2.2.2.2 (by simpa [goodEntry] using g)).2.2 _ hi hh

/-! ## What is rendered without an error is data -/

theorem itemsOf_cons {l x xs ds} (h : Spine l (x :: xs)) (hx : ¬ Hidden x) (hi : ItemsOf l ds) :
    ∃ d t ds', Is x d ∧ Spine t xs ∧ ItemsOf t ds' := by
  generalize hy : x :: xs = ys at h
  induction h generalizing ds with
  | nil => cases hy
  | ann _ ih => cases hi with | ann hi => exact ih hi hy
  | cons hs _ =>
    cases hy
    cases hi with
    | cons h1 h2 => exact ⟨_, _, _, h1, hs, h2⟩
    | hidden h1 h2 => exact absurd h1 hx

theorem start_isOk {e tag} (h : (start e tag).ok = true) (p : tag.plain = true) : ∃ t, TagOk tag t := by
  cases tag with
  | absent => exact ⟨none, rfl⟩
  | str c => cases c with
    | ready s => exact ⟨some s, rfl⟩
    | susp s => cases p
    | bad => cases p
  | fail => cases h

/-- What a field rendered without an error is. -/
def EntryOk (v : Val) : Prop :=
  ∃ x, EntryIs v x ∧ (Hidden x.val ∨ IsFn x.val ∨
    (¬ IsFn x.val ∧ ∃ dw, Is x.val dw ∧ match x with
      | .native k _ => ∃ dk, NatIs none k dk
      | .listed k _ => ∃ dk, Is k dk))

theorem rend_complete (v : Val) :
    (∀ tag, tag.plain = true → good false tag v = true → (rend false tag v).ok = true →
      ∃ t d, TagOk tag t ∧ IsAt t v d) ∧
    (good true .absent v = true → (rend true .absent v).ok = true → Hidden v ∨ ∃ d, Is v d) ∧
    (goodItems v = true → (items v).ok = true → ∃ ds, ItemsOf v ds) ∧
    (goodFields v = true → (blockItems v).ok = true → ∃ fs, FieldsOf v fs) ∧
    (goodEntry v = true → (kv v).ok = true → EntryOk v) := by
  have top_of : ∀ v : Val, (∀ m w, v ≠ .ann m w) →
      (∀ tag, tag.plain = true → good false tag v = true → (rend false tag v).ok = true →
        ∃ t d, TagOk tag t ∧ IsAt t v d) →
      good true .absent v = true → (rend true .absent v).ok = true → Hidden v ∨ ∃ d, Is v d := by
    intro v hn h g ho
    rw [rend_top hn] at ho; rw [good_top hn] at g
    obtain ⟨t, d, ht, hd⟩ := h .absent rfl g ho
    cases ht
    exact .inr ⟨d, .plain hn hd⟩
  have leaf : ∀ v : Val, (∀ m w, v ≠ .ann m w) → (items v).ok = false → (blockItems v).ok = false →
      goodEntry v = false ∨ (kv v).ok = false →
      (∀ tag, tag.plain = true → good false tag v = true → (rend false tag v).ok = true →
        ∃ t d, TagOk tag t ∧ IsAt t v d) →
      (∀ tag, tag.plain = true → good false tag v = true → (rend false tag v).ok = true →
        ∃ t d, TagOk tag t ∧ IsAt t v d) ∧
      (good true .absent v = true → (rend true .absent v).ok = true → Hidden v ∨ ∃ d, Is v d) ∧
      (goodItems v = true → (items v).ok = true → ∃ ds, ItemsOf v ds) ∧
      (goodFields v = true → (blockItems v).ok = true → ∃ fs, FieldsOf v fs) ∧
      (goodEntry v = true → (kv v).ok = true → EntryOk v) := by
    intro v h1 h2 h3 h4 h
    refine ⟨h, top_of v h1 h, fun _ ho => ?_, fun _ ho => ?_, fun g ho => ?_⟩
    · rw [h2] at ho; cases ho
    · rw [h3] at ho; cases ho
    · rcases h4 with h4 | h4
      · rw [h4] at g; cases g
      · rw [h4] at ho; cases ho
  induction v with
  | unit =>
    refine leaf _ (by simp) rfl rfl (.inl rfl) ?_
    intro tag _ g _
    cases tag <;> simp [good, TagLook.isAbsent] at g
    exact ⟨_, _, rfl, .unit⟩
  | tt =>
    refine leaf _ (by simp) rfl rfl (.inl rfl) ?_
    intro tag _ g _
    cases tag <;> simp [good, TagLook.isAbsent] at g
    exact ⟨_, _, rfl, .tt⟩
  | ff =>
    refine leaf _ (by simp) rfl rfl (.inl rfl) ?_
    intro tag _ g _
    cases tag <;> simp [good, TagLook.isAbsent] at g
    exact ⟨_, _, rfl, .ff⟩
  | fn => exact leaf _ (by simp) rfl rfl (.inl rfl) (fun _ _ _ h => (nomatch h))
  | other => exact leaf _ (by simp) rfl rfl (.inl rfl) (fun _ _ _ h => (nomatch h))
  | fail => exact leaf _ (by simp) rfl rfl (.inr rfl) (fun _ _ _ h => (nomatch h))
  | bare n =>
    refine leaf _ (by simp) rfl rfl (.inl rfl) ?_
    intro tag _ g ho
    cases tag <;> simp [good, TagLook.isAbsent] at g
    rw [rend] at ho
    obtain ⟨d, hd⟩ := native_exist g ho
    exact ⟨_, d, rfl, .bare hd⟩
  | box c =>
    refine leaf _ (by simp) rfl rfl (.inl rfl) ?_
    intro tag p g ho
    rw [rend] at ho
    cases c with
    | bad => cases tag <;> cases ho
    | ready n =>
      cases tag with
      | absent => obtain ⟨d, hd⟩ := native_exist g ho; exact ⟨_, d, rfl, .box rfl hd⟩
      | str c' => cases c' with
        | ready s => obtain ⟨d, hd⟩ := native_exist g ho; exact ⟨_, d, rfl, .box rfl hd⟩
        | susp s => cases p
        | bad => cases p
      | fail => cases ho
    | susp n =>
      cases tag <;> simp [good, TagLook.isAbsent] at g
      obtain ⟨d, hd⟩ := native_exist g ho
      exact ⟨_, d, rfl, .box rfl hd⟩
  | nil =>
    have h : ∀ tag : TagLook, tag.plain = true → good false tag Val.nil = true → (rend false tag .nil).ok = true →
        ∃ t d, TagOk tag t ∧ IsAt t .nil d := by
      intro tag p _ ho
      rw [rend] at ho
      simp only [Tr.seq_ok, Bool.and_eq_true] at ho
      obtain ⟨t, ht⟩ := start_isOk ho.1 p
      exact ⟨t, _, ht, .nil⟩
    exact ⟨h, top_of _ (by simp) h, fun _ _ => ⟨_, .nil⟩, fun _ _ => ⟨_, .nil⟩, fun g => (nomatch g)⟩
  | pair k w ihw =>
    refine ⟨fun _ _ _ h => (nomatch h), top_of _ (by simp) (fun _ _ _ h => (nomatch h)),
      fun _ h => (nomatch h), fun _ h => (nomatch h), fun g ho => ?_⟩
    simp only [goodEntry, Bool.and_eq_true] at g
    rw [kv] at ho
    refine ⟨_, .pair, ?_⟩
    simp only [Entry.val]
    by_cases hf : IsFn w
    · exact .inr (.inl hf)
    have hfn : isFn w = false := by
      cases hh : isFn w with
      | false => rfl
      | true => exact absurd (isFn_iff.mp hh) hf
    unfold wanted at ho
    rw [saturated_eq, hfn] at ho
    cases hfail : isFail w with
    | true => rw [hfail] at ho; cases ho
    | false =>
      rw [hfail] at ho
      cases hs : suppressed w with
      | none => rw [hs] at ho; cases ho
      | some b =>
        rw [hs] at ho
        cases b with
        | true => exact .inl (hidden_iff.mpr hs)
        | false =>
          simp only [Bool.false_eq_true, if_false, Bool.not_false, Option.map_some, Tr.seq_ok, Bool.and_eq_true] at ho
          obtain ⟨dk, hk⟩ := native_exist g.1.1 ho.1
          rcases ihw.2.1 g.1.2 ho.2 with h | ⟨d, hd⟩
          · exact .inl h
          · exact .inr (.inr ⟨hf, d, hd, dk, hk⟩)
  | kvlist l ihl =>
    refine ⟨fun _ _ _ h => (nomatch h), top_of _ (by simp) (fun _ _ _ h => (nomatch h)),
      fun _ h => (nomatch h), fun _ h => (nomatch h), fun g ho => ?_⟩
    simp only [goodEntry, Bool.and_eq_true] at g
    rw [kv] at ho
    obtain ⟨ds, hds⟩ := ihl.2.2.1 g.1 ho
    have g2 := g.2
    unfold twoShown at g2
    split at g2
    · rename_i k w hsp
      simp only [Bool.and_eq_true, Bool.not_eq_true'] at g2
      have hs := spine_iff.mp hsp
      have nk : ¬ Hidden k := fun h => by rw [isHidden_iff.mpr h] at g2; simp at g2
      have nw : ¬ Hidden w := fun h => by rw [isHidden_iff.mpr h] at g2; simp at g2
      have nf : ¬ IsFn w := fun h => by rw [isFn_iff.mpr h] at g2; simp at g2
      obtain ⟨dk, t, ds', hk, hs', hi'⟩ := itemsOf_cons hs nk hds
      obtain ⟨dw, _, _, hw, _, _⟩ := itemsOf_cons hs' nw hi'
      exact ⟨_, .kvlist hs, .inr (.inr ⟨nf, dw, hw, dk, hk⟩)⟩
    · cases g2
  | cons h t ihh iht =>
    have hit : goodItems (Val.cons h t) = true → ((rend true .absent h).seq (items t)).ok = true →
        ∃ ds, ItemsOf (.cons h t) ds := by
      intro g ho
      simp only [goodItems, Bool.and_eq_true] at g
      simp only [Tr.seq_ok, Bool.and_eq_true] at ho
      obtain ⟨ds, hds⟩ := iht.2.2.1 g.2 ho.2
      rcases ihh.2.1 g.1 ho.1 with hh | ⟨d, hd⟩
      · exact ⟨ds, .hidden hh hds⟩
      · exact ⟨_, .cons hd hds⟩
    have hr : ∀ tag : TagLook, tag.plain = true → good false tag (Val.cons h t) = true →
        (rend false tag (.cons h t)).ok = true → ∃ t' d, TagOk tag t' ∧ IsAt t' (.cons h t) d := by
      intro tag p g ho
      rw [rend] at ho
      rw [Tr.seq_ok, Bool.and_eq_true, Tr.seq_ok, Bool.and_eq_true] at ho
      obtain ⟨t', ht⟩ := start_isOk ho.1 p
      obtain ⟨ds, hds⟩ := hit (by rw [good] at g; rw [goodItems]; exact g) ho.2.1
      exact ⟨t', _, ht, .cons hds⟩
    refine ⟨hr, top_of _ (by simp) hr, ?_, ?_, fun g => (nomatch g)⟩
    · intro g ho; rw [items] at ho; exact hit g ho
    · intro g ho
      simp only [goodFields, Bool.and_eq_true] at g
      rw [blockItems] at ho
      simp only [Tr.seq_ok, Bool.and_eq_true] at ho
      obtain ⟨fs, hfs⟩ := iht.2.2.2.1 g.2 ho.2
      obtain ⟨x, hx, hcase⟩ := ihh.2.2.2.2 g.1 ho.1
      rcases hcase with hh | hh | ⟨nf, dw, hw, hk⟩
      · exact ⟨fs, .hidden hx (.inl hh) hfs⟩
      · exact ⟨fs, .hidden hx (.inr hh) hfs⟩
      · cases x with
        | native k w => obtain ⟨dk, hk⟩ := hk; exact ⟨_, .native hx nf hk hw hfs⟩
        | listed k w => obtain ⟨dk, hk⟩ := hk; exact ⟨_, .listed hx nf hk hw hfs⟩
  | block i ihi =>
    refine leaf _ (by simp) rfl rfl (.inl rfl) ?_
    intro tag p g ho
    rw [rend] at ho
    simp only [Tr.seq_ok, Bool.and_eq_true] at ho
    obtain ⟨t', ht⟩ := start_isOk ho.1 p
    obtain ⟨fs, hfs⟩ := ihi.2.2.2.1 (by simpa [good] using g) ho.2.1
    exact ⟨t', _, ht, .block hfs⟩
  | ann m w ih =>
    refine ⟨?_, ?_, ?_, ?_, ?_⟩
    · intro tag p g ho
      rw [rend] at ho
      rw [good] at g
      obtain ⟨t, d, ht, hd⟩ := ih.1 tag p g ho
      exact ⟨t, d, ht, .ann hd⟩
    · intro g ho
      simp only [good, if_true, Bool.and_eq_true] at g
      rw [rend, if_pos rfl] at ho
      cases hs : m.suppresses with
      | none => rw [hs] at ho; cases ho
      | some b =>
        rw [hs] at ho
        cases b with
        | true => exact .inl ⟨m, w, rfl, hides_iff.mpr hs⟩
        | false =>
          obtain ⟨t, d, ht, hd⟩ := ih.1 _ g.1 g.2 ho
          exact .inr ⟨d, .ann (shows_iff.mpr hs) (tag_of ht) hd⟩
    · intro g ho
      rw [items] at ho
      obtain ⟨ds, h⟩ := ih.2.2.1 (by simpa [goodItems] using g) ho
      exact ⟨ds, .ann h⟩
    · intro g ho
      rw [blockItems] at ho
      obtain ⟨ds, h⟩ := ih.2.2.2.1 (by simpa [goodFields] using g) ho
      exact ⟨ds, .ann h⟩
    · intro g ho
      rw [kv] at ho
      obtain ⟨x, hx, h⟩ := ih.2.2.2.2 (by simpa [goodEntry] using g) ho
      exact ⟨x, .ann hx, h⟩

end Verif.Export
