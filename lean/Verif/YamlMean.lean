import Verif.YamlRun
import Mathlib.Data.List.Induction

/-!
# Proofs only.

What is read off the document is its meaning: names are resolved by closing mapping after mapping, and
entries are settled one by one.
-/

namespace Verif.Yaml

/-! ## Names -/

theorem resolveVar_nil (d : Nat) (v : Var) : resolveVar [] d v = v := by cases v <;> rfl

mutual
theorem resolve_nil : ∀ (d : Nat) (e : Exp), resolve [] d e = e
  | d, .var v => by rw [resolve, resolveVar_nil]
  | d, .lit p => rfl
  | d, .letE ns vs b f => by rw [resolve, resolveL_nil, resolve_nil]
  | d, .lam ps b => by rw [resolve, resolve_nil]
  | d, .node k xs => by rw [resolve, resolveL_nil]
theorem resolveL_nil : ∀ (d : Nat) (es : List Exp), resolveL [] d es = es
  | d, [] => rfl
  | d, x :: xs => by rw [resolveL, resolve_nil, resolveL_nil]
end

theorem resolveVar_bound (Γ : List (List Text)) (d s i : Nat) (n : Text) :
    resolveVar Γ d (.bound s i n) = .bound s i n := by cases Γ <;> rfl

theorem closeVar_free (ns : List Text) : ∀ (Γ : List (List Text)) (d : Nat) (x : Text),
    closeVar ns (d + Γ.length) (resolveVar Γ d (.free x)) = resolveVar (Γ ++ [ns]) d (.free x)
  | [], d, x => by
    show closeVar ns d (.free x) = _
    rw [List.nil_append, resolveVar, closeVar]
    cases position ns x with
    | some i => rfl
    | none => rfl
  | ms :: Γ, d, x => by
    rw [List.cons_append, resolveVar, resolveVar]
    cases position ms x with
    | some i =>
      show closeVar ns _ (.bound d i x) = _
      rw [closeVar, if_neg (by simp)]
    | none =>
      dsimp only
      rw [← closeVar_free ns Γ (d + 1) x]
      congr 1
      simp; omega

mutual
theorem close_resolve (ns : List Text) (Γ : List (List Text)) : ∀ (d : Nat) (e : Exp), lc d e →
    close ns (d + Γ.length) (resolve Γ d e) = resolve (Γ ++ [ns]) d e
  | d, .var (.free x), _ => by rw [resolve, close, resolve, closeVar_free]
  | d, .var (.bound s i n), h => by
    rw [lc] at h
    rw [resolve, close, resolve, resolveVar_bound, resolveVar_bound, closeVar, if_neg (by omega)]
  | d, .lit p, _ => rfl
  | d, .letE ms vs b f, h => by
    rw [lc] at h
    rw [resolve, close, resolve, ← closeL_resolve ns Γ (d + 1) vs h.1, ← close_resolve ns Γ (d + 1) b h.2,
      show d + 1 + Γ.length = d + Γ.length + 1 by omega]
  | d, .lam ps b, h => by
    rw [lc] at h
    rw [resolve, close, resolve, ← close_resolve ns Γ (d + 1) b h,
      show d + 1 + Γ.length = d + Γ.length + 1 by omega]
  | d, .node k xs, h => by
    rw [lc] at h
    rw [resolve, close, resolve, ← closeL_resolve ns Γ d xs h]
theorem closeL_resolve (ns : List Text) (Γ : List (List Text)) : ∀ (d : Nat) (es : List Exp), lcL d es →
    closeL ns (d + Γ.length) (resolveL Γ d es) = resolveL (Γ ++ [ns]) d es
  | d, [], _ => rfl
  | d, x :: xs, h => by
    rw [lcL] at h
    rw [resolveL, closeL, resolveL, close_resolve ns Γ d x h.1, closeL_resolve ns Γ d xs h.2]
end

mutual
theorem resolve_noFree (Γ : List (List Text)) : ∀ (d : Nat) (e : Exp), noFree e → resolve Γ d e = e
  | d, .var (.free x), h => by rw [noFree] at h; exact h.elim
  | d, .var (.bound s i n), h => by rw [resolve, resolveVar_bound]
  | d, .lit p, _ => rfl
  | d, .letE ms vs b f, h => by
    rw [noFree] at h
    rw [resolve, resolveL_noFree Γ (d + 1) vs h.1, resolve_noFree Γ (d + 1) b h.2]
  | d, .lam ps b, h => by rw [noFree] at h; rw [resolve, resolve_noFree Γ (d + 1) b h]
  | d, .node k xs, h => by rw [noFree] at h; rw [resolve, resolveL_noFree Γ d xs h]
theorem resolveL_noFree (Γ : List (List Text)) : ∀ (d : Nat) (es : List Exp), noFreeL es → resolveL Γ d es = es
  | d, [], _ => rfl
  | d, x :: xs, h => by
    rw [noFreeL] at h
    rw [resolveL, resolve_noFree Γ d x h.1, resolveL_noFree Γ d xs h.2]
end

mutual
/-- The code in a value is closed but for names. -/
def good : Y → Prop
  | .code e => lc 0 e
  | .list ys => goodL ys
  | .map _ vs => goodL vs
  | _ => True
def goodL : List Y → Prop
  | [] => True
  | y :: ys => good y ∧ goodL ys
end

mutual
/-- There is no code in a value. -/
def plainY : Y → Prop
  | .code _ => False
  | .list ys => plainYL ys
  | .map _ vs => plainYL vs
  | _ => True
def plainYL : List Y → Prop
  | [] => True
  | y :: ys => plainY y ∧ plainYL ys
end

mutual
theorem plain_shut : ∀ y : Y, plainY y → y.shut
  | .code e, h => by rw [plainY] at h; exact h.elim
  | .list ys, h => by rw [plainY] at h; rw [Y.shut]; exact plainL_shut ys h
  | .map ks vs, h => by rw [plainY] at h; rw [Y.shut]; exact plainL_shut vs h
  | .null, _ => trivial
  | .bool _, _ => trivial
  | .num _, _ => trivial
  | .str _, _ => trivial
  | .tagged _ _, _ => trivial
  | .suppressed _, _ => trivial
  | .time _, _ => trivial
theorem plainL_shut : ∀ ys : List Y, plainYL ys → shutL ys
  | [], _ => trivial
  | y :: ys, h => by rw [plainYL] at h; exact ⟨plain_shut y h.1, plainL_shut ys h.2⟩
end

mutual
theorem enc_shut (Γ Δ : List (List Text)) : ∀ y : Y, y.shut → enc Γ y = enc Δ y
  | .code e, h => by
    rw [Y.shut] at h
    rw [enc, enc, resolve_noFree Γ 0 e h, resolve_noFree Δ 0 e h]
  | .list ys, h => by rw [Y.shut] at h; rw [enc, enc, encL_shut Γ Δ ys h]
  | .map ks vs, h => by
    rw [Y.shut] at h
    rw [enc, enc, encL_shut (ks :: Γ) (ks :: Δ) vs h]
  | .null, _ => rfl
  | .bool _, _ => rfl
  | .num _, _ => rfl
  | .str _, _ => rfl
  | .tagged _ _, _ => rfl
  | .suppressed _, _ => rfl
  | .time _, _ => rfl
theorem encL_shut (Γ Δ : List (List Text)) : ∀ ys : List Y, shutL ys → encL Γ ys = encL Δ ys
  | [], _ => rfl
  | y :: ys, h => by
    rw [shutL] at h
    rw [encL, encL, enc_shut Γ Δ y h.1, encL_shut Γ Δ ys h.2]
end

theorem closeL_bound (ns : List Text) (d : Nat) : ∀ (l : List (Text × Nat)),
    closeL ns (d + 1) (l.map fun p => .var (.bound 0 p.2 p.1)) = l.map fun p => .var (.bound 0 p.2 p.1)
  | [] => rfl
  | p :: l => by
    rw [List.map_cons, closeL, closeL_bound ns d l, close, closeVar, if_neg (by omega)]

mutual
theorem close_enc (ns : List Text) : ∀ (Γ : List (List Text)) (y : Y), good y →
    close ns Γ.length (enc Γ y) = enc (Γ ++ [ns]) y
  | Γ, .code e, h => by
    rw [good] at h
    rw [enc, enc]
    have := close_resolve ns Γ 0 e h
    rwa [Nat.zero_add] at this
  | Γ, .list ys, h => by rw [good] at h; rw [enc, enc, close, closeL_enc ns Γ ys h]
  | Γ, .map ks vs, h => by
    rw [good] at h
    rw [enc, enc, close, close, closeL_bound]
    have := closeL_enc ns (ks :: Γ) vs h
    rw [List.length_cons] at this
    rw [this]; rfl
  | _, .null, _ => rfl
  | _, .bool _, _ => rfl
  | _, .num _, _ => rfl
  | _, .str _, _ => rfl
  | _, .tagged _ _, _ => rfl
  | _, .suppressed _, _ => rfl
  | _, .time _, _ => rfl
theorem closeL_enc (ns : List Text) : ∀ (Γ : List (List Text)) (ys : List Y), goodL ys →
    closeL ns Γ.length (encL Γ ys) = encL (Γ ++ [ns]) ys
  | _, [], _ => rfl
  | Γ, y :: ys, h => by
    rw [goodL] at h
    rw [encL, encL, closeL, close_enc ns Γ y h.1, closeL_enc ns Γ ys h.2]
end

/-! ## Mappings -/

def encEs (es : List (Text × Y)) : List (Text × Exp) := es.map fun p => (p.1, enc [] p.2)

theorem encL_map (Γ : List (List Text)) (ys : List Y) : encL Γ ys = ys.map (enc Γ) := by
  induction ys with
  | nil => rfl
  | cons y ys ih => rw [encL, ih]; rfl

theorem encEs_keys (es : List (Text × Y)) : (encEs es).map (·.1) = es.map (·.1) := by
  simp [encEs]

theorem encEs_vals (es : List (Text × Y)) : (encEs es).map (·.2) = encL [] (es.map (·.2)) := by
  simp [encEs, encL_map]

theorem insertKey_new (k : Text) (v : Exp) : ∀ (m : List (Text × Exp)), k ∉ m.map (·.1) →
    insertKey k v m = m ++ [(k, v)]
  | [], _ => rfl
  | (k', v') :: r, h => by
    simp only [List.map_cons, List.mem_cons, not_or] at h
    rw [insertKey, if_neg (fun e => h.1 e.symm), insertKey_new k v r h.2]; rfl

theorem collect_nodup : ∀ (kvs m : List (Text × Exp)), ((m ++ kvs).map (·.1)).Nodup →
    kvs.foldl (fun m kv => insertKey kv.1 kv.2 m) m = m ++ kvs
  | [], m, _ => by simp
  | (k, v) :: kvs, m, h => by
    rw [List.foldl_cons]
    have hk : k ∉ m.map (·.1) := by
      intro hm
      rw [List.map_append, List.map_cons, List.nodup_append] at h
      exact h.2.2 k hm k (by simp) rfl
    dsimp only
    rw [insertKey_new k v m hk, collect_nodup kvs (m ++ [(k, v)]) (by simpa using h)]
    simp

theorem blockE_nodup (kvs : List (Text × Exp)) (h : (kvs.map (·.1)).Nodup) :
    blockE kvs = .node (.block (kvs.map (·.1))) (kvs.map (·.2)) := by
  unfold blockE
  rw [collect_nodup kvs [] (by simpa using h)]; rfl

theorem position_append (as bs : List Text) (x : Text) (h : x ∉ as) :
    position (as ++ x :: bs) x = some as.length := by
  induction as with
  | nil => rw [List.nil_append, position, if_pos rfl]; rfl
  | cons a as ih =>
    simp only [List.mem_cons, not_or] at h
    rw [List.cons_append, position, if_neg (fun e => h.1 e.symm), ih h.2]; rfl

theorem closeL_names (as : List Text) : ∀ (bs : List Text), (as ++ bs).Nodup →
    closeL (as ++ bs) 0 (bs.map fun n => Exp.var (.free n)) =
      (bs.zipIdx as.length).map fun p => Exp.var (.bound 0 p.2 p.1)
  | [], _ => rfl
  | b :: bs, h => by
    rw [List.map_cons, closeL, close, closeVar, List.zipIdx_cons, List.map_cons]
    have hb : b ∉ as := by
      intro hm
      rw [List.nodup_append] at h
      exact h.2.2 b hm b (by simp) rfl
    rw [position_append as bs b hb]
    congr 1
    have := closeL_names (as ++ [b]) bs (by simpa using h)
    rw [List.append_assoc, List.singleton_append, List.length_append] at this
    exact this
  termination_by bs => bs.length

theorem defaultLet_enc (es : List (Text × Y)) (hn : (es.map (·.1)).Nodup) (hg : goodL (es.map (·.2))) :
    defaultLet (encEs es) = enc [] (.map (es.map (·.1)) (es.map (·.2))) := by
  unfold defaultLet
  rw [encEs_keys, encEs_vals, enc]
  dsimp only
  have h1 := closeL_enc (es.map (·.1)) [] (es.map (·.2)) hg
  rw [List.length_nil, List.nil_append] at h1
  have h2 := closeL_names [] (es.map fun (p : Text × Y) => p.1) (by simpa using hn)
  rw [List.nil_append, List.length_nil] at h2
  have h3 : (List.map (fun n => ((n, Exp.var (.free n)) : Text × Exp)) (es.map (·.1))).map (·.2) =
      (es.map (·.1)).map fun n => Exp.var (.free n) := by simp
  have h4 : (List.map (fun n => ((n, Exp.var (.free n)) : Text × Exp)) (es.map (·.1))).map (·.1) =
      es.map (·.1) := by simp
  rw [h1, blockE_nodup _ (by rw [h4]; exact hn), close, h3, h4, h2]

/-! ## Which entries count -/

theorem settleGo_own (k : Text) (y : Y) : ∀ (ws before : List Write),
    settleGo before (ws ++ [⟨k, y, true⟩]) =
      (settleGo before ws).filter (fun p => decide (p.1 ≠ k)) ++ [(k, y)]
  | [], before => by
    rw [List.nil_append, settleGo, settleGo, if_pos (by unfold counts; rw [if_pos rfl]; simp), settleGo]; rfl
  | u :: ws, before => by
    have hc : counts before u (ws ++ [⟨k, y, true⟩]) ↔ counts before u ws ∧ u.key ≠ k := by
      unfold counts
      split
      · constructor
        · intro h
          exact ⟨fun v hv ho => h v (List.mem_append_left _ hv) ho,
            fun e => h ⟨k, y, true⟩ (by simp) rfl e.symm⟩
        · rintro ⟨h, hk⟩ v hv ho
          rcases List.mem_append.mp hv with hv | hv
          · exact h v hv ho
          · rw [List.mem_singleton] at hv; subst hv; exact fun e => hk e.symm
      · constructor
        · rintro ⟨h0, h⟩
          exact ⟨⟨h0, fun v hv ho => h v (List.mem_append_left _ hv) ho⟩,
            fun e => h ⟨k, y, true⟩ (by simp) rfl e.symm⟩
        · rintro ⟨⟨h0, h⟩, hk⟩
          refine ⟨h0, fun v hv ho => ?_⟩
          rcases List.mem_append.mp hv with hv | hv
          · exact h v hv ho
          · rw [List.mem_singleton] at hv; subst hv; exact fun e => hk e.symm
    rw [List.cons_append, settleGo, settleGo]
    by_cases h : counts before u ws
    · rw [if_pos h]
      by_cases hk : u.key = k
      · rw [if_neg (fun hh => (hc.mp hh).2 hk), settleGo_own k y ws, List.filter_cons_of_neg (by simp [hk])]
      · rw [if_pos (hc.mpr ⟨h, hk⟩), settleGo_own k y ws, List.filter_cons_of_pos (by simp [hk])]; rfl
    · rw [if_neg h, if_neg (fun hh => h (hc.mp hh).1), settleGo_own k y ws]

theorem settle_own (k : Text) (y : Y) (ws : List Write) :
    settle (ws ++ [⟨k, y, true⟩]) = (settle ws).filter (fun p => decide (p.1 ≠ k)) ++ [(k, y)] :=
  settleGo_own k y ws []

open Classical in
theorem settleGo_merged (k : Text) (y : Y) : ∀ (ws before : List Write),
    settleGo before (ws ++ [⟨k, y, false⟩]) =
      settleGo before ws ++ (if ∃ u ∈ before ++ ws, u.key = k then [] else [(k, y)])
  | [], before => by
    rw [List.nil_append, settleGo, settleGo, List.append_nil, List.nil_append]
    by_cases h : ∃ u ∈ before, u.key = k
    · rw [if_pos h, if_neg]; rfl
      intro hc
      unfold counts at hc
      rw [if_neg (by simp)] at hc
      obtain ⟨u, hu, hk⟩ := h
      exact hc.1 u hu hk
    · rw [if_neg h, if_pos]; rfl
      unfold counts
      rw [if_neg (by simp)]
      exact ⟨fun u hu hk => h ⟨u, hu, hk⟩, by simp⟩
  | u :: ws, before => by
    have hc : counts before u (ws ++ [⟨k, y, false⟩]) ↔ counts before u ws := by
      unfold counts
      have : (∀ v ∈ ws ++ [(⟨k, y, false⟩ : Write)], v.own = true → v.key ≠ u.key) ↔
          (∀ v ∈ ws, v.own = true → v.key ≠ u.key) := by
        constructor
        · intro h v hv; exact h v (List.mem_append_left _ hv)
        · intro h v hv ho
          rcases List.mem_append.mp hv with hv | hv
          · exact h v hv ho
          · rw [List.mem_singleton] at hv; subst hv; cases ho
      rw [this]
    have ha : before ++ u :: ws = before ++ [u] ++ ws := by simp
    rw [List.cons_append, settleGo, settleGo]
    by_cases h : counts before u ws
    · rw [if_pos h, if_pos (hc.mpr h), settleGo_merged k y ws, ha]; rfl
    · rw [if_neg h, if_neg (fun hh => h (hc.mp hh)), settleGo_merged k y ws, ha]

theorem settle_keys (ws : List Write) (k : Text) : k ∈ (settle ws).map (·.1) ↔ ∃ w ∈ ws, w.key = k := by
  induction ws using List.reverseRecOn with
  | nil => simp [settle, settleGo]
  | append_singleton ws w ih =>
    obtain ⟨k', y, own⟩ := w
    cases own with
    | true =>
      rw [settle_own, List.map_append, List.mem_append]
      constructor
      · rintro (h | h)
        · obtain ⟨p, hp, rfl⟩ := List.mem_map.mp h
          obtain ⟨w, hw, hk⟩ := ih.mp (List.mem_map_of_mem ((List.mem_filter.mp hp).1))
          exact ⟨w, List.mem_append_left _ hw, hk⟩
        · simp at h; exact ⟨_, List.mem_append_right _ (List.mem_singleton.mpr rfl), h.symm⟩
      · rintro ⟨w, hw, hk⟩
        by_cases hkk : k = k'
        · right; simp [hkk]
        · left
          rcases List.mem_append.mp hw with hw | hw
          · obtain ⟨p, hp, hpk⟩ := List.mem_map.mp (ih.mpr ⟨w, hw, hk⟩)
            exact List.mem_map.mpr ⟨p, List.mem_filter.mpr ⟨hp, by simp [hpk, hkk]⟩, hpk⟩
          · rw [List.mem_singleton] at hw; subst hw; exact absurd hk.symm hkk
    | false =>
      show k ∈ (settleGo [] _).map (·.1) ↔ _
      rw [settleGo_merged, List.nil_append, List.map_append, List.mem_append]
      constructor
      · rintro (h | h)
        · obtain ⟨w, hw, hk⟩ := ih.mp h
          exact ⟨w, List.mem_append_left _ hw, hk⟩
        · split at h
          · simp at h
          · simp at h; exact ⟨_, List.mem_append_right _ (List.mem_singleton.mpr rfl), h.symm⟩
      · rintro ⟨w, hw, hk⟩
        rcases List.mem_append.mp hw with hw | hw
        · left; exact ih.mpr ⟨w, hw, hk⟩
        · rw [List.mem_singleton] at hw; subst hw
          dsimp only at hk
          subst hk
          by_cases hx : ∃ u ∈ ws, u.key = k'
          · left; exact ih.mpr hx
          · right; rw [if_neg hx]; simp

theorem settle_merged (k : Text) (y : Y) (ws : List Write) :
    settle (ws ++ [⟨k, y, false⟩]) =
      if (settle ws).any (fun p => decide (p.1 = k)) then settle ws else settle ws ++ [(k, y)] := by
  show settleGo [] _ = _
  rw [settleGo_merged, List.nil_append]
  have h := settle_keys ws k
  have h' : (settle ws).any (fun p => decide (p.1 = k)) = true ↔ ∃ u ∈ ws, u.key = k := by
    rw [← h]; simp
  by_cases hx : ∃ u ∈ ws, u.key = k
  · rw [if_pos hx, if_pos (h'.mpr hx), List.append_nil]; rfl
  · rw [if_neg hx, if_neg (fun e => hx (h'.mp e))]; rfl

theorem settle_nodup (ws : List Write) : ((settle ws).map (·.1)).Nodup := by
  induction ws using List.reverseRecOn with
  | nil => simp [settle, settleGo]
  | append_singleton ws w ih =>
    obtain ⟨k', y, own⟩ := w
    cases own with
    | true =>
      rw [settle_own, List.map_append, List.nodup_append]
      refine ⟨ih.sublist (List.Sublist.map _ List.filter_sublist), by simp, ?_⟩
      intro a ha b hb
      obtain ⟨p, hp, rfl⟩ := List.mem_map.mp ha
      have := (List.mem_filter.mp hp).2
      simp at this hb
      rw [hb]; exact this
    | false =>
      rw [settle_merged]
      split
      · exact ih
      · rename_i hn
        rw [List.map_append, List.nodup_append]
        refine ⟨ih, by simp, ?_⟩
        intro a ha b hb e
        subst e
        simp at hb
        subst hb
        apply hn
        obtain ⟨p, hp, hpk⟩ := List.mem_map.mp ha
        rw [List.any_eq_true]
        exact ⟨p, hp, by simp [hpk]⟩

theorem settleGo_counts : ∀ (a before : List Write) (w : Write) (b : List Write), counts (before ++ a) w b →
    (w.key, w.val) ∈ settleGo before (a ++ w :: b)
  | [], before, w, b, h => by
    rw [List.append_nil] at h
    rw [List.nil_append, settleGo, if_pos h]
    exact List.mem_cons_self
  | u :: a, before, w, b, h => by
    rw [List.cons_append, settleGo]
    have := settleGo_counts a (before ++ [u]) w b (by simpa using h)
    split
    · exact List.mem_cons_of_mem _ this
    · exact this

theorem valueOf_mem (es : List (Text × Y)) (h : (es.map (·.1)).Nodup) (k : Text) (y : Y) (hm : (k, y) ∈ es) :
    valueOf es k = some y := by
  unfold valueOf
  induction es with
  | nil => simp at hm
  | cons p es ih =>
    obtain ⟨k', y'⟩ := p
    rw [List.map_cons, List.nodup_cons] at h
    rcases List.mem_cons.mp hm with e | hm
    · cases e; simp
    · have hne : k' ≠ k := fun e => h.1 (List.mem_map.mpr ⟨(k, y), hm, e.symm⟩)
      rw [List.find?_cons_of_neg (by simp [hne])]
      exact ih h.2 hm

theorem settle_value (a : List Write) (w : Write) (b : List Write) (h : counts a w b) :
    valueOf (settle (a ++ w :: b)) w.key = some w.val :=
  valueOf_mem _ (settle_nodup _) _ _ (settleGo_counts a [] w b h)

/-! ## Entries one by one -/

theorem override_enc (es : List (Text × Y)) (k : Text) (y : Y) :
    override (encEs es) k (enc [] y) = encEs (es.filter (fun p => decide (p.1 ≠ k)) ++ [(k, y)]) := by
  unfold override encEs
  rw [List.filter_map, List.map_append]; rfl

theorem addNew_enc (es : List (Text × Y)) (k : Text) (y : Y) :
    addNew (encEs es) k (enc [] y) =
      encEs (if es.any (fun p => decide (p.1 = k)) then es else es ++ [(k, y)]) := by
  unfold addNew
  have : (encEs es).any (fun p => decide (p.1 = k)) = es.any (fun p => decide (p.1 = k)) := by
    unfold encEs; rw [List.any_map]; rfl
  rw [this]
  split
  · rfl
  · unfold encEs; rw [List.map_append]; rfl

def ownW (es : List (Text × Y)) : List Write := es.map fun p => ⟨p.1, p.2, true⟩
def mergedW (es : List (Text × Y)) : List Write := es.map fun p => ⟨p.1, p.2, false⟩

theorem fold_override (es : List (Text × Y)) : ∀ (ws : List Write),
    (encEs es).foldl (fun a p => override a p.1 p.2) (encEs (settle ws)) = encEs (settle (ws ++ ownW es)) := by
  induction es with
  | nil => intro ws; simp [encEs, ownW]
  | cons p es ih =>
    intro ws
    show (encEs es).foldl _ (override (encEs (settle ws)) p.1 (enc [] p.2)) = _
    rw [override_enc, ← settle_own, ih]
    simp [ownW]

theorem fold_addNew (es : List (Text × Y)) : ∀ (ws : List Write),
    (encEs es).foldl (fun a p => addNew a p.1 p.2) (encEs (settle ws)) = encEs (settle (ws ++ mergedW es)) := by
  induction es with
  | nil => intro ws; simp [encEs, mergedW]
  | cons p es ih =>
    intro ws
    show (encEs es).foldl _ (addNew (encEs (settle ws)) p.1 (enc [] p.2)) = _
    rw [addNew_enc, ← settle_merged, ih]
    simp [mergedW]

theorem zip_encEs (ks : List Text) (vs : List Y) (h : shutL vs) (Γ : List (List Text)) :
    ks.zip (encL Γ vs) = encEs (ks.zip vs) := by
  rw [encL_shut Γ [] vs h, encL_map]
  unfold encEs
  rw [List.zip_map_right]; rfl

mutual
theorem extract_enc : ∀ (y : Y), y.shut → ∀ ms, merged y = some ms → extract (enc [] y) = .ok (encEs ms)
  | .map ks vs, h, ms, hm => by
    rw [Y.shut] at h
    rw [merged] at hm
    cases hm
    rw [enc, extract, zip_encEs ks vs h]
  | .list ys, h, ms, hm => by
    rw [Y.shut] at h
    rw [merged] at hm
    cases he : mergedL ys with
    | none => rw [he] at hm; cases hm
    | some es =>
      rw [he] at hm
      cases hm
      rw [enc, extract]
      have := extractL_enc ys h es he []
      rw [List.nil_append] at this
      exact this
  | .code e, _, ms, hm => by rw [merged] at hm <;> simp_all
  | .null, _, ms, hm => by rw [merged] at hm <;> simp_all
  | .bool _, _, ms, hm => by rw [merged] at hm <;> simp_all
  | .num _, _, ms, hm => by rw [merged] at hm <;> simp_all
  | .str _, _, ms, hm => by rw [merged] at hm <;> simp_all
  | .tagged _ _, _, ms, hm => by rw [merged] at hm <;> simp_all
  | .suppressed _, _, ms, hm => by rw [merged] at hm <;> simp_all
  | .time _, _, ms, hm => by rw [merged] at hm <;> simp_all
theorem extractL_enc : ∀ (ys : List Y), shutL ys → ∀ es, mergedL ys = some es → ∀ ws,
    extractL (encL [] ys) (encEs (settle ws)) = .ok (encEs (settle (ws ++ ownW es)))
  | [], _, es, hm, ws => by
    rw [mergedL] at hm
    cases hm
    rw [encL, extractL]; simp [ownW]
  | y :: ys, h, es, hm, ws => by
    rw [shutL] at h
    rw [mergedL] at hm
    cases ha : merged y with
    | none => rw [ha] at hm; cases hm
    | some a =>
      rw [ha] at hm
      cases hb : mergedL ys with
      | none => rw [hb] at hm; cases hm
      | some b =>
        rw [hb] at hm
        cases hm
        rw [encL, extractL, extract_enc y h.1 a ha]
        dsimp only
        rw [fold_override, extractL_enc ys h.2 b hb]
        simp [ownW]
end

mutual
theorem extract_none : ∀ (y : Y), plainY y → merged y = none → extract (enc [] y) = .error .merge
  | .map ks vs, _, hm => by rw [merged] at hm; cases hm
  | .list ys, h, hm => by
    rw [plainY] at h
    rw [merged] at hm
    cases he : mergedL ys with
    | some es => rw [he] at hm; cases hm
    | none =>
      rw [enc, extract]
      exact extractL_none ys h he _
  | .code e, h, hm => by rw [plainY] at h; exact h.elim
  | .null, _, hm => rfl
  | .bool _, _, hm => rfl
  | .num _, _, hm => rfl
  | .str _, _, hm => rfl
  | .tagged _ _, _, hm => rfl
  | .suppressed _, _, hm => rfl
  | .time _, _, hm => rfl
theorem extractL_none : ∀ (ys : List Y), plainYL ys → mergedL ys = none → ∀ acc,
    extractL (encL [] ys) acc = .error .merge
  | [], _, hm, _ => by rw [mergedL] at hm; cases hm
  | y :: ys, h, hm, acc => by
    rw [plainYL] at h
    rw [mergedL] at hm
    rw [encL, extractL]
    cases ha : merged y with
    | none => rw [extract_none y h.1 ha]
    | some a =>
      rw [ha] at hm
      rw [extract_enc y (plain_shut y h.1) a ha]
      cases hb : mergedL ys with
      | some b => rw [hb] at hm; cases hm
      | none => exact extractL_none ys h.2 hb _
end

/-! ## Documents -/

def encEnv (env : Env) : An := env.map fun p => (p.1, enc [] p.2)

theorem getAnchor_enc (env : Env) (i : Nat) : getAnchor (encEnv env) i = (env.get i).map (enc []) := by
  unfold getAnchor Env.get encEnv
  rw [List.find?_map]
  show Option.map _ (Option.map _ (env.find? (fun p => p.1 == i))) = _
  cases env.find? (fun p => p.1 == i) <;> rfl

theorem putAnchor_enc (env : Env) (i : Nat) (y : Y) :
    putAnchor (encEnv env) i (enc [] y) = encEnv (env.put i y) := by
  unfold putAnchor Env.put
  split <;> rfl

theorem goodL_iff (ys : List Y) : goodL ys ↔ ∀ y ∈ ys, good y := by
  induction ys with
  | nil => simp [goodL]
  | cons y ys ih => rw [goodL, ih]; simp

theorem plainYL_iff (ys : List Y) : plainYL ys ↔ ∀ y ∈ ys, plainY y := by
  induction ys with
  | nil => simp [plainYL]
  | cons y ys ih => rw [plainYL, ih]; simp

def goodEnv (env : Env) : Prop := ∀ p ∈ env, good p.2
def plainEnv (env : Env) : Prop := ∀ p ∈ env, plainY p.2

theorem get_mem (env : Env) (i : Nat) (y : Y) (h : env.get i = some y) : ∃ p ∈ env, p.2 = y := by
  unfold Env.get at h
  cases hf : env.find? (fun p => p.1 == i) with
  | none => rw [hf] at h; cases h
  | some p => rw [hf] at h; cases h; exact ⟨p, List.mem_of_find?_eq_some hf, rfl⟩

theorem settleGo_mem : ∀ (ws before : List Write), ∀ p ∈ settleGo before ws, ∃ w ∈ ws, p = (w.key, w.val)
  | [], _, p, h => by rw [settleGo] at h; simp at h
  | w :: ws, before, p, h => by
    rw [settleGo] at h
    split at h
    · rcases List.mem_cons.mp h with h | h
      · exact ⟨w, List.mem_cons_self, h⟩
      · obtain ⟨v, hv, e⟩ := settleGo_mem ws _ p h
        exact ⟨v, List.mem_cons_of_mem _ hv, e⟩
    · obtain ⟨v, hv, e⟩ := settleGo_mem ws _ p h
      exact ⟨v, List.mem_cons_of_mem _ hv, e⟩

theorem settle_all {P : Y → Prop} (ws : List Write) (h : ∀ w ∈ ws, P w.val) :
    ∀ y ∈ (settle ws).map (·.2), P y := by
  intro y hy
  obtain ⟨p, hp, rfl⟩ := List.mem_map.mp hy
  obtain ⟨w, hw, e⟩ := settleGo_mem ws [] p hp
  rw [e]; exact h w hw

mutual
theorem merged_all (P : Y → Prop) (hl : ∀ ys, P (.list ys) → ∀ y ∈ ys, P y)
    (hm : ∀ ks vs, P (.map ks vs) → ∀ y ∈ vs, P y) :
    ∀ (y : Y), P y → ∀ ms, merged y = some ms → ∀ p ∈ ms, P p.2
  | .map ks vs, h, ms, he, p, hp => by
    rw [merged] at he
    cases he
    exact hm ks vs h p.2 (List.of_mem_zip hp).2
  | .list ys, h, ms, he, p, hp => by
    rw [merged] at he
    cases hx : mergedL ys with
    | none => rw [hx] at he; cases he
    | some es =>
      rw [hx] at he
      cases he
      obtain ⟨w, hw, e⟩ := settleGo_mem _ [] p hp
      obtain ⟨q, hq, rfl⟩ := List.mem_map.mp hw
      rw [e]
      exact mergedL_all P hl hm ys (hl ys h) es hx q hq
  | .code e, _, ms, he, _, _ => by rw [merged] at he <;> simp_all
  | .null, _, ms, he, _, _ => by rw [merged] at he <;> simp_all
  | .bool _, _, ms, he, _, _ => by rw [merged] at he <;> simp_all
  | .num _, _, ms, he, _, _ => by rw [merged] at he <;> simp_all
  | .str _, _, ms, he, _, _ => by rw [merged] at he <;> simp_all
  | .tagged _ _, _, ms, he, _, _ => by rw [merged] at he <;> simp_all
  | .suppressed _, _, ms, he, _, _ => by rw [merged] at he <;> simp_all
  | .time _, _, ms, he, _, _ => by rw [merged] at he <;> simp_all
theorem mergedL_all (P : Y → Prop) (hl : ∀ ys, P (.list ys) → ∀ y ∈ ys, P y)
    (hm : ∀ ks vs, P (.map ks vs) → ∀ y ∈ vs, P y) :
    ∀ (ys : List Y), (∀ y ∈ ys, P y) → ∀ es, mergedL ys = some es → ∀ p ∈ es, P p.2
  | [], _, es, he, p, hp => by rw [mergedL] at he; cases he; simp at hp
  | y :: ys, h, es, he, p, hp => by
    rw [mergedL] at he
    cases ha : merged y with
    | none => rw [ha] at he; cases he
    | some a =>
      rw [ha] at he
      cases hb : mergedL ys with
      | none => rw [hb] at he; cases he
      | some b =>
        rw [hb] at he
        cases he
        rcases List.mem_append.mp hp with hp | hp
        · exact merged_all P hl hm y (h y List.mem_cons_self) a ha p hp
        · exact mergedL_all P hl hm ys (fun y hy => h y (List.mem_cons_of_mem _ hy)) b hb p hp
end

/-- What is kept of values: their code is closed but for names, and if there is none in scalars there is
none at all. -/
def Fit (NC : Prop) (y : Y) : Prop := good y ∧ (NC → plainY y)

theorem fit_list (NC : Prop) (ys : List Y) : Fit NC (.list ys) ↔ ∀ y ∈ ys, Fit NC y := by
  unfold Fit
  rw [good, plainY, goodL_iff, plainYL_iff]
  constructor
  · rintro ⟨h, k⟩ y hy; exact ⟨h y hy, fun n => k n y hy⟩
  · intro h; exact ⟨fun y hy => (h y hy).1, fun n y hy => (h y hy).2 n⟩

theorem fit_map (NC : Prop) (ks : List Text) (ys : List Y) : Fit NC (.map ks ys) ↔ ∀ y ∈ ys, Fit NC y := by
  unfold Fit
  rw [good, plainY, goodL_iff, plainYL_iff]
  constructor
  · rintro ⟨h, k⟩ y hy; exact ⟨h y hy, fun n => k n y hy⟩
  · intro h; exact ⟨fun y hy => (h y hy).1, fun n y hy => (h y hy).2 n⟩

def FitEnv (NC : Prop) (env : Env) : Prop := ∀ p ∈ env, Fit NC p.2

theorem fit_put (NC : Prop) (env : Env) (i : Nat) (y : Y) (h : FitEnv NC env) (hy : Fit NC y) :
    FitEnv NC (env.put i y) := by
  unfold Env.put
  split
  · exact h
  · intro p hp
    rcases List.mem_cons.mp hp with e | hp
    · rw [e]; exact hy
    · exact h p hp

abbrev Sc := Text → Bool → Option (Text × Text) → Option Y

/-- The reading of scalars agrees. -/
def Agrees (o : Outside Ev) (b : Bool) (sc : Sc) : Prop :=
  ∀ t p g, match sc t p g with
    | some y => convertScalar o b t p g = .ok (enc [] y)
    | none => ∃ er, convertScalar o b t p g = .error er

def FitSc (NC : Prop) (sc : Sc) : Prop := ∀ t p g y, sc t p g = some y → Fit NC y

def Rel (NC : Prop) : Option (Y × Env) → Except Err (Exp × An) → Prop
  | some (y, env), x => x = .ok (enc [] y, encEnv env) ∧ Fit NC y ∧ FitEnv NC env
  | none, x => NC → ∃ er, x = .error er

def RelL (NC : Prop) : Option (List Y × Env) → Except Err (List Exp × An) → Prop
  | some (ys, env), x => x = .ok (encL [] ys, encEnv env) ∧ (∀ y ∈ ys, Fit NC y) ∧ FitEnv NC env
  | none, x => NC → ∃ er, x = .error er

def RelK (NC : Prop) : Option (Text × Env) → Except Err (Text × An) → Prop
  | some (t, env), x => x = .ok (t, encEnv env) ∧ FitEnv NC env
  | none, x => NC → ∃ er, x = .error er

def RelE (NC : Prop) (ws0 : List Write) : Option (List Write × Env) → Except Err (List (Text × Exp) × An) → Prop
  | some (ws, env), x => x = .ok (encEs (settle (ws0 ++ ws)), encEnv env) ∧ (∀ w ∈ ws, Fit NC w.val) ∧
      FitEnv NC env
  | none, x => NC → ∃ er, x = .error er

open Classical in
/-- What one entry adds. -/
theorem putEntry_some (NC : Prop) (st : Bool) (hst : st = true ∨ NC) (ws0 : List Write) (t : Text) (y : Y) (hy : Fit NC y) (ws : List Write)
    (h : (if t = ['<', '<'] then
          (if st = true ∧ ¬ y.shut then none
           else (merged y).map fun ms => ms.map fun p => (⟨p.1, p.2, false⟩ : Write))
         else some [⟨t, y, true⟩]) = some ws) :
    putEntry (encEs (settle ws0)) t (enc [] y) = .ok (encEs (settle (ws0 ++ ws))) ∧
      ∀ w ∈ ws, Fit NC w.val := by
  unfold putEntry mergeKey
  by_cases hk : t = ['<', '<']
  · rw [if_pos hk] at h ⊢
    by_cases hs : y.shut
    · rw [if_neg (by simp [hs])] at h
      cases hm : merged y with
      | none => rw [hm] at h; cases h
      | some ms =>
        rw [hm] at h
        cases h
        rw [extract_enc y hs ms hm]
        dsimp only
        rw [fold_addNew]
        refine ⟨rfl, ?_⟩
        intro w hw
        obtain ⟨p, hp, rfl⟩ := List.mem_map.mp hw
        exact merged_all (Fit NC) (fun ys => (fit_list NC ys).mp) (fun ks vs => (fit_map NC ks vs).mp) y hy ms hm p hp
    · rcases hst with hst | hst
      · rw [if_pos ⟨hst, hs⟩] at h; cases h
      · exact absurd (plain_shut y (hy.2 hst)) hs
  · rw [if_neg hk] at h ⊢
    cases h
    rw [override_enc, ← settle_own]
    refine ⟨rfl, ?_⟩
    intro w hw
    rw [List.mem_singleton] at hw
    subst hw; exact hy

open Classical in
theorem putEntry_none (st : Bool) (acc : List (Text × Exp)) (t : Text) (y : Y) (hy : plainY y)
    (h : (if t = ['<', '<'] then
          (if st = true ∧ ¬ y.shut then none
           else (merged y).map fun ms => ms.map fun p => (⟨p.1, p.2, false⟩ : Write))
         else some [⟨t, y, true⟩]) = none) :
    putEntry acc t (enc [] y) = .error .merge := by
  unfold putEntry mergeKey
  by_cases hk : t = ['<', '<']
  · rw [if_pos hk] at h ⊢
    have hs := plain_shut y hy
    rw [if_neg (by simp [hs])] at h
    cases hm : merged y with
    | none => rw [extract_none y hy hm]
    | some ms => rw [hm] at h; cases h
  · rw [if_neg hk] at h; cases h

theorem keyText_none (y : Y) (hy : plainY y) (h : ∀ t, y ≠ .str t) : keyText (enc [] y) = none := by
  cases y with
  | str s => exact absurd rfl (h s)
  | code e => rw [plainY] at hy; exact hy.elim
  | _ => rfl

open Classical in
mutual
theorem eval_mean (o : Outside Ev) (b : Bool) (sc : Sc) (NC : Prop) (ha : Agrees o b sc) (hf : FitSc NC sc)
    (st : Bool) (hst : st = true ∨ NC) :
    ∀ (d : Doc) (env : Env), d.bareKeys → FitEnv NC env →
      Rel NC (mean sc st d env) (evalD o b d (encEnv env))
  | .scalar t p a g, env, _, he => by
    rw [mean, evalD]
    have h := ha t p g
    cases hs : sc t p g with
    | none =>
      rw [hs] at h
      obtain ⟨er, h⟩ := h
      rw [h]
      exact fun _ => ⟨er, rfl⟩
    | some y =>
      rw [hs] at h
      dsimp only at h
      rw [h]
      dsimp only
      have hy := hf t p g y hs
      rw [putAnchor_enc]
      exact ⟨rfl, hy, fit_put NC env a y he hy⟩
  | .seq a ds, env, hb, he => by
    rw [Doc.bareKeys] at hb
    rw [mean, evalD]
    have h := evalL_mean o b sc NC ha hf st hst ds env hb he
    cases hs : meanL sc st ds env with
    | none =>
      rw [hs] at h
      intro n
      obtain ⟨er, h⟩ := h n
      rw [h]; exact ⟨er, rfl⟩
    | some r =>
      obtain ⟨ys, env'⟩ := r
      rw [hs] at h
      obtain ⟨h1, h2, h3⟩ := h
      rw [h1]
      dsimp only
      have hy := (fit_list NC ys).mpr h2
      have : listE (encL [] ys) = enc [] (.list ys) := by rw [enc]; rfl
      rw [this, putAnchor_enc]
      exact ⟨rfl, hy, fit_put NC env' a _ h3 hy⟩
  | .map a es, env, hb, he => by
    rw [Doc.bareKeys] at hb
    rw [mean, evalD]
    have h := evalE_mean o b sc NC ha hf st hst es [] env hb he
    have h0 : encEs (settle []) = [] := rfl
    rw [h0] at h
    cases hs : meanE sc st es env with
    | none =>
      rw [hs] at h
      intro n
      obtain ⟨er, h⟩ := h n
      rw [h]; exact ⟨er, rfl⟩
    | some r =>
      obtain ⟨ws, env'⟩ := r
      rw [hs] at h
      obtain ⟨h1, h2, h3⟩ := h
      rw [List.nil_append] at h1
      rw [h1]
      dsimp only
      have hv := settle_all (P := Fit NC) ws h2
      have hy := (fit_map NC ((settle ws).map (·.1)) ((settle ws).map (·.2))).mpr hv
      rw [defaultLet_enc (settle ws) (settle_nodup ws) ((goodL_iff _).mpr fun y hm => (hv y hm).1), putAnchor_enc]
      exact ⟨rfl, hy, fit_put NC env' a _ h3 hy⟩
  | .alias i, env, _, he => by
    rw [mean, evalD, getAnchor_enc]
    cases hg : env.get i with
    | none => exact fun _ => ⟨_, rfl⟩
    | some y =>
      obtain ⟨p, hp, rfl⟩ := get_mem env i y hg
      exact ⟨rfl, he p hp, he⟩
theorem evalL_mean (o : Outside Ev) (b : Bool) (sc : Sc) (NC : Prop) (ha : Agrees o b sc) (hf : FitSc NC sc)
    (st : Bool) (hst : st = true ∨ NC) :
    ∀ (ds : Docs) (env : Env), ds.bareKeys → FitEnv NC env →
      RelL NC (meanL sc st ds env) (evalL o b ds (encEnv env))
  | .nil, env, _, he => by
    rw [meanL, evalL]
    exact ⟨rfl, by simp, he⟩
  | .cons d ds, env, hb, he => by
    rw [Docs.bareKeys] at hb
    rw [meanL, evalL]
    have h := eval_mean o b sc NC ha hf st hst d env hb.1 he
    cases hs : mean sc st d env with
    | none =>
      rw [hs] at h
      intro n
      obtain ⟨er, h⟩ := h n
      rw [h]; exact ⟨er, rfl⟩
    | some r =>
      obtain ⟨y, env'⟩ := r
      rw [hs] at h
      obtain ⟨h1, h2, h3⟩ := h
      rw [h1]
      dsimp only [Option.bind_some]
      have k := evalL_mean o b sc NC ha hf st hst ds env' hb.2 h3
      cases hl : meanL sc st ds env' with
      | none =>
        rw [hl] at k
        intro n
        obtain ⟨er, k⟩ := k n
        rw [k]; exact ⟨er, rfl⟩
      | some r =>
        obtain ⟨ys, env''⟩ := r
        rw [hl] at k
        obtain ⟨k1, k2, k3⟩ := k
        rw [k1]
        refine ⟨by rw [encL], ?_, k3⟩
        intro z hz
        rcases List.mem_cons.mp hz with e | hz
        · rw [e]; exact h2
        · exact k2 z hz
theorem evalK_mean (o : Outside Ev) (b : Bool) (sc : Sc) (NC : Prop) (ha : Agrees o b sc) (hf : FitSc NC sc)
    (st : Bool) (hst : st = true ∨ NC) :
    ∀ (d : Doc) (env : Env), d.bareKey → FitEnv NC env →
      RelK NC (meanK sc st d env) (evalK o b d (encEnv env))
  | .scalar t p a g, env, hb, he => by
    rw [Doc.bareKey] at hb
    subst hb
    rw [meanK, evalK]
    exact ⟨rfl, he⟩
  | .seq a ds, env, hb, he => by
    rw [meanK, evalK]
    intro _
    cases evalL o b ds (encEnv env) with
    | ok r => exact ⟨_, rfl⟩
    | error er => exact ⟨_, rfl⟩
  | .map a es, env, hb, he => by
    rw [meanK, evalK]
    intro _
    cases evalE o b es [] (encEnv env) with
    | ok r => exact ⟨_, rfl⟩
    | error er => exact ⟨_, rfl⟩
  | .alias i, env, _, he => by
    rw [meanK, evalK, getAnchor_enc]
    cases hg : env.get i with
    | none => exact fun _ => ⟨_, rfl⟩
    | some y =>
      obtain ⟨p, hp, hpy⟩ := get_mem env i y hg
      have hy : Fit NC y := hpy ▸ he p hp
      cases y with
      | str t => exact ⟨rfl, he⟩
      | code e => exact fun n => by have := hy.2 n; rw [plainY] at this; exact this.elim
      | _ => exact fun _ => ⟨_, rfl⟩
theorem evalE_mean (o : Outside Ev) (b : Bool) (sc : Sc) (NC : Prop) (ha : Agrees o b sc) (hf : FitSc NC sc)
    (st : Bool) (hst : st = true ∨ NC) :
    ∀ (es : Ents) (ws0 : List Write) (env : Env), es.bareKeys → FitEnv NC env →
      RelE NC ws0 (meanE sc st es env) (evalE o b es (encEs (settle ws0)) (encEnv env))
  | .nil, ws0, env, _, he => by
    rw [meanE, evalE]
    exact ⟨by rw [List.append_nil], by simp, he⟩
  | .cons k v es, ws0, env, hb, he => by
    rw [Ents.bareKeys] at hb
    rw [meanE, evalE]
    have h := evalK_mean o b sc NC ha hf st hst k env hb.1 he
    cases hk : meanK sc st k env with
    | none =>
      rw [hk] at h
      intro n
      obtain ⟨er, h⟩ := h n
      rw [h]; exact ⟨er, rfl⟩
    | some r =>
      obtain ⟨t, env'⟩ := r
      rw [hk] at h
      obtain ⟨h1, h2⟩ := h
      rw [h1]
      dsimp only [Option.bind_some]
      have hv := eval_mean o b sc NC ha hf st hst v env' hb.2.1 h2
      cases hm : mean sc st v env' with
      | none =>
        rw [hm] at hv
        intro n
        obtain ⟨er, hv⟩ := hv n
        rw [hv]; exact ⟨er, rfl⟩
      | some r =>
        obtain ⟨y, env''⟩ := r
        rw [hm] at hv
        obtain ⟨v1, v2, v3⟩ := hv
        rw [v1]
        dsimp only [Option.bind_some]
        generalize hw : (if t = ['<', '<'] then
          (if st = true ∧ ¬ y.shut then none
           else (merged y).map fun ms => ms.map fun p => (⟨p.1, p.2, false⟩ : Write))
         else some [⟨t, y, true⟩]) = W
        cases W with
        | none =>
          intro n
          rw [putEntry_none st _ t y (v2.2 n) hw]
          exact ⟨_, rfl⟩
        | some ws =>
          obtain ⟨p1, p2⟩ := putEntry_some NC st hst ws0 t y v2 ws hw
          rw [p1]
          dsimp only [Option.bind_some]
          have hr := evalE_mean o b sc NC ha hf st hst es (ws0 ++ ws) env'' hb.2.2 v3
          cases hq : meanE sc st es env'' with
          | none =>
            rw [hq] at hr
            intro n
            exact hr n
          | some r =>
            obtain ⟨us, env3⟩ := r
            rw [hq] at hr
            obtain ⟨r1, r2, r3⟩ := hr
            refine ⟨by rw [r1, List.append_assoc], ?_, r3⟩
            intro w hw
            rcases List.mem_append.mp hw with hw | hw
            · exact p2 w hw
            · exact r2 w hw
end

end Verif.Yaml
