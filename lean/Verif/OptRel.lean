import Verif.OptSpec
import Verif.SemRed

/-!
# Code and values before and after

Proofs only.  `CR M d τ c c'`: in a scope of `d` names, renamed by `τ`, `c'` does what `c` does.  `M.lax` allows the rule
that forgets which constructor was asked for.
-/

namespace Verif.Opt
open Verif.Bc Verif.Sem
variable {K : Type}

def mapR (τ : Nat → Nat) : Ref K → Ref K
  | .l i => .l (τ i)
  | r => r

def up (n : Nat) (τ : Nat → Nat) (i : Nat) : Nat := if i < n then i else τ (i - n) + n
def bumped (τ : Nat → Nat) (i : Nat) : Nat := τ i + 1
/-- The first names are `ks` after renaming. -/
def bound (ks : List Nat) (τ : Nat → Nat) (i : Nat) : Nat := match ks[i]? with
  | some k => k
  | none => τ (i - ks.length)

/-- How many globals there are, and whether the rule that forgets which constructor was asked for is allowed. -/
structure Mode where
  globals : Nat
  lax : Bool

def ok (M : Mode) (d : Nat) (r : Ref K) : Prop := okRef M.globals d r = true
def oks (M : Mode) (d : Nat) (rs : List (Ref K)) : Prop := ∀ r ∈ rs, ok M d r

mutual
inductive CR (M : Mode) : Nat → (Nat → Nat) → Syn K → Syn K → Prop where
  | head {d τ c c'} : HC M d τ c c' → CR M d τ c c'
  | stripLet {d τ fs body ms c'} : fromLet fs = some ms → (∀ m ∈ ms, m < d) →
      CR M (d + ms.length) (bound (ms.map τ) τ) body c' → CR M d τ (.let_ fs body) c'
  | stripRec {d τ fs body ms c'} : fromLetrec (count fs) fs = some ms → (∀ m ∈ ms, m < d) →
      CR M (d + ms.length) (bound (ms.map τ) τ) body c' → CR M d τ (.letrec fs body) c'
  | known {d τ scr bs fb t ks b c'} : CR M d τ scr (.cons t (ks.map .l)) → branch bs t = some b →
      CR M (d + ks.length) (bound ks τ) b c' → CR M d τ (.case scr bs fb) c'
inductive HC (M : Mode) : Nat → (Nat → Nat) → Syn K → Syn K → Prop where
  | atom {d τ r} : ok M d r → HC M d τ (.atom r) (.atom (mapR τ r))
  | cons {d τ t as} : oks M d as → fieldsOf t = some as.length → HC M d τ (.cons t as) (.cons t (as.map (mapR τ)))
  | app {d τ f as eager} : ok M d f → oks M d as → HC M d τ (.app f as eager) (.app (mapR τ f) (as.map (mapR τ)) eager)
  | dapp {d τ smid f as eager} : ok M d f → oks M d as →
      HC M d τ (.dapp smid f as eager) (.dapp smid (mapR τ f) (as.map (mapR τ)) eager)
  | «bif» {d τ i as} : oks M d as → HC M d τ (.bif i as) (.bif i (as.map (mapR τ)))
  | metaOf {d τ m b} : ok M d m → ok M d b → HC M d τ (.metaOf m b) (.metaOf (mapR τ m) (mapR τ b))
  | fused {d τ id l r} : ok M d l → ok M d r → HC M d τ (.fused id l r) (.fused id (mapR τ l) (mapR τ r))
  | lookup {d τ s k o f s' k' o' f'} : HC M d τ (.lookup s k o f) (.lookup s' k' o' f')
  | hole {d τ} : HC M d τ .hole .hole
  | ann {d τ smid b b'} : CR M d τ b b' → HC M d τ (.ann smid b) (.ann smid b')
  | seq {d τ s s' b b'} : CR M d τ s s' → CR M d τ b b' → HC M d τ (.seq s b) (.seq s' b')
  | demeta {d τ s s' h h' o o'} : CR M d τ s s' → CR M (d + 2) (up 2 τ) h h' → CR M (d + 1) (up 1 τ) o o' →
      HC M d τ (.demeta s h o) (.demeta s' h' o')
  | let_ {d τ fs fs' b b'} : FsR M d τ fs fs' → CR M (d + count fs) (up (count fs) τ) b b' →
      HC M d τ (.let_ fs b) (.let_ fs' b')
  | letrec {d τ fs fs' b b'} : FsR M (d + count fs) (up (count fs) τ) fs fs' →
      CR M (d + count fs) (up (count fs) τ) b b' → HC M d τ (.letrec fs b) (.letrec fs' b')
  | case {d τ s s' bs bs' fb fb'} : CR M d τ s s' → BR M d τ bs bs' → FR M (d + 1) (up 1 τ) fb fb' →
      HC M d τ (.case s bs fb) (.case s' bs' fb')
  | force {d τ s s' t b b'} : M.lax = true → fieldsOf t = some 0 → CR M d τ s s' → CR M d (bumped τ) b b' →
      HC M d τ (.case s (.cons t b .nil) .none) (.case s' .nil (.some b'))
  | knownLet {d τ scr bs fb t as b b'} : CR M d τ scr (.cons t as) → branch bs t = some b →
      CR M (d + as.length) (up as.length τ) b b' → HC M d τ (.case scr bs fb) (.let_ (bindArgs as) b')
  | knownFb {d τ scr bs t as b b'} : CR M d τ scr (.cons t as) → branch bs t = none →
      CR M (d + 1) (up 1 τ) b b' →
      HC M d τ (.case scr bs (.some b)) (.let_ (.cons .value (.cons t as) .nil) b')
inductive BR (M : Mode) : Nat → (Nat → Nat) → Brs K → Brs K → Prop where
  | nil {d τ} : BR M d τ .nil .nil
  | cons {d τ t n b b' bs bs'} : fieldsOf t = some n → CR M (d + n) (up n τ) b b' → BR M d τ bs bs' →
      BR M d τ (.cons t b bs) (.cons t b' bs')
inductive FR (M : Mode) : Nat → (Nat → Nat) → Fb K → Fb K → Prop where
  | none {d τ} : FR M d τ .none .none
  | some {d τ b b'} : CR M d τ b b' → FR M d τ (.some b) (.some b')
inductive FsR (M : Mode) : Nat → (Nat → Nat) → Forms K → Forms K → Prop where
  | nil {d τ} : FsR M d τ .nil .nil
  | cons {d τ h b b' fs fs'} : CR M (d + arity h) (up (arity h) τ) b b' → FsR M d τ fs fs' →
      FsR M d τ (.cons h b fs) (.cons h b' fs')
end

mutual
/-- `w` after stands for `v` before. -/
inductive OV (P' : World K) (M : Mode) : Val K → Val K → Prop where
  | nat (k) : OV P' M (.nat k) (.nat k)
  | clo {a c c' e e' d τ} : ER P' M d τ e e' → CR M (d + a) (up a τ) c c' → OV P' M (.clo a c e) (.clo a c' e')
  | src {e i v w} : lookup e i = some v → OV P' M v w → OV P' M (.clo 0 (.atom (.l i)) e) w
  | tgt {e r v w} : resolve P' e r = .ok w → OV P' M v w → OV P' M v (.clo 0 (.atom r) e)
inductive ER (P' : World K) (M : Mode) : Nat → (Nat → Nat) → Env K → Env K → Prop where
  | ext {d τ e e'} : (∀ i < d, (lookup e i).isSome = true ∧ (lookup e' (τ i)).isSome = true) →
      (∀ i v w, i < d → lookup e i = some v → lookup e' (τ i) = some w → OV P' M v w) → ER P' M d τ e e'
  | recs {d τ fs fs' e e'} : FsR M (d + count fs) (up (count fs) τ) fs fs' → ER P' M d τ e e' →
      ER P' M (d + count fs) (up (count fs) τ) (.recs fs e) (.recs fs' e')
end

/-! ## Forms -/

theorem count_forms (fs : Forms K) : count fs = (forms fs).length := by
  match fs with
  | .nil => rfl
  | .cons h b rest => simp [count, forms, count_forms rest]

theorem FsR.count {M : Mode} {d τ} {fs fs' : Forms K} (h : FsR M d τ fs fs') : Opt.count fs = Opt.count fs' := by
  match h with
  | .nil => rfl
  | .cons _ h => simp [Opt.count, h.count]
termination_by structural h

theorem FsR.get {M : Mode} {d τ} {fs fs' : Forms K} (h : FsR M d τ fs fs') {i : Nat} {f : Form K}
    (hf : (forms fs)[i]? = some f) : ∃ b', (forms fs')[i]? = some ⟨f.head, b'⟩ ∧
      CR M (d + arity f.head) (up (arity f.head) τ) f.body b' := by
  match h with
  | .nil => simp [forms] at hf
  | .cons (b' := b') hc hs =>
    cases i with
    | zero =>
      simp only [forms, List.getElem?_cons_zero, Option.some.injEq] at hf
      subst hf
      exact ⟨b', rfl, hc⟩
    | succ i =>
      simp only [forms, List.getElem?_cons_succ] at hf
      obtain ⟨b2, h1, h2⟩ := hs.get hf
      exact ⟨b2, by simp only [forms, List.getElem?_cons_succ]; exact h1, h2⟩
termination_by structural h

/-! ## Lookups -/

variable {P P' : World K} {M : Mode}

theorem ER.lookup {d τ} {e e' : Env K} (h : ER P' M d τ e e') {i : Nat} (hi : i < d) :
    ∃ v w, Sem.lookup e i = some v ∧ Sem.lookup e' (τ i) = some w ∧ OV P' M v w := by
  match h with
  | .ext h1 h2 =>
    obtain ⟨ha, hb⟩ := h1 i hi
    obtain ⟨v, hv⟩ := Option.isSome_iff_exists.1 ha
    obtain ⟨w, hw⟩ := Option.isSome_iff_exists.1 hb
    exact ⟨v, w, hv, hw, h2 i v w hi hv hw⟩
  | .recs (d := d0) (τ := τ0) (fs := fs) (fs' := fs') (e := e0) (e' := e0') hf he =>
    have hcnt := hf.count
    rw [count_forms, count_forms] at hcnt
    simp only [Sem.lookup]
    cases hx : (forms fs)[i]? with
    | some f =>
      obtain ⟨b', h1, h2⟩ := hf.get hx
      have hlt : i < count fs := by rw [count_forms]; exact (List.getElem?_eq_some_iff.1 hx).1
      have hup : up (count fs) τ0 i = i := by simp [up, hlt]
      rw [hup, h1]
      exact ⟨_, _, rfl, rfl, .clo (.recs hf he) h2⟩
    | none =>
      have hge : ¬ i < count fs := by rw [count_forms]; simpa using hx
      have hup : up (count fs) τ0 i = τ0 (i - count fs) + count fs := by simp [up, hge]
      have hn : (forms fs')[τ0 (i - count fs) + count fs]? = none := by
        rw [List.getElem?_eq_none_iff, ← hcnt, count_forms]; omega
      obtain ⟨v, w, h1, h2, h3⟩ := ER.lookup he (i := i - count fs) (by omega)
      rw [hup, hn, ← hcnt, ← count_forms, h1]
      simp only [Nat.add_sub_cancel]
      exact ⟨v, w, rfl, h2, h3⟩
termination_by structural h

theorem ER.of {d τ} {e e' : Env K} (h : ∀ i < d, ∃ v w, Sem.lookup e i = some v ∧ Sem.lookup e' (τ i) = some w ∧ OV P' M v w) :
    ER P' M d τ e e' := by
  refine .ext (fun i hi => ?_) fun i v w hi hv hw => ?_
  · obtain ⟨v, w, h1, h2, _⟩ := h i hi
    rw [h1, h2]; exact ⟨rfl, rfl⟩
  · obtain ⟨v', w', h1, h2, h3⟩ := h i hi
    rw [h1] at hv; rw [h2] at hw
    cases hv; cases hw; exact h3

theorem lookup_consAll (vs : List (Val K)) (e : Env K) (i : Nat) :
    Sem.lookup (consAll vs e) i = match vs[i]? with
      | some v => some v
      | none => Sem.lookup e (i - vs.length) := by
  induction vs generalizing i with
  | nil => simp [consAll]
  | cons v vs ih =>
    simp only [consAll, List.foldr_cons, Sem.lookup]
    cases i with
    | zero => simp
    | succ i =>
      simp only [Nat.add_one_ne_zero, if_false, Nat.add_sub_cancel, List.getElem?_cons_succ]
      have := ih i
      unfold consAll at this
      rw [this]
      simp

theorem all2_get {A : Type} {R : A → A → Prop} {l m : List A} (h : All2 R l m) {i : Nat} {a} (ha : l[i]? = some a) :
    ∃ b, m[i]? = some b ∧ R a b := by
  induction h generalizing i with
  | nil => simp at ha
  | cons h _ ih =>
    cases i with
    | zero => simp at ha; subst ha; exact ⟨_, rfl, h⟩
    | succ i => simp at ha; simpa using ih ha

theorem ER.nil {τ} : ER P' M 0 τ (.nil : Env K) .nil := .of fun i hi => absurd hi (by omega)

theorem ER.consAll {d τ} {e e' : Env K} {vs ws} (h : ER P' M d τ e e') (hv : All2 (OV P' M) vs ws) :
    ER P' M (d + vs.length) (up vs.length τ) (consAll vs e) (consAll ws e') := by
  have hl := all2_length hv
  refine .of fun i hi => ?_
  rw [lookup_consAll, lookup_consAll]
  by_cases hlt : i < vs.length
  · have hx : vs[i]? = some vs[i] := List.getElem?_eq_getElem hlt
    obtain ⟨w, hw, ho⟩ := all2_get hv hx
    have hu : up vs.length τ i = i := by simp [up, hlt]
    rw [hu, hx, hw]
    exact ⟨_, _, rfl, rfl, ho⟩
  · have hx : vs[i]? = none := by simpa using hlt
    have hu : up vs.length τ i = τ (i - vs.length) + vs.length := by simp [up, hlt]
    have hw : ws[τ (i - vs.length) + vs.length]? = none := by simp [← hl]
    rw [hu, hx, hw]
    obtain ⟨v, w, h1, h2, h3⟩ := h.lookup (i := i - vs.length) (by omega)
    exact ⟨v, w, h1, by simpa [← hl] using h2, h3⟩

theorem ER.cons {d τ} {e e' : Env K} {v w} (h : ER P' M d τ e e') (hv : OV P' M v w) :
    ER P' M (d + 1) (up 1 τ) (.cons v e) (.cons w e') := ER.consAll h (.cons hv .nil)

theorem ER.bump {d τ} {e e' : Env K} {w} (h : ER P' M d τ e e') : ER P' M d (bumped τ) e (.cons w e') := by
  refine .of fun i hi => ?_
  obtain ⟨v, w, h1, h2, h3⟩ := h.lookup hi
  exact ⟨v, w, h1, by simpa [bumped, Sem.lookup] using h2, h3⟩

/-- Names bound before to what names after already stand for. -/
theorem ER.bound {d τ} {e e' : Env K} {vs ks} (h : ER P' M d τ e e') (hl : vs.length = ks.length)
    (hv : ∀ (i : Nat) v k, vs[i]? = some v → ks[i]? = some k → ∃ w, Sem.lookup e' k = some w ∧ OV P' M v w) :
    ER P' M (d + ks.length) (bound ks τ) (Sem.consAll vs e) e' := by
  refine .of fun i hi => ?_
  rw [lookup_consAll]
  by_cases hlt : i < vs.length
  · have hx : vs[i]? = some vs[i] := List.getElem?_eq_getElem hlt
    have hk : ks[i]? = some (ks[i]'(by omega)) := List.getElem?_eq_getElem (by omega)
    obtain ⟨w, hw, ho⟩ := hv i _ _ hx hk
    rw [hx]
    exact ⟨_, w, rfl, by simpa [Opt.bound, hk] using hw, ho⟩
  · have hx : vs[i]? = none := by simpa using hlt
    have hk : ks[i]? = none := by simp; omega
    obtain ⟨v, w, h1, h2, h3⟩ := h.lookup (i := i - vs.length) (by omega)
    rw [hx]
    exact ⟨v, w, h1, by simpa [Opt.bound, hk, ← hl] using h2, h3⟩

theorem fromLet_forms {fs : Forms K} {ms} (h : fromLet fs = some ms) :
    ms.length = count fs ∧ ∀ e : Env K, (forms fs).map (close · e) = ms.map fun m => .clo 0 (.atom (.l m)) e := by
  match fs with
  | .nil => simp [fromLet] at h; subst h; simp [count, forms]
  | .cons (.lambda _ _) b rest => simp [fromLet] at h
  | .cons .thunk b rest =>
    simp only [fromLet] at h
    split at h
    · rw [Option.map_eq_some_iff] at h
      obtain ⟨ms', h', rfl⟩ := h
      have := fromLet_forms h'
      exact ⟨by simp [count, this.1], fun e => by rw [forms, List.map_cons, List.map_cons, this.2 e]; rfl⟩
    · cases h
  | .cons .value b rest =>
    simp only [fromLet] at h
    split at h
    · rw [Option.map_eq_some_iff] at h
      obtain ⟨ms', h', rfl⟩ := h
      have := fromLet_forms h'
      exact ⟨by simp [count, this.1], fun e => by rw [forms, List.map_cons, List.map_cons, this.2 e]; rfl⟩
    · cases h

theorem fromLetrec_forms {n : Nat} {fs : Forms K} {ms} (h : fromLetrec n fs = some ms) :
    ms.length = count fs ∧ ∀ (i : Nat) f, (forms fs)[i]? = some f → ∃ m, ms[i]? = some m ∧ arity f.head = 0 ∧ f.body = .atom (.l (m + n)) := by
  match fs with
  | .nil => simp [fromLetrec] at h; subst h; simp [count, forms]
  | .cons (.lambda _ _) b rest => simp [fromLetrec] at h
  | .cons .thunk b rest | .cons .value b rest =>
    simp only [fromLetrec] at h
    split at h
    · split at h
      · cases h
      · rw [Option.map_eq_some_iff] at h
        obtain ⟨ms', h', rfl⟩ := h
        have := fromLetrec_forms h'
        refine ⟨by simp [count, this.1], fun i f hf => ?_⟩
        cases i with
        | zero =>
          simp only [forms, List.getElem?_cons_zero, Option.some.injEq] at hf
          subst hf
          exact ⟨_, by simp; rfl, rfl, by simp; omega⟩
        | succ i => simpa [forms] using this.2 i f (by simpa [forms] using hf)
    · cases h

theorem ER.stripLet {d τ} {e e' : Env K} {fs ms} (h : ER P' M d τ e e') (hf : fromLet fs = some ms) (hm : ∀ m ∈ ms, m < d) :
    ER P' M (d + ms.length) (Opt.bound (ms.map τ) τ) (Sem.consAll ((forms fs).map (close · e)) e) e' := by
  rw [(fromLet_forms hf).2]
  have := ER.bound (vs := ms.map fun m => .clo 0 (.atom (.l m)) e) (ks := ms.map τ) h (by simp) (by
    intro i v k hv hk
    simp only [List.getElem?_map, Option.map_eq_some_iff] at hv hk
    obtain ⟨m, h1, rfl⟩ := hv
    obtain ⟨m', h1', rfl⟩ := hk
    rw [h1] at h1'; cases h1'
    obtain ⟨v, w, a, b, c⟩ := h.lookup (hm m (List.mem_of_getElem? h1))
    exact ⟨w, b, .src a c⟩)
  simpa using this

theorem ER.stripRec {d τ} {e e' : Env K} {fs ms} (h : ER P' M d τ e e') (hf : fromLetrec (count fs) fs = some ms)
    (hm : ∀ m ∈ ms, m < d) : ER P' M (d + ms.length) (Opt.bound (ms.map τ) τ) (.recs fs e) e' := by
  obtain ⟨hl, hfs⟩ := fromLetrec_forms hf
  refine .of fun i hi => ?_
  simp only [Sem.lookup]
  by_cases hlt : i < count fs
  · have hx : (forms fs)[i]? = some ((forms fs)[i]'(by rw [← count_forms]; exact hlt)) := List.getElem?_eq_getElem _
    obtain ⟨m, hmi, ha, hb⟩ := hfs i _ hx
    obtain ⟨v, w, h1, h2, h3⟩ := h.lookup (hm m (List.mem_of_getElem? hmi))
    rw [hx]
    refine ⟨_, w, rfl, by simpa [Opt.bound, hmi] using h2, ?_⟩
    unfold close
    rw [ha, hb]
    refine .src (v := v) ?_ h3
    simp only [Sem.lookup]
    have : (forms fs)[m + count fs]? = none := by rw [List.getElem?_eq_none_iff, ← count_forms]; omega
    rw [this, ← count_forms]
    simpa using h1
  · have hx : (forms fs)[i]? = none := by rw [List.getElem?_eq_none_iff, ← count_forms]; omega
    have hk : ms[i]? = none := by simp; omega
    obtain ⟨v, w, h1, h2, h3⟩ := h.lookup (i := i - count fs) (by omega)
    rw [hx]
    exact ⟨v, w, by rw [← count_forms]; exact h1, by simpa [Opt.bound, hk, hl] using h2, h3⟩

end Verif.Opt
