import Verif.ParCodec

/-!
# Proofs only.

Copying and reading end in a value or in a fault of the program or its data.
-/

namespace Verif.Par

theorem eval_proper (w : Bool) : ∀ (c : Clo) (r : Option Clo) (e : Fault) (r' : Option Clo), eval w c r = (.error e, r') → e.Proper := by
  intro c
  induction c with
  | ann m b _ ih => intro r e r' h; simp only [eval] at h; exact ih _ _ _ h
  | run i b ihi ih =>
    intro r e r' h
    simp only [eval] at h
    cases hi : eval w i none with
    | mk x s =>
      rw [hi] at h
      cases x with
      | error e2 => cases h; exact ihi _ _ _ hi
      | ok x => exact ih _ _ _ h
  | pull b ih =>
    intro r e r' h
    simp only [eval] at h
    split at h
    · cases h; trivial
    · exact ih _ _ _ h
  | fail e => intro r e r' h; cases h; trivial
  | _ => intro r e r' h; cases h

theorem encScalar_proper {τ : Texts} {x : Native} {e : Fault} (h : encScalar τ x = .error e) : e.Proper := by
  cases x <;> cases h
  trivial

structure EncProper (τ : Texts) (w : Bool) (n : Nat) : Prop where
  enc : ∀ c e, 4 * sz c + 3 ≤ n → enc τ w c = .error e → e.Proper
  encV : ∀ c e, 4 * sz c + 2 ≤ n → encV τ w c = .error e → e.Proper
  items : ∀ c e, 4 * sz c + 1 ≤ n → encItems τ w c = .error e → e.Proper
  pairs : ∀ c e, 4 * sz c + 1 ≤ n → encPairs τ w c = .error e → e.Proper

theorem encProper (τ : Texts) (w : Bool) : ∀ n, EncProper τ w n := by
  intro n
  induction n with
  | zero => constructor <;> intros <;> omega
  | succ n ih =>
    refine ⟨?_, ?_, ?_, ?_⟩
    · intro c e hn h
      rw [enc] at h
      cases he : eval w c none with
      | mk x r =>
        rw [he] at h
        cases x with
        | error x => cases h; exact eval_proper w _ _ _ _ he
        | ok v =>
          obtain ⟨hv, hm⟩ := eval_sz _ _ _ _ _ he
          cases r with
          | none => exact ih.encV v e (by omega) h
          | some m =>
            have hmm : sz m < sz c := by
              rcases hm m rfl with h | h
              · cases h
              · exact h
            dsimp only at h
            cases h1 : enc τ w m with
            | error e => rw [h1] at h; cases h; exact ih.enc m _ (by omega) h1
            | ok a =>
              rw [h1] at h
              dsimp only at h
              cases h2 : encV τ w v with
              | error e => rw [h2] at h; cases h; exact ih.encV v _ (by omega) h2
              | ok a' => rw [h2] at h; cases h
    · intro c e hn h
      cases c with
      | nat x => rw [encV] at h; exact encScalar_proper h
      | box k p =>
        cases he : eval w p none with
        | mk x r =>
          cases k <;> simp only [encV, he] at h <;>
          · cases x with
            | error x => cases h; exact eval_proper w _ _ _ _ he
            | ok v =>
              cases hv : valueNative v with
              | none => simp only [hv] at h; cases h; trivial
              | some y =>
                simp only [hv] at h
                first
                | exact encScalar_proper h
                | (cases y <;> cases h <;> trivial)
      | cons x t =>
        rw [encV] at h
        cases h1 : encItems τ w (.cons x t) with
        | error e => rw [h1] at h; cases h; exact ih.items _ _ (by omega) h1
        | ok a => rw [h1] at h; cases h
      | block kvs =>
        rw [encV] at h
        cases he : eval w kvs none with
        | mk x r =>
          rw [he] at h
          cases x with
          | error e => cases h; exact eval_proper w _ _ _ _ he
          | ok v =>
            have hv := (eval_sz _ _ _ _ _ he).1
            dsimp only at h
            cases h1 : encPairs τ w v with
            | error e => rw [h1] at h; cases h; exact ih.pairs _ _ (by simp only [sz] at hn; omega) h1
            | ok a => rw [h1] at h; cases h
      | _ => simp only [encV] at h; cases h; try trivial
    · intro c e hn h
      cases c with
      | cons x t =>
        simp only [sz] at hn
        rw [encItems] at h
        cases h1 : enc τ w x with
        | error e => rw [h1] at h; cases h; exact ih.enc x _ (by omega) h1
        | ok a =>
          rw [h1] at h
          dsimp only at h
          cases he : eval w t none with
          | mk y r =>
            rw [he] at h
            cases y with
            | error e => cases h; exact eval_proper w _ _ _ _ he
            | ok v =>
              have hv := (eval_sz _ _ _ _ _ he).1
              dsimp only at h
              cases h2 : encItems τ w v with
              | error e => rw [h2] at h; cases h; exact ih.items _ _ (by omega) h2
              | ok a2 => rw [h2] at h; cases h
      | _ => simp only [encItems] at h; cases h; try trivial
    · intro c e hn h
      cases c with
      | cons p t =>
        simp only [sz] at hn
        rw [encPairs] at h
        cases hp : eval w p none with
        | mk y r =>
          rw [hp] at h
          cases y with
          | error e => cases h; exact eval_proper w _ _ _ _ hp
          | ok p' =>
            have hpz := (eval_sz _ _ _ _ _ hp).1
            dsimp only at h
            cases hk : (field p' 0).bind asNative with
            | none => rw [hk] at h; cases h; trivial
            | some key =>
              rw [hk] at h
              dsimp only at h
              cases hs : encScalar τ key with
              | error e => rw [hs] at h; cases h; exact encScalar_proper hs
              | ok kb =>
                rw [hs] at h
                dsimp only at h
                cases hf : field p' 1 with
                | none => rw [hf] at h; cases h; trivial
                | some x =>
                  have hx := field_sz hf
                  rw [hf] at h
                  dsimp only at h
                  cases h1 : enc τ w x with
                  | error e => rw [h1] at h; cases h; exact ih.enc x _ (by omega) h1
                  | ok a =>
                    rw [h1] at h
                    dsimp only at h
                    cases he : eval w t none with
                    | mk y r =>
                      rw [he] at h
                      cases y with
                      | error e => cases h; exact eval_proper w _ _ _ _ he
                      | ok v =>
                        have hv := (eval_sz _ _ _ _ _ he).1
                        dsimp only at h
                        cases h2 : encPairs τ w v with
                        | error e => rw [h2] at h; cases h; exact ih.pairs _ _ (by omega) h2
                        | ok a2 => rw [h2] at h; cases h
      | _ => simp only [encPairs] at h; cases h; try trivial

/-! ## Reading -/

theorem take_corrupt {n : Nat} {bs : Bytes} {e : Fault} (h : take n bs = .error e) : e = .corrupt := by
  unfold take at h
  split at h <;> cases h
  rfl

theorem take_shorter {n : Nat} {bs a rest : Bytes} (h : take n bs = .ok (a, rest)) : rest.length + n = bs.length := by
  unfold take at h
  split at h
  · cases h
  · cases h; simp; omega

theorem readLe_cases (k : Nat) (bs : Bytes) : readLe k bs = .error .corrupt ∨
    ∃ n rest, readLe k bs = .ok (n, rest) ∧ rest.length + k = bs.length := by
  unfold readLe
  cases h : take k bs with
  | error e => left; rw [take_corrupt h]; rfl
  | ok p => right; exact ⟨_, _, rfl, take_shorter h⟩

theorem readStr_cases (bs : Bytes) : readStr bs = .error .corrupt ∨
    ∃ s rest, readStr bs = .ok (s, rest) ∧ rest.length ≤ bs.length := by
  unfold readStr
  rcases readLe_cases 4 bs with h | ⟨n, r, h, hl⟩
  · rw [h]; exact .inl rfl
  · rw [h]
    simp only [bind, Except.bind]
    cases ht : take n r with
    | error e => left; rw [take_corrupt ht]
    | ok p =>
      have := take_shorter ht
      simp only
      cases String.fromUTF8? ⟨p.1.toArray⟩ with
      | none => exact .inl rfl
      | some s => exact .inr ⟨s, p.2, rfl, by omega⟩

theorem decNum_cases (bs : Bytes) : decNum bs = .error .corrupt ∨
    ∃ x rest, decNum bs = .ok (x, rest) ∧ rest.length ≤ bs.length := by
  unfold decNum
  rcases readLe_cases 1 bs with h | ⟨n, r, h, hl⟩
  · rw [h]; exact .inl rfl
  · rw [h]
    simp only [bind, Except.bind]
    rcases readLe_cases 8 r with h2 | ⟨x, r2, h2, hl2⟩ <;> rw [h2]
    · split <;> exact .inl rfl
    · split
      · exact .inr ⟨_, _, rfl, by (try dsimp only at *); omega⟩
      · exact .inr ⟨_, _, rfl, by (try dsimp only at *); omega⟩
      · dsimp only
        split
        · exact .inr ⟨_, _, rfl, by (try dsimp only at *); omega⟩
        · exact .inl rfl
      · exact .inl rfl

theorem decKey_cases (bs : Bytes) : decKey bs = .error .corrupt ∨
    ∃ x rest, decKey bs = .ok (x, rest) ∧ rest.length < bs.length := by
  unfold decKey
  rcases readLe_cases 1 bs with h | ⟨n, r, h, hl⟩
  · rw [h]; exact .inl rfl
  · rw [h]
    simp only [bind, Except.bind]
    rcases readStr_cases r with h2 | ⟨x, r2, h2, hl2⟩ <;> rw [h2] <;> split <;>
      first
      | exact .inl rfl
      | exact .inr ⟨_, _, rfl, by (try dsimp only at *); omega⟩

structure DecProper (τ : Texts) (n : Nat) : Prop where
  dec : ∀ bs, bs.length + 1 ≤ n → dec τ n bs = .error .corrupt ∨ ∃ v rest, dec τ n bs = .ok (v, rest) ∧ rest.length < bs.length
  items : ∀ k bs, bs.length + 2 ≤ n → decItems τ n k bs = .error .corrupt ∨
    ∃ v rest, decItems τ n k bs = .ok (v, rest) ∧ rest.length ≤ bs.length
  pairs : ∀ k bs, bs.length + 2 ≤ n → decPairs τ n k bs = .error .corrupt ∨
    ∃ v rest, decPairs τ n k bs = .ok (v, rest) ∧ rest.length ≤ bs.length

theorem decProper (τ : Texts) : ∀ n, DecProper τ n := by
  intro n
  induction n with
  | zero => constructor <;> intros <;> omega
  | succ n ih =>
    refine ⟨?_, ?_, ?_⟩
    · intro bs hn
      simp only [dec]
      rcases readLe_cases 1 bs with h | ⟨tag, r, h, hl⟩
      · rw [h]; exact .inl rfl
      · rw [h]
        simp only [bind, Except.bind]
        have hstr := readStr_cases r
        split
        · exact .inr ⟨_, _, rfl, by (try dsimp only at *); omega⟩
        · exact .inr ⟨_, _, rfl, by (try dsimp only at *); omega⟩
        · exact .inr ⟨_, _, rfl, by (try dsimp only at *); omega⟩
        · rcases decNum_cases r with h2 | ⟨x, r2, h2, hl2⟩ <;> rw [h2]
          · exact .inl rfl
          · exact .inr ⟨_, _, rfl, by (try dsimp only at *); omega⟩
        · rcases hstr with h2 | ⟨x, r2, h2, hl2⟩ <;> rw [h2]
          · exact .inl rfl
          · exact .inr ⟨_, _, rfl, by (try dsimp only at *); omega⟩
        · rcases hstr with h2 | ⟨x, r2, h2, hl2⟩ <;> rw [h2]
          · exact .inl rfl
          · exact .inr ⟨_, _, rfl, by (try dsimp only at *); omega⟩
        · rcases hstr with h2 | ⟨x, r2, h2, hl2⟩ <;> rw [h2]
          · exact .inl rfl
          · dsimp only
            cases τ.parse x with
            | none => exact .inl rfl
            | some z => exact .inr ⟨_, _, rfl, by (try dsimp only at *); omega⟩
        · rcases readLe_cases 4 r with h2 | ⟨x, r2, h2, hl2⟩ <;> rw [h2]
          · exact .inl rfl
          · dsimp only
            rcases ih.items x r2 (by omega) with h3 | ⟨y, r3, h3, hl3⟩ <;> rw [h3]
            · exact .inl rfl
            · exact .inr ⟨_, _, rfl, by (try dsimp only at *); omega⟩
        · rcases readLe_cases 4 r with h2 | ⟨x, r2, h2, hl2⟩ <;> rw [h2]
          · exact .inl rfl
          · dsimp only
            rcases ih.pairs x r2 (by omega) with h3 | ⟨y, r3, h3, hl3⟩ <;> rw [h3]
            · exact .inl rfl
            · exact .inr ⟨_, _, rfl, by (try dsimp only at *); omega⟩
        · rcases ih.dec r (by omega) with h2 | ⟨x, r2, h2, hl2⟩ <;> rw [h2]
          · exact .inl rfl
          · dsimp only
            rcases ih.dec r2 (by omega) with h3 | ⟨y, r3, h3, hl3⟩ <;> rw [h3]
            · exact .inl rfl
            · exact .inr ⟨_, _, rfl, by (try dsimp only at *); omega⟩
        · rcases hstr with h2 | ⟨x, r2, h2, hl2⟩ <;> rw [h2]
          · exact .inl rfl
          · exact .inr ⟨_, _, rfl, by (try dsimp only at *); omega⟩
        · exact .inl rfl
    · intro k bs hn
      cases k with
      | zero => exact .inr ⟨_, _, rfl, Nat.le_refl _⟩
      | succ k =>
        simp only [decItems, bind, Except.bind]
        rcases ih.dec bs (by omega) with h2 | ⟨x, r2, h2, hl2⟩ <;> rw [h2]
        · exact .inl rfl
        · dsimp only
          rcases ih.items k r2 (by omega) with h3 | ⟨y, r3, h3, hl3⟩ <;> rw [h3]
          · exact .inl rfl
          · exact .inr ⟨_, _, rfl, by (try dsimp only at *); omega⟩
    · intro k bs hn
      cases k with
      | zero => exact .inr ⟨_, _, rfl, Nat.le_refl _⟩
      | succ k =>
        simp only [decPairs, bind, Except.bind]
        rcases decKey_cases bs with h1 | ⟨key, r1, h1, hl1⟩ <;> rw [h1]
        · exact .inl rfl
        · dsimp only
          rcases ih.dec r1 (by omega) with h2 | ⟨x, r2, h2, hl2⟩ <;> rw [h2]
          · exact .inl rfl
          · dsimp only
            rcases ih.pairs k r2 (by omega) with h3 | ⟨y, r3, h3, hl3⟩ <;> rw [h3]
            · exact .inl rfl
            · exact .inr ⟨_, _, rfl, by (try dsimp only at *); omega⟩

theorem again_proper {τ : Texts} {w : Bool} {c : Clo} {e : Fault} (h : again τ w c = .error e) : e.Proper := by
  unfold again at h
  cases h1 : enc τ w c with
  | error e => rw [h1] at h; cases h; exact (encProper τ w _).enc c _ (Nat.le_refl _) h1
  | ok b =>
    rw [h1] at h
    dsimp only at h
    rcases (decProper τ (b.length + 1)).dec b (Nat.le_refl _) with h2 | ⟨v, r, h2, _⟩
    · rw [h2] at h; cases h; trivial
    · rw [h2] at h; cases h

theorem allOf_proper {α : Type} {e : Fault} : ∀ {xs : List (Except Fault α)}, (∀ x ∈ xs, ∀ e, x = .error e → e.Proper) →
    allOf xs = .error e → e.Proper
  | [], _, h => by cases h
  | .error x :: _, hp, h => by cases h; exact hp _ (List.mem_cons_self ..) _ rfl
  | .ok a :: xs, hp, h => by
    simp only [allOf] at h
    cases hall : allOf xs with
    | error x =>
      rw [hall] at h
      cases h
      exact allOf_proper (fun x hx => hp x (List.mem_cons_of_mem _ hx)) hall
    | ok as => rw [hall] at h; cases h

theorem spine_proper (w : Bool) : ∀ (n : Nat) (c : Clo), sz c ≤ n → ∀ e, spine w c = .error e → e.Proper := by
  intro n
  induction n with
  | zero => intro c hc; have := sz_pos c; omega
  | succ n ih =>
    intro c hn e h
    rw [spine] at h
    cases he : eval w c none with
    | mk x r =>
      rw [he] at h
      cases x with
      | error x => cases h; exact eval_proper w _ _ _ _ he
      | ok v =>
        have hv := (eval_sz _ _ _ _ _ he).1
        cases v with
        | nil => cases h
        | cons x t =>
          simp only [sz] at hv
          dsimp only at h
          cases hs : spine w t with
          | error x => rw [hs] at h; cases h; exact ih t (by omega) _ hs
          | ok xs => rw [hs] at h; cases h
        | _ => cases h; trivial

theorem pureMap_proper {τ : Texts} {w : Bool} {ap : Clo → Clo → Clo} {f xs : Clo} {e : Fault} (h : pureMap τ w ap f xs = .error e) :
    e.Proper := by
  unfold pureMap at h
  cases hs : spine w xs with
  | error x => rw [hs] at h; cases h; exact spine_proper w _ xs (Nat.le_refl _) _ hs
  | ok es =>
    rw [hs] at h
    dsimp only at h
    cases hall : allOf (es.map fun x => again τ w (ap f x)) with
    | ok vs => rw [hall] at h; cases h
    | error x =>
      rw [hall] at h
      cases h
      refine allOf_proper ?_ hall
      intro y hy e2 he
      obtain ⟨x, _, rfl⟩ := List.mem_map.1 hy
      exact again_proper he

end Verif.Par
