import Verif.LibSpec
import Verif.ArithLemmas
import Mathlib.Tactic.Ring
import Mathlib.Data.List.Basic
import Mathlib.Data.List.Induction

/-!
Proofs only.
-/

namespace Verif.Lib

open Verif.Arith

theorem foldl_eq {α β : Type} (op : β → α → β) (i : β) (l : List α) : foldl op i l = l.foldl op i := by
  induction l generalizing i with
  | nil => rfl
  | cons x xs ih => simp [foldl, ih]

theorem foldr_eq {α β : Type} (op : α → β → β) (i : β) (l : List α) : foldr op i l = l.foldr op i := by
  induction l with
  | nil => rfl
  | cons x xs ih => simp [foldr, ih]

theorem map_eq {α β : Type} (f : α → β) (l : List α) : map f l = l.map f := by
  induction l with
  | nil => rfl
  | cons x xs ih => simp [map, ih]

theorem append_eq {α : Type} (l m : List α) : append l m = l ++ m := by
  induction l with
  | nil => rfl
  | cons x xs ih => simp only [append] at ih; simp [append, foldr, ih]

theorem concat_eq {α : Type} (ls : List (List α)) : concat ls = ls.flatten := by
  induction ls with
  | nil => rfl
  | cons x xs ih => simp only [concat] at ih; simp [concat, foldr, append_eq, ih]

theorem filter_eq {α : Type} (p : α → Bool) (l : List α) : filter p l = l.filter p := by
  induction l with
  | nil => rfl
  | cons x xs ih => simp only [filter] at ih; simp [filter, foldr, ih, List.filter_cons]

theorem count_aux {α : Type} (l : List α) (n : Int) : foldl (fun n (_ : α) => n + 1) n l = n + l.length := by
  induction l generalizing n with
  | nil => simp [foldl]
  | cons x xs ih => simp only [foldl, ih, List.length_cons]; omega

theorem count_eq {α : Type} (l : List α) : count l = l.length := by simp [count, count_aux]

theorem take_eq {α : Type} (n : Nat) (l : List α) : take n l = l.take n := by
  induction l generalizing n with
  | nil => simp [take]
  | cons x xs ih =>
    cases n with
    | zero => simp [take]
    | succ n =>
      rw [take, if_neg (by omega), show ((n + 1 : Nat) : Int) - 1 = n by omega, ih]; rfl

theorem take_neg {α : Type} {n : Int} (h : n < 0) (l : List α) : take n l = l := by
  induction l generalizing n with
  | nil => rfl
  | cons x xs ih => rw [take, if_neg (by omega), ih (by omega)]

theorem drop_eq {α : Type} (n : Nat) (l : List α) :
    drop n l = if n ≤ l.length then some (l.drop n) else none := by
  induction l generalizing n with
  | nil => cases n <;> simp [drop]; omega
  | cons x xs ih =>
    cases n with
    | zero => simp [drop]
    | succ n =>
      rw [drop, if_neg (by omega), show ((n + 1 : Nat) : Int) - 1 = n by omega, ih]
      simp

theorem drop_neg {α : Type} {n : Int} (h : n < 0) (l : List α) : drop n l = none := by
  induction l generalizing n with
  | nil => rw [drop, if_neg (by omega)]
  | cons x xs ih => rw [drop, if_neg (by omega), ih (by omega)]

theorem splitAux_eq {α : Type} (n : Nat) (l pre : List α) :
    splitAux n l pre = (pre.reverse ++ l.take n, l.drop n) := by
  induction l generalizing n pre with
  | nil => simp [splitAux, reverse_eq]
  | cons x xs ih =>
    cases n with
    | zero => simp [splitAux, reverse_eq]
    | succ n =>
      rw [splitAux, if_neg (by omega), show ((n + 1 : Nat) : Int) - 1 = n by omega, ih]; simp

theorem splitAux_neg {α : Type} {n : Int} (h : n < 0) (l pre : List α) :
    splitAux n l pre = (pre.reverse ++ l, []) := by
  induction l generalizing n pre with
  | nil => simp [splitAux, reverse_eq]
  | cons x xs ih => rw [splitAux, if_neg (by omega), ih (by omega)]; simp

theorem splitAt_eq {α : Type} (n : Nat) (l : List α) : splitAt n l = (l.take n, l.drop n) := by
  simp [splitAt, splitAux_eq]

theorem splitAt_neg {α : Type} {n : Int} (h : n < 0) (l : List α) : splitAt n l = (l, []) := by
  simp [splitAt, splitAux_neg h]

theorem nth_eq {α : Type} (n : Nat) (l : List α) : nth n l = l[n]? := by
  induction l generalizing n with
  | nil => simp [nth]
  | cons x xs ih =>
    cases n with
    | zero => simp [nth]
    | succ n => rw [nth, if_neg (by omega), show ((n + 1 : Nat) : Int) - 1 = n by omega, ih]; simp

theorem nth_neg {α : Type} {n : Int} (h : n < 0) (l : List α) : nth n l = none := by
  induction l generalizing n with
  | nil => rfl
  | cons x xs ih => rw [nth, if_neg (by omega), ih (by omega)]

theorem takeWhileAux_eq {α : Type} (p : α → Bool) (l pre : List α) :
    takeWhileAux p l pre = pre.reverse ++ l.takeWhile p := by
  induction l generalizing pre with
  | nil => simp [takeWhileAux, reverse_eq]
  | cons x xs ih => cases h : p x <;> simp [takeWhileAux, reverse_eq, ih, h]

theorem takeWhile_eq {α : Type} (p : α → Bool) (l : List α) : takeWhile p l = l.takeWhile p := by
  simp [takeWhile, takeWhileAux_eq]

theorem dropWhile_eq {α : Type} (p : α → Bool) (l : List α) : dropWhile p l = l.dropWhile p := by
  induction l with
  | nil => rfl
  | cons x xs ih => cases h : p x <;> simp [dropWhile, ih, h]

theorem splitAfterAux_eq {α : Type} (p : α → Bool) (l pre : List α) :
    splitAfterAux p l pre = (pre.reverse ++ l.takeWhile p, l.dropWhile p) := by
  induction l generalizing pre with
  | nil => simp [splitAfterAux, reverse_eq]
  | cons x xs ih => cases h : p x <;> simp [splitAfterAux, reverse_eq, ih, h]

theorem splitAfter_eq {α : Type} (p : α → Bool) (l : List α) :
    splitAfter p l = (l.takeWhile p, l.dropWhile p) := by
  simp [splitAfter, splitAfterAux_eq]

theorem takeIota_eq (b : Int) (n : Nat) {s : Nat} (h : n < s) :
    takeIota s b n = some ((List.range n).map fun i : Nat => b + (i : Int)) := by
  induction n generalizing b s with
  | zero => cases s with
    | zero => omega
    | succ s => simp [takeIota]
  | succ n ih =>
    cases s with
    | zero => omega
    | succ s =>
      rw [takeIota, if_neg (by omega), show ((n + 1 : Nat) : Int) - 1 = n by omega, ih _ (by omega)]
      rw [List.range_succ_eq_map, List.map_cons, List.map_map, Option.map_some]
      congr 2
      · simp
      · apply List.map_congr_left
        intro i _
        simp only [Function.comp]; omega

theorem takeIota_neg (s : Nat) (b : Int) {n : Int} (h : n < 0) : takeIota s b n = none := by
  induction s generalizing b n with
  | zero => rfl
  | succ s ih => rw [takeIota, if_neg (by omega), ih _ (by omega)]; rfl

/-! ## Windows -/

theorem window_eq {α : Type} {n step : Nat} (hn : 0 < n) (hs : 0 < step) (f : Nat) (l : List α)
    (hf : l.length < f) : window n step f l =
      if l.length < n ∨ step ≤ l.length - (l.length - n) / step * step then
        .ok (windows n step (if l.length < n then 0 else (l.length - n) / step + 1) l)
      else .failed := by
  induction f generalizing l with
  | zero => omega
  | succ f ih =>
    rw [window]
    simp only [take_eq, count_eq, List.length_take, drop_eq]
    by_cases hlt : l.length < n
    · rw [if_neg (by omega), if_pos (.inl hlt), if_pos hlt]
      simp [windows]
    · rw [if_pos (by omega)]
      by_cases hst : step ≤ l.length
      · rw [if_pos hst]
        simp only []
        rw [ih _ (by simp; omega)]
        simp only [List.length_drop]
        by_cases h2 : l.length - step < n
        · have hq : (l.length - n) / step = 0 := Nat.div_eq_of_lt (by omega)
          rw [if_pos (.inl h2), if_pos h2, hq, if_pos (.inr (by omega)), if_neg hlt]
          simp [windows, Out.map]
        · have hq : (l.length - n) / step = (l.length - step - n) / step + 1 := by
            rw [show l.length - n = l.length - step - n + step by omega, Nat.add_div_right _ hs]
          rw [hq]
          have hm : (l.length - step - n) / step * step ≤ l.length - step - n := Nat.div_mul_le_self _ _
          have he : ((l.length - step - n) / step + 1) * step = (l.length - step - n) / step * step + step := by ring
          rw [he]
          by_cases hr : step ≤ l.length - step - (l.length - step - n) / step * step
          · rw [if_pos (Or.inr hr), if_neg h2, if_pos (Or.inr (by omega)), if_neg hlt]
            simp only [Out.map, windows]
            rw [List.range_succ_eq_map (n := (l.length - step - n) / step + 1), List.map_cons, List.map_map]
            congr 2
            · simp
            · apply List.map_congr_left
              intro i _
              simp only [Function.comp, List.drop_drop]
              congr 2
              rw [Nat.succ_mul, Nat.add_comm]
          · rw [if_neg (show ¬(_ ∨ _) by omega), if_neg (show ¬(_ ∨ _) by omega)]
            rfl
      · rw [if_neg hst]
        simp only []
        have hq : (l.length - n) / step = 0 := Nat.div_eq_of_lt (by omega)
        rw [hq, if_neg (by omega)]

theorem windowAll_eq {α : Type} {n step : Nat} (hn : 0 < n) (hs : 0 < step) (f : Nat) (l : List α)
    (hf : l.length < f) : windowAll n step f l =
      .ok (windows n step ((l.length + (step - 1)) / step) l) := by
  induction f generalizing l with
  | zero => omega
  | succ f ih =>
    rw [windowAll]
    simp only [take_eq, count_eq, drop_eq]
    cases l with
    | nil =>
      have : (0 + (step - 1)) / step = 0 := Nat.div_eq_of_lt (by omega)
      simp only [List.length_nil, this, windows, List.range_zero, List.map_nil, List.take_nil]
    | cons x xs =>
      have ht : ∃ ys, (x :: xs).take n = x :: ys := by
        cases n with
        | zero => omega
        | succ n => exact ⟨xs.take n, rfl⟩
      obtain ⟨ys, hys⟩ := ht
      have key : ∀ r : List α, r = (x :: xs).drop step →
          (windowAll n step f r).map ((x :: ys) :: ·) =
            .ok (windows n step (((x :: xs).length + (step - 1)) / step) (x :: xs)) := by
        rintro r rfl
        rw [ih _ (by simp only [List.length_drop, List.length_cons] at hf ⊢; omega)]
        have hq : ((x :: xs).length + (step - 1)) / step =
            (((x :: xs).drop step).length + (step - 1)) / step + 1 := by
          rw [List.length_drop]
          by_cases h : step ≤ (x :: xs).length
          · rw [show (x :: xs).length + (step - 1) = (x :: xs).length - step + (step - 1) + step by omega,
              Nat.add_div_right _ hs]
          · rw [show (x :: xs).length - step + (step - 1) = step - 1 by omega,
              Nat.div_eq_of_lt (by omega : step - 1 < step)]
            simp only [List.length_cons] at h ⊢
            rw [show xs.length + 1 + (step - 1) = xs.length + step by omega, Nat.add_div_right _ hs,
              Nat.div_eq_of_lt (by omega)]
        rw [hq]
        simp only [Out.map, windows]
        rw [List.range_succ_eq_map, List.map_cons, List.map_map]
        congr 2
        · simp [hys]
        · apply List.map_congr_left
          intro i _
          simp only [Function.comp, List.drop_drop]
          congr 2
          rw [Nat.succ_mul, Nat.add_comm]
      simp only [hys]
      by_cases h : (((x :: xs).length : Nat) : Int) ≤ step
      · rw [if_pos h]
        exact key [] (by rw [List.drop_of_length_le (by omega)])
      · rw [if_neg h, if_pos (by omega)]
        exact key _ rfl

/-! ## Groups -/

theorem updateValueOr_aux {κ ν : Type} [DecidableEq κ] (k : κ) (f : ν → ν) (b a c : List (κ × ν)) :
    foldl (fun (st : List (κ × ν) × List (κ × ν)) el =>
      if k = el.1 then ((k, f el.2) :: st.1, []) else (el :: st.1, st.2)) (a, c) b =
      ((b.map fun el => if k = el.1 then (k, f el.2) else el).reverse ++ a,
        if k ∈ b.map Prod.fst then [] else c) := by
  induction b generalizing a c with
  | nil => simp [foldl]
  | cons x xs ih =>
    rw [foldl]
    by_cases h : k = x.1
    · simp only [h, if_true] at ih ⊢
      rw [ih]
      simp
    · have hm : k ∈ (x :: xs).map Prod.fst ↔ k ∈ xs.map Prod.fst := by
        rw [List.map_cons, List.mem_cons]; exact ⟨fun o => o.resolve_left h, .inr⟩
      rw [if_neg h, ih]
      simp only [hm]
      simp [h]

theorem updateValueOr_eq {κ ν : Type} [DecidableEq κ] (k : κ) (f : ν → ν) (d : ν) (b : List (κ × ν)) :
    updateValueOr k f d b = (b.map fun el => if k = el.1 then (k, f el.2) else el) ++
      (if k ∈ b.map Prod.fst then [] else [(k, d)]) := by
  unfold updateValueOr
  rw [updateValueOr_aux]
  simp only [reverse_eq, append_eq]
  split <;> simp

theorem mem_firsts {α : Type} [DecidableEq α] {x : α} {l : List α} : x ∈ firsts l ↔ x ∈ l := by
  induction l with
  | nil => simp [firsts]
  | cons y l ih =>
    by_cases h : x = y
    · simp [firsts, h]
    · simp [firsts, ih, h]

theorem firsts_snoc {α : Type} [DecidableEq α] (l : List α) (x : α) :
    firsts (l ++ [x]) = if x ∈ l then firsts l else firsts l ++ [x] := by
  induction l with
  | nil => simp [firsts]
  | cons y l ih =>
    rw [List.cons_append, firsts, ih]
    by_cases h : x = y
    · subst h
      simp only [List.mem_cons, true_or, if_true]
      rw [firsts]
      split <;> simp
    · by_cases hm : x ∈ l
      · simp [hm, firsts]
      · rw [if_neg hm, if_neg (by simp [h, hm]), List.filter_append, firsts]
        simp [h]

theorem groupBy_eq {α κ : Type} [DecidableEq κ] (k : α → κ) (xs : List α) :
    groupBy k xs = (firsts (xs.map k)).map fun key => (key, xs.filter fun x => decide (k x = key)) := by
  unfold groupBy
  rw [map_eq, map_eq, foldl_eq]
  have h : ((xs.map fun x => (k x, x)).foldl
      (fun a (e : κ × α) => updateValueOr e.1 (fun vs => e.2 :: vs) [e.2] a) []) =
      (firsts (xs.map k)).map fun key => (key, (xs.filter fun x => decide (k x = key)).reverse) := by
    induction xs using List.reverseRecOn with
    | nil => rfl
    | append_singleton xs x ih =>
      rw [List.map_append, List.foldl_append, ih]
      simp only [List.map_cons, List.map_nil, List.foldl_cons, List.foldl_nil]
      rw [updateValueOr_eq, List.map_append, List.map_cons, List.map_nil, firsts_snoc]
      have hmem : k x ∈ (((firsts (xs.map k)).map fun key =>
          (key, (xs.filter fun x => decide (k x = key)).reverse)).map Prod.fst) ↔ k x ∈ xs.map k := by
        rw [List.map_map]
        have : (Prod.fst ∘ fun key => (key, (xs.filter fun x => decide (k x = key)).reverse)) = (id : κ → κ) := rfl
        rw [this, List.map_id, mem_firsts]
      have hone : ∀ key ∈ firsts (xs.map k), (if k x = key then (k x, x :: (xs.filter fun x => decide (k x = key)).reverse)
          else (key, (xs.filter fun x => decide (k x = key)).reverse)) =
          (key, ((xs ++ [x]).filter fun x => decide (k x = key)).reverse) := by
        intro key _
        by_cases h : k x = key <;> simp [h]
      by_cases hx : k x ∈ xs.map k
      · rw [if_pos (hmem.2 hx), if_pos hx, List.append_nil, List.map_map]
        exact List.map_congr_left hone
      · rw [if_neg (fun h => hx (hmem.1 h)), if_neg hx, List.map_append, List.map_map]
        congr 1
        · exact List.map_congr_left hone
        · have : xs.filter (fun y => decide (k y = k x)) = [] := by
            rw [List.filter_eq_nil_iff]
            intro y hy
            simp only [decide_eq_true_eq]
            intro e
            exact hx (e ▸ List.mem_map_of_mem hy)
          simp [this]
  rw [h, List.map_map]
  apply List.map_congr_left
  intro key _
  simp [reverse_eq]

theorem any_eq {α : Type} (p : α → Bool) (l : List α) : any p l = l.any p := by
  unfold any
  rw [map_eq, foldr_eq]
  induction l with
  | nil => rfl
  | cons x xs ih => simp [ih]

theorem mem_key_firstsBy {α κ : Type} [DecidableEq κ] {key : α → κ} {l : List α} {c : κ} :
    c ∈ (firstsBy key l).map key ↔ c ∈ l.map key := by
  induction l with
  | nil => simp [firstsBy]
  | cons y l ih =>
    rw [firstsBy, List.map_cons, List.map_cons, List.mem_cons, List.mem_cons, ← ih]
    constructor
    · rintro (h | h)
      · exact .inl h
      · obtain ⟨z, hz, rfl⟩ := List.mem_map.1 h
        exact .inr (List.mem_map_of_mem (List.mem_filter.1 hz).1)
    · rintro (h | h)
      · exact .inl h
      · obtain ⟨z, hz, rfl⟩ := List.mem_map.1 h
        by_cases e : key z = key y
        · exact .inl e
        · exact .inr (List.mem_map_of_mem (List.mem_filter.2 ⟨hz, by simpa using e⟩))

theorem firstsBy_snoc {α κ : Type} [DecidableEq κ] (key : α → κ) (l : List α) (x : α) :
    firstsBy key (l ++ [x]) = if key x ∈ l.map key then firstsBy key l else firstsBy key l ++ [x] := by
  induction l with
  | nil => simp [firstsBy]
  | cons y l ih =>
    rw [List.cons_append, firstsBy, ih]
    by_cases h : key x = key y
    · have hm : key x ∈ (y :: l).map key := by rw [List.map_cons, h]; exact List.mem_cons_self
      rw [if_pos hm, firstsBy]
      split <;> simp [h]
    · by_cases hm : key x ∈ l.map key
      · rw [if_pos hm, if_pos (by rw [List.map_cons]; exact List.mem_cons_of_mem _ hm), firstsBy]
      · rw [if_neg hm, if_neg (by rw [List.map_cons, List.mem_cons]; rintro (h' | h'); exact h h'; exact hm h'),
          List.filter_append, firstsBy]
        simp [h]

theorem nubBy_eq {α κ : Type} [DecidableEq κ] (key : α → κ) (xs : List α) : nubBy key xs = firstsBy key xs := by
  unfold nubBy
  rw [foldl_eq]
  have h : (xs.foldl (fun (acc : List κ × List α) x =>
      if any (fun k => decide (k = key x)) acc.1 then acc
      else (append acc.1 [key x], append acc.2 [x])) ([], [])) =
      ((firstsBy key xs).map key, firstsBy key xs) := by
    induction xs using List.reverseRecOn with
    | nil => rfl
    | append_singleton xs x ih =>
      rw [List.foldl_append, ih]
      simp only [List.foldl_cons, List.foldl_nil, append_eq, any_eq, firstsBy_snoc]
      have : ((firstsBy key xs).map key).any (fun k => decide (k = key x)) = true ↔ key x ∈ xs.map key := by
        rw [← mem_key_firstsBy, List.any_eq_true]
        constructor
        · rintro ⟨c, hc, e⟩
          rw [decide_eq_true_eq] at e
          exact e ▸ hc
        · intro h; exact ⟨_, h, by simp⟩
      by_cases hx : key x ∈ xs.map key
      · rw [if_pos (this.2 hx), if_pos hx]
      · rw [if_neg (fun h => hx (this.1 h)), if_neg hx]
        simp
  rw [h]

theorem consecutive {α κ : Type} [DecidableEq κ] (f : α → κ) (x : α) (xs : List α) :
    ∃ zs rest, groupConsecutiveBy f (x :: xs) = some ((x :: zs) :: rest) ∧
      ((x :: zs) :: rest).flatten = x :: xs ∧
      (∀ g ∈ (x :: zs) :: rest, g ≠ [] ∧ ∀ a ∈ g, ∀ b ∈ g, f a = f b) ∧
      Adjacent f ((x :: zs) :: rest) := by
  induction xs generalizing x with
  | nil => exact ⟨[], [], rfl, rfl, by simp, trivial⟩
  | cons y ys ih =>
    obtain ⟨zs, rest, h1, h2, h3, h4⟩ := ih y
    have hy := h3 (y :: zs) (by simp)
    by_cases h : f x = f y
    · refine ⟨y :: zs, rest, ?_, ?_, ?_, ?_⟩
      · simp only [groupConsecutiveBy, h1, h, if_true]
      · simpa using h2
      · intro g hg
        rcases List.mem_cons.1 hg with rfl | hg
        · refine ⟨by simp, ?_⟩
          have hall : ∀ a ∈ x :: y :: zs, f a = f y := by
            intro a ha
            rcases List.mem_cons.1 ha with rfl | ha
            · exact h
            · exact hy.2 a ha y (by simp)
          intro a ha b hb
          rw [hall a ha, hall b hb]
        · exact h3 g (List.mem_cons_of_mem _ hg)
      · cases rest with
        | nil => trivial
        | cons r rest =>
          refine ⟨?_, h4.2⟩
          intro a ha b hb
          rcases List.mem_cons.1 ha with rfl | ha
          · rw [h]; exact h4.1 y (by simp) b hb
          · exact h4.1 a ha b hb
    · refine ⟨[], (y :: zs) :: rest, ?_, ?_, ?_, ?_⟩
      · simp only [groupConsecutiveBy, h1, h, if_false]
      · simp only [List.flatten_cons] at h2 ⊢
        rw [h2]; rfl
      · intro g hg
        rcases List.mem_cons.1 hg with rfl | hg
        · simp
        · exact h3 g hg
      · refine ⟨?_, h4⟩
        intro a ha b hb
        rw [List.mem_singleton] at ha
        subst ha
        rw [hy.2 b hb y (by simp)]
        exact h

theorem uniq_eq {α : Type} [DecidableEq α] (xs : List α) : uniq xs = some (noRepeats xs) := by
  cases xs with
  | nil => rfl
  | cons x xs =>
    have : ∀ x : α, ∃ zs rest, groupConsecutiveBy id (x :: xs) = some ((x :: zs) :: rest) ∧
        heads ((x :: zs) :: rest) = some (noRepeats (x :: xs)) := by
      induction xs with
      | nil => exact fun x => ⟨[], [], rfl, rfl⟩
      | cons y ys ih =>
        intro x
        obtain ⟨zs, rest, h1, h2⟩ := ih y
        by_cases h : x = y
        · subst h
          refine ⟨x :: zs, rest, by simp [groupConsecutiveBy, h1], ?_⟩
          rw [noRepeats, if_pos rfl, ← h2]
          rfl
        · refine ⟨[], (y :: zs) :: rest, by simp [groupConsecutiveBy, h1, h], ?_⟩
          rw [noRepeats, if_neg h, heads, h2]
          rfl
    obtain ⟨zs, rest, h1, h2⟩ := this x
    rw [uniq, h1]
    exact h2

theorem join_snoc {α : Type} (gs : List (List α)) (ss c : List α) (h : ss.length = gs.length) :
    ∀ x : List α, join (gs ++ [c]) ss ++ x = join (gs ++ [c ++ x]) ss := by
  intro x
  induction gs generalizing ss with
  | nil =>
    cases ss with
    | nil => rfl
    | cons _ _ => simp at h
  | cons g gs ih =>
    cases ss with
    | nil => simp at h
    | cons s ss =>
      have := ih ss (by simpa using h)
      simp only [List.cons_append, join, List.append_assoc, this]

theorem join_sep {α : Type} (gs : List (List α)) (ss c : List α) (s : α) (h : ss.length = gs.length) :
    join (gs ++ [c]) ss ++ [s] = join (gs ++ [c] ++ [[]]) (ss ++ [s]) := by
  induction gs generalizing ss with
  | nil =>
    cases ss with
    | nil => rfl
    | cons _ _ => simp at h
  | cons g gs ih =>
    cases ss with
    | nil => simp at h
    | cons s' ss =>
      have := ih ss (by simpa using h)
      simp only [List.cons_append, join, List.append_assoc] at this ⊢
      rw [this]

theorem splitOn_ok {α : Type} (p : α → Bool) (xs : List α) : ∃ gs c ss, splitOn p xs = some (gs ++ [c]) ∧
    ss.length = gs.length ∧ join (gs ++ [c]) ss = xs ∧ (∀ s ∈ ss, p s = true) ∧
    (∀ g ∈ gs ++ [c], ∀ x ∈ g, p x = false) := by
  unfold splitOn
  rw [foldl_eq]
  induction xs using List.reverseRecOn with
  | nil => exact ⟨[], [], [], rfl, rfl, rfl, by simp, by simp⟩
  | append_singleton xs x ih =>
    obtain ⟨gs, c, ss, h1, h2, h3, h4, h5⟩ := ih
    rw [List.foldl_append, h1]
    simp only [List.foldl_cons, List.foldl_nil]
    cases hx : p x
    · refine ⟨gs, c ++ [x], ss, ?_, h2, ?_, h4, ?_⟩
      · simp [butlast, last, reverse_eq, append_eq, tail, head]
      · rw [← join_snoc gs ss c h2, h3]
      · intro g hg y hy
        rcases List.mem_append.1 hg with hg | hg
        · exact h5 g (by simp [hg]) y hy
        · rw [List.mem_singleton] at hg
          subst hg
          rcases List.mem_append.1 hy with hy | hy
          · exact h5 c (by simp) y hy
          · rw [List.mem_singleton] at hy; subst hy; exact hx
    · refine ⟨gs ++ [c], [], ss ++ [x], ?_, by simp [h2], ?_, ?_, ?_⟩
      · simp [append_eq]
      · rw [← join_sep gs ss c x h2, h3]
      · intro s hs
        rcases List.mem_append.1 hs with hs | hs
        · exact h4 s hs
        · rw [List.mem_singleton] at hs; subst hs; exact hx
      · intro g hg y hy
        rcases List.mem_append.1 hg with hg | hg
        · exact h5 g hg y hy
        · rw [List.mem_singleton] at hg; subst hg; cases hy

/-! ## Sorting -/

theorem qsort_nil {α : Type} (lt : α → α → Bool) : qsort lt [] = [] := by rw [qsort]

theorem qsort_cons {α : Type} (lt : α → α → Bool) (h : α) (t : List α) : qsort lt (h :: t) =
    qsort lt (t.filter fun x => lt x h) ++ h :: qsort lt (t.filter fun x => !lt x h) := by
  rw [qsort]
  simp [append_eq, discriminate_eq]

theorem filter_perm {α : Type} (p : α → Bool) (l : List α) :
    (l.filter p ++ l.filter fun x => !p x).Perm l := by
  induction l with
  | nil => simp
  | cons x xs ih =>
    cases h : p x
    · simp only [List.filter_cons, h]
      exact List.perm_middle.trans (ih.cons x)
    · simp only [List.filter_cons, h]
      exact ih.cons x

theorem qsort_perm {α : Type} (lt : α → α → Bool) (l : List α) : (qsort lt l).Perm l := by
  match l with
  | [] => rw [qsort_nil]
  | h :: t =>
    rw [qsort_cons]
    have h1 := qsort_perm lt (t.filter fun x => lt x h)
    have h2 := qsort_perm lt (t.filter fun x => !lt x h)
    refine List.perm_middle.trans (List.Perm.cons h ?_)
    exact (h1.append h2).trans (filter_perm _ t)
  termination_by l.length
  decreasing_by
    all_goals exact Nat.lt_succ_of_le (List.length_filter_le _ _)

theorem qsort_ordered {α : Type} {lt : α → α → Bool} (hw : StrictWeak lt) (l : List α) :
    Ordered lt (qsort lt l) := by
  match l with
  | [] => rw [qsort_nil]; exact List.Pairwise.nil
  | h :: t =>
    have h1 := qsort_ordered hw (t.filter fun x => lt x h)
    have h2 := qsort_ordered hw (t.filter fun x => !lt x h)
    rw [qsort_cons]
    have m1 : ∀ a ∈ qsort lt (t.filter fun x => lt x h), lt a h = true := fun a ha =>
      (List.mem_filter.1 ((qsort_perm _ _).mem_iff.1 ha)).2
    have m2 : ∀ b ∈ qsort lt (t.filter fun x => !lt x h), lt b h = false := fun b hb => by
      simpa using (List.mem_filter.1 ((qsort_perm _ _).mem_iff.1 hb)).2
    refine List.pairwise_append.2 ⟨h1, List.pairwise_cons.2 ⟨m2, h2⟩, ?_⟩
    intro a ha b hb
    rcases List.mem_cons.1 hb with rfl | hb
    · exact hw.asymm _ _ (m1 a ha)
    · cases e : lt b a
      · rfl
      · rcases hw.split b h a e with h' | h'
        · rw [m2 b hb] at h'; cases h'
        · rw [hw.asymm _ _ (m1 a ha)] at h'; cases h'
  termination_by l.length
  decreasing_by
    all_goals exact Nat.lt_succ_of_le (List.length_filter_le _ _)

/-- Those that are the same as `c` are all less than `h`, or none of them is. -/
theorem same_split {α : Type} {lt : α → α → Bool} (hw : StrictWeak lt) {c h x : α} (hx : same lt c x = true) :
    lt x h = lt c h := by
  simp only [same, Bool.and_eq_true, Bool.not_eq_true'] at hx
  cases h1 : lt x h <;> cases h2 : lt c h
  · rfl
  · rcases hw.split c x h h2 with h' | h'
    · rw [hx.1] at h'; cases h'
    · rw [h1] at h'; cases h'
  · rcases hw.split x c h h1 with h' | h'
    · rw [hx.2] at h'; cases h'
    · rw [h2] at h'; cases h'
  · rfl

theorem qsort_stable {α : Type} {lt : α → α → Bool} (hw : StrictWeak lt) (c : α) (l : List α) :
    (qsort lt l).filter (same lt c) = l.filter (same lt c) := by
  match l with
  | [] => rw [qsort_nil]
  | h :: t =>
    have h1 := qsort_stable hw c (t.filter fun x => lt x h)
    have h2 := qsort_stable hw c (t.filter fun x => !lt x h)
    rw [qsort_cons, List.filter_append, List.filter_cons, h1, h2, List.filter_filter, List.filter_filter]
    have e1 : t.filter (fun x => same lt c x && lt x h) = if lt c h then t.filter (same lt c) else [] := by
      cases e : lt c h
      · simp only [Bool.false_eq_true, if_false, List.filter_eq_nil_iff]
        intro x _ hx
        rw [Bool.and_eq_true] at hx
        rw [same_split hw hx.1, e] at hx
        cases hx.2
      · simp only [if_true]
        apply List.filter_congr
        intro x _
        cases hx : same lt c x
        · rfl
        · rw [same_split hw hx, e]; rfl
    have e2 : t.filter (fun x => same lt c x && !lt x h) = if lt c h then [] else t.filter (same lt c) := by
      cases e : lt c h
      · simp only [Bool.false_eq_true, if_false]
        apply List.filter_congr
        intro x _
        cases hx : same lt c x
        · rfl
        · rw [same_split hw hx, e]; rfl
      · simp only [if_true, List.filter_eq_nil_iff]
        intro x _ hx
        rw [Bool.and_eq_true] at hx
        rw [same_split hw hx.1, e] at hx
        cases hx.2
    rw [e1, e2, List.filter_cons]
    cases e : lt c h
    · simp
    · have : same lt c h = false := by simp [same, e]
      simp [this]
  termination_by l.length
  decreasing_by
    all_goals exact Nat.lt_succ_of_le (List.length_filter_le _ _)

theorem insertF_perm (v : Int) (l : List Int) : (insertF v l).Perm (v :: l) := by
  induction l with
  | nil => exact List.Perm.refl _
  | cons x xs ih =>
    rw [insertF]
    split
    · exact List.Perm.refl _
    · exact (ih.cons x).trans (List.Perm.swap v x xs)

theorem insertF_sorted (v : Int) {l : List Int} (h : l.Pairwise (· ≤ ·)) : (insertF v l).Pairwise (· ≤ ·) := by
  induction l with
  | nil => simp [insertF]
  | cons x xs ih =>
    rw [insertF]
    rw [List.pairwise_cons] at h
    split
    · next hv =>
      refine List.pairwise_cons.2 ⟨?_, List.pairwise_cons.2 h⟩
      intro b hb
      rcases List.mem_cons.1 hb with rfl | hb
      · omega
      · have := h.1 b hb; omega
    · next hv =>
      refine List.pairwise_cons.2 ⟨?_, ih h.2⟩
      intro b hb
      rcases List.mem_cons.1 ((insertF_perm v xs).mem_iff.1 hb) with rfl | hb
      · omega
      · exact h.1 b hb

theorem sortF_aux (l a : List Int) (h : a.Pairwise (· ≤ ·)) :
    ((l.foldl (fun a v => insertF v a) a).Perm (l ++ a)) ∧
      (l.foldl (fun a v => insertF v a) a).Pairwise (· ≤ ·) := by
  induction l generalizing a with
  | nil => exact ⟨List.Perm.refl _, h⟩
  | cons x xs ih =>
    obtain ⟨h1, h2⟩ := ih (insertF x a) (insertF_sorted x h)
    refine ⟨?_, h2⟩
    exact h1.trans (((insertF_perm x a).append_left xs).trans List.perm_middle)

theorem sortF_perm (l : List Int) : (sortF l).Perm l := by
  have := (sortF_aux l [] List.Pairwise.nil).1
  rwa [List.append_nil] at this

theorem sortF_sorted (l : List Int) : (sortF l).Pairwise (· ≤ ·) := (sortF_aux l [] List.Pairwise.nil).2

end Verif.Lib
