import Verif.ArithModel

/-!
# Lists in the prelude

Model of functions of lib/prelude.eu on lists, and of the intrinsics they call in eval/stg/list.rs and
eval/stg/running.rs. Lists are finite, and evaluated to the end: an error in a part of a list is an
error, where the language gives an error only if that part is asked for. Functions given to them always
give an answer. Counts are integers.
-/

namespace Verif.Lib

open Verif.Arith

/-- `foldl`, lib/prelude.eu:1471. -/
def foldl {α β : Type} (op : β → α → β) (i : β) : List α → β
  | [] => i
  | x :: xs => foldl op (op i x) xs

/-- `foldr`, lib/prelude.eu:1480. -/
def foldr {α β : Type} (op : α → β → β) (i : β) : List α → β
  | [] => i
  | x :: xs => op x (foldr op i xs)

/-- `map`, lib/prelude.eu:1533. -/
def map {α β : Type} (f : α → β) : List α → List β
  | [] => []
  | x :: xs => f x :: map f xs

/-- `append`, lib/prelude.eu:1577. -/
def append {α : Type} (l1 l2 : List α) : List α := foldr List.cons l2 l1

/-- `concat`, lib/prelude.eu:1592. -/
def concat {α : Type} (ls : List (List α)) : List α := foldr append [] ls

/-- `filter`, lib/prelude.eu:1569. -/
def filter {α : Type} (p : α → Bool) (l : List α) : List α :=
  foldr (fun x xs => if p x then x :: xs else xs) [] l

/-- `reverse`, lib/prelude.eu:1605. -/
def reverse {α : Type} (l : List α) : List α := foldl (fun xs x => x :: xs) [] l

/-- `count`, lib/prelude.eu:1516. -/
def count {α : Type} (l : List α) : Int := foldl (fun n _ => n + 1) 0 l

/-- `head` and `tail`, eval/stg/list.rs:61-132; `none` is the error for the empty list. -/
def head {α : Type} : List α → Option α
  | [] => none
  | x :: _ => some x

def tail {α : Type} : List α → Option (List α)
  | [] => none
  | _ :: xs => some xs

/-- `take`, lib/prelude.eu:1385. -/
def take {α : Type} (n : Int) : List α → List α
  | [] => []
  | x :: xs => if n = 0 then [] else x :: take (n - 1) xs

/-- `drop`, lib/prelude.eu:1390. The tail of the empty list is an error. -/
def drop {α : Type} (n : Int) : List α → Option (List α)
  | [] => if n = 0 then some [] else none
  | x :: xs => if n = 0 then some (x :: xs) else drop (n - 1) xs

/-- `split-at`, lib/prelude.eu:1398-1400. -/
def splitAux {α : Type} (n : Int) : List α → List α → List α × List α
  | [], pre => (reverse pre, [])
  | x :: xs, pre => if n = 0 then (reverse pre, x :: xs) else splitAux (n - 1) xs (x :: pre)

def splitAt {α : Type} (n : Int) (l : List α) : List α × List α := splitAux n l []

/-- `rotate`, lib/prelude.eu:1394. -/
def rotate {α : Type} (n : Int) (l : List α) : List α :=
  let s := splitAt n l; append s.2 s.1

/-- `take-while`, lib/prelude.eu:1410-1412. -/
def takeWhileAux {α : Type} (p : α → Bool) : List α → List α → List α
  | [], pre => reverse pre
  | x :: xs, pre => if p x then takeWhileAux p xs (x :: pre) else reverse pre

def takeWhile {α : Type} (p : α → Bool) (l : List α) : List α := takeWhileAux p l []

/-- `drop-while`, lib/prelude.eu:1420. -/
def dropWhile {α : Type} (p : α → Bool) : List α → List α
  | [] => []
  | x :: xs => if p x then dropWhile p xs else x :: xs

/-- `split-after`, lib/prelude.eu:1428-1433. -/
def splitAfterAux {α : Type} (p : α → Bool) : List α → List α → List α × List α
  | [], pre => (reverse pre, [])
  | x :: xs, pre => if p x then splitAfterAux p xs (x :: pre) else (reverse pre, x :: xs)

def splitAfter {α : Type} (p : α → Bool) (l : List α) : List α × List α := splitAfterAux p l []

/-- `split-when`, lib/prelude.eu:1437. -/
def splitWhen {α : Type} (p : α → Bool) (l : List α) : List α × List α := splitAfter (fun x => !p x) l

/-- `nth`, lib/prelude.eu:1442-1447. -/
def nth {α : Type} (n : Int) : List α → Option α
  | [] => none
  | x :: xs => if n = 0 then some x else nth (n - 1) xs

/-- `update-nth`, lib/prelude.eu:1451: the second part has to have an element. -/
def updateNth {α : Type} (n : Int) (f : α → α) (l : List α) : Option (List α) :=
  let s := splitAt n l
  match s.2 with
  | x :: xs => some (append s.1 (f x :: xs))
  | [] => none

/-- `update-first`, lib/prelude.eu:1455-1457. -/
def updateFirst {α : Type} (p : α → Bool) (f : α → α) (l : List α) : List α :=
  let s := splitWhen p l
  match s.2 with
  | [] => l
  | x :: xs => append s.1 (f x :: xs)

/-- `range`, lib/prelude.eu:1512, with `iota` and `take`: nothing if it is not done in so many steps. -/
def takeIota : Nat → Int → Int → Option (List Int)
  | 0, _, _ => none
  | s + 1, b, n => if n = 0 then some [] else (takeIota s (b + 1) (n - 1)).map (b :: ·)

def range (steps : Nat) (b e : Int) : Option (List Int) := takeIota steps b (e - b)

/-- `transpose`, lib/prelude.eu:1404-1406: the first row says when to stop. -/
def heads {α : Type} : List (List α) → Option (List α)
  | [] => some []
  | r :: rs => match head r, heads rs with
    | some x, some xs => some (x :: xs)
    | _, _ => none

def tails {α : Type} : List (List α) → Option (List (List α))
  | [] => some []
  | r :: rs => match tail r, tails rs with
    | some x, some xs => some (x :: xs)
    | _, _ => none

def transposeAux {α : Type} : List α → List (List α) → Option (List (List α))
  | [], _ => some []
  | x :: r, rs => match heads rs, tails rs with
    | some h, some t => (transposeAux r t).map ((x :: h) :: ·)
    | _, _ => none

def transpose {α : Type} : List (List α) → Option (List (List α))
  | [] => none
  | r :: rs => transposeAux r rs

/-! ## Windows -/

/-- The outcome of a function that may fail or go on. -/
inductive Out (β : Type) where
  | ok (b : β)
  | failed
  | more

def Out.map {β γ : Type} (f : β → γ) : Out β → Out γ
  | .ok b => .ok (f b)
  | .failed => .failed
  | .more => .more

/-- `window`, lib/prelude.eu:1625. -/
def window {α : Type} (n step : Int) : Nat → List α → Out (List (List α))
  | 0, _ => .more
  | s + 1, l =>
    let chunk := take n l
    if count chunk ≥ n then
      match drop step l with
      | none => .failed
      | some r => (window n step s r).map (chunk :: ·)
    else .ok []

/-- `partition`, lib/prelude.eu:1629. -/
def partition {α : Type} (n : Int) (s : Nat) (l : List α) : Out (List (List α)) := window n n s l

/-- `window-all`, lib/prelude.eu:1633. -/
def windowAll {α : Type} (n step : Int) : Nat → List α → Out (List (List α))
  | 0, _ => .more
  | s + 1, l =>
    let chunk := take n l
    match chunk with
    | [] => .ok []
    | _ :: _ =>
      match (if count l ≤ step then some [] else drop step l) with
      | none => .failed
      | some r => (windowAll n step s r).map (chunk :: ·)

/-- `partition-all`, lib/prelude.eu:1637. -/
def partitionAll {α : Type} (n : Int) (s : Nat) (l : List α) : Out (List (List α)) := windowAll n n s l

/-! ## Groups -/

/-- `discriminate`, lib/prelude.eu:1651-1653. -/
def discriminate {α : Type} (p : α → Bool) (xs : List α) : List α × List α :=
  let r := foldl (fun (a : List α × List α) e => if p e then (e :: a.1, a.2) else (a.1, e :: a.2)) ([], []) xs
  (reverse r.1, reverse r.2)

/-- `update-value-or`, lib/prelude.eu:1893-1902, on the elements of a block. -/
def updateValueOr {κ ν : Type} [DecidableEq κ] (k : κ) (f : ν → ν) (d : ν) (b : List (κ × ν)) : List (κ × ν) :=
  let st := foldl (fun (st : List (κ × ν) × List (κ × ν)) el =>
      if k = el.1 then ((k, f el.2) :: st.1, []) else (el :: st.1, st.2)) ([], [(k, d)]) b
  reverse (append st.2 st.1)

/-- `group-by`, lib/prelude.eu:1657-1659. -/
def groupBy {α κ : Type} [DecidableEq κ] (k : α → κ) (xs : List α) : List (κ × List α) :=
  map (fun p => (p.1, reverse p.2))
    (foldl (fun a (e : κ × α) => updateValueOr e.1 (fun vs => e.2 :: vs) [e.2] a) []
      (map (fun x => (k x, x)) xs))

/-- `group-consecutive-by`, lib/prelude.eu:1662-1667. The groups of a list with elements are not empty
and have elements, so the heads are there. -/
def groupConsecutiveBy {α κ : Type} [DecidableEq κ] (f : α → κ) : List α → Option (List (List α))
  | [] => some []
  | [x] => some [[x]]
  | x :: y :: ys =>
    match groupConsecutiveBy f (y :: ys) with
    | some ((z :: zs) :: rest) => if f x = f z then some ((x :: z :: zs) :: rest) else some ([x] :: (z :: zs) :: rest)
    | _ => none

/-- `uniq`, lib/prelude.eu:1674. -/
def uniq {α : Type} [DecidableEq α] (xs : List α) : Option (List α) :=
  match groupConsecutiveBy id xs with
  | some gs => heads gs
  | none => none

/-- `any`, lib/prelude.eu:1617-1621. -/
def any {α : Type} (p : α → Bool) (l : List α) : Bool := foldr (fun a b => a || b) false (map p l)

/-- `nub-by`, lib/prelude.eu:1678-1684. -/
def nubBy {α κ : Type} [DecidableEq κ] (key : α → κ) (xs : List α) : List α :=
  (foldl (fun (acc : List κ × List α) x =>
    if any (fun k => decide (k = key x)) acc.1 then acc
    else (append acc.1 [key x], append acc.2 [x])) ([], []) xs).2

/-- `last` and `butlast`, lib/prelude.eu:1520-1524. -/
def last {α : Type} (l : List α) : Option α := head (reverse l)

def butlast {α : Type} (l : List α) : Option (List α) := (tail (reverse l)).map reverse

/-- `split-on`, lib/prelude.eu:1688-1694. -/
def splitOn {α : Type} (p : α → Bool) (xs : List α) : Option (List (List α)) :=
  foldl (fun (acc : Option (List (List α))) x =>
    match acc with
    | none => none
    | some acc =>
      if p x then some (append acc [[]])
      else match butlast acc, last acc with
        | some g, some c => some (append g [append c [x]])
        | _, _ => none) (some [[]]) xs

/-! ## Sorting -/

/-- What `discriminate` gives, for the recursion in `qsort`. -/
theorem foldl_discriminate {α : Type} (p : α → Bool) (xs : List α) (a b : List α) :
    foldl (fun (a : List α × List α) e => if p e then (e :: a.1, a.2) else (a.1, e :: a.2)) (a, b) xs =
      ((xs.filter p).reverse ++ a, (xs.filter fun x => !p x).reverse ++ b) := by
  induction xs generalizing a b with
  | nil => simp [foldl]
  | cons x xs ih =>
    rw [foldl]
    cases h : p x <;> simp [ih, h]

theorem foldl_reverse {α : Type} (l a : List α) : foldl (fun xs x => x :: xs) a l = l.reverse ++ a := by
  induction l generalizing a with
  | nil => simp [foldl]
  | cons x xs ih => simp [foldl, ih]

theorem reverse_eq {α : Type} (l : List α) : reverse l = l.reverse := by
  simp [reverse, foldl_reverse]

theorem discriminate_eq {α : Type} (p : α → Bool) (xs : List α) :
    discriminate p xs = (xs.filter p, xs.filter fun x => !p x) := by
  simp [discriminate, foldl_discriminate, reverse_eq]

/-- `qsort`, lib/prelude.eu:1698-1708. -/
def qsort {α : Type} (lt : α → α → Bool) : List α → List α
  | [] => []
  | h :: t =>
    let parts := discriminate (fun x => lt x h) t
    append (append (qsort lt parts.1) [h]) (qsort lt parts.2)
  termination_by l => l.length
  decreasing_by
    all_goals
      simp only [discriminate_eq, List.length_cons]
      exact Nat.lt_succ_of_le (List.length_filter_le _ _)

/-- `sort-by`, lib/prelude.eu:1735-1737. -/
def sortBy {α β : Type} (key : α → β) (cmp : β → β → Bool) (xs : List α) : List α :=
  qsort (fun a b => cmp (key a) (key b)) xs

/-- A double as a number, or zero if it is infinite: eval/stg/support.rs:676. -/
def backNum (v : Int) : Num := (fromF64 v).getD (.pos 0)

/-- Putting a double in its place, after those that are no greater: `sort_by` is stable. -/
def insertF (v : Int) : List Int → List Int
  | [] => [v]
  | x :: xs => if v < x then v :: x :: xs else x :: insertF v xs

def sortF (l : List Int) : List Int := l.foldl (fun a v => insertF v a) []

/-- `sort-nums`, eval/stg/list.rs:409-438: the numbers become doubles. -/
def sortNums (xs : List Num) : List Num := (sortF (xs.map asF64)).map backNum

/-- `running-max`, `running-min` and `running-sum`, eval/stg/running.rs:50-137; `none` is infinity,
before the first number. -/
def runningF (op : Int → Int → Int) : Option Int → List Int → List Int
  | _, [] => []
  | none, x :: xs => x :: runningF op (some x) xs
  | some a, x :: xs => op a x :: runningF op (some (op a x)) xs

/-- Adding doubles: what is infinite stays so. -/
def faddInf (a b : Int) : Int := if a.natAbs < 2 ^ 2098 then fadd a b else a

def runningMax (xs : List Num) : List Num := (runningF max none (xs.map asF64)).map backNum
def runningMin (xs : List Num) : List Num := (runningF min none (xs.map asF64)).map backNum
def runningSum (xs : List Num) : List Num := (runningF faddInf (some 0) (xs.map asF64)).map backNum

end Verif.Lib
