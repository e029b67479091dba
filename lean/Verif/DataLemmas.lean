import Verif.DataSpec
import Verif.ArithProps
/-! Helper lemmas on equality and insertion-ordered maps. -/

namespace Verif.Data
open Verif.Arith

theorem numEq_refl' (x : Num) : numEq x x = true := by
  unfold numEq; split <;> simp_all; split <;> simp_all

theorem numEq_comm (x y : Num) : numEq x y = numEq y x := by
  unfold numEq
  cases asI64 x <;> cases asI64 y <;> cases asU64 x <;> cases asU64 y <;> simp [BEq.comm]

theorem atomEq_refl (x : Atom) : atomEq x x = true := by
  cases x <;> simp [atomEq, numEq_refl']

theorem atomEq_comm (x y : Atom) : atomEq x y = atomEq y x := by
  cases x <;> cases y <;> simp [atomEq, numEq_comm, BEq.comm]

mutual
theorem eqData_refl (x : Data) : eqData x x = true := by
  cases x with
  | unit => simp [eqData]
  | bool b => simp [eqData]
  | native a => simp [eqData, atomEq_refl]
  | boxed b a => simp [eqData, atomEq_refl]
  | list l => simp [eqData, eqList_refl l]
  | block es => simp [eqData, eqElems_refl es]
theorem eqList_refl (x : DList) : eqList x x = true := by
  cases x with
  | nil => simp [eqList]
  | cons h t => simp [eqList, eqData_refl h, eqList_refl t]
theorem eqElem_refl (x : Elem) : eqElem x x = true := by
  cases x with
  | pair k v => simp [eqElem, eqData_refl v]
  | kvl b k v m => simp [eqElem, eqData_refl v, eqList_refl m]
theorem eqElems_refl (x : Elems) : eqElems x x = true := by
  cases x with
  | nil => simp [eqElems]
  | cons h t => simp [eqElems, eqElem_refl h, eqElems_refl t]
end

mutual
theorem eqData_comm (x y : Data) : eqData x y = eqData y x := by
  cases x <;> cases y <;> simp [eqData, BEq.comm, atomEq_comm]
  case boxed.boxed b a b' a' => by_cases h : b = b' <;> simp [h, atomEq_comm a a', eq_comm (a := b')]
  case list.list l m => exact eqList_comm l m
  case block.block l m => exact eqElems_comm l m
termination_by sizeOf x + sizeOf y
theorem eqList_comm (x y : DList) : eqList x y = eqList y x := by
  cases x <;> cases y <;> simp [eqList]
  case cons.cons h t h' t' => rw [eqData_comm h h', eqList_comm t t']
termination_by sizeOf x + sizeOf y
theorem eqElem_comm (x y : Elem) : eqElem x y = eqElem y x := by
  cases x <;> cases y <;> simp [eqElem]
  case pair.pair k v k' v' => rw [eqData_comm v v', BEq.comm]
  case kvl.kvl b k v m b' k' v' m' => rw [eqData_comm v v', eqList_comm m m', BEq.comm (a := k)]
termination_by sizeOf x + sizeOf y
theorem eqElems_comm (x y : Elems) : eqElems x y = eqElems y x := by
  cases x <;> cases y <;> simp [eqElems]
  case cons.cons h t h' t' => rw [eqElem_comm h h', eqElems_comm t t']
termination_by sizeOf x + sizeOf y
end

theorem atomEq_abs {x y : Atom} (hx : PlainAtom x) (hy : PlainAtom y) :
    atomEq x y = true ↔ absAtom x = absAtom y := by
  cases x <;> cases y <;> simp [atomEq, absAtom]
  case num.num n m => exact (order_by_value_partial hx.1 hy.1 (.inr ⟨hx.2, hy.2⟩)).2.1

theorem boxFor_abs {b c : Box} {x y : Atom} (hx : boxFor b x = true) (hy : boxFor c y = true)
    (h : absAtom x = absAtom y) : b = c := by
  cases b <;> cases x <;> simp [boxFor] at hx <;> cases c <;> cases y <;> simp [boxFor] at hy <;> simp [absAtom] at h <;> rfl

/-- The shape of a value that is not a list. -/
def notList : Abs → Bool
  | .nil => false
  | .cons _ _ => false
  | _ => true

theorem absList_not (l : DList) : notList (absList l) = true → False := by
  cases l <;> simp [absList, notList]

mutual
theorem eqData_abs (x y : Data) (hx : Plain x) (hy : Plain y) : eqData x y = true ↔ abs x = abs y := by
  cases x <;> cases y <;> simp only [Plain] at hx hy <;> simp [eqData, abs]
  case native.native a b => exact atomEq_abs hx hy
  case native.boxed a b c => exact atomEq_abs hx hy.2
  case boxed.native a b c => exact atomEq_abs hx.2 hy
  case boxed.boxed b a c a' =>
    rw [atomEq_abs hx.2 hy.2]
    exact ⟨fun h => h.2, fun h => ⟨boxFor_abs hx.1 hy.1 h, h⟩⟩
  case list.list l m => exact eqList_abs l m hx hy
  case block.block l m => exact eqElems_abs l m hx hy
  case unit.list => intro h; exact absList_not _ (by rw [← h]; rfl)
  case bool.list => intro h; exact absList_not _ (by rw [← h]; rfl)
  case native.list => intro h; exact absList_not _ (by rw [← h]; rfl)
  case boxed.list => intro h; exact absList_not _ (by rw [← h]; rfl)
  case block.list => intro h; exact absList_not _ (by rw [← h]; rfl)
  case list.unit => intro h; exact absList_not _ (by rw [h]; rfl)
  case list.bool => intro h; exact absList_not _ (by rw [h]; rfl)
  case list.native => intro h; exact absList_not _ (by rw [h]; rfl)
  case list.boxed => intro h; exact absList_not _ (by rw [h]; rfl)
  case list.block => intro h; exact absList_not _ (by rw [h]; rfl)
termination_by sizeOf x + sizeOf y
theorem eqList_abs (x y : DList) (hx : PlainList x) (hy : PlainList y) : eqList x y = true ↔ absList x = absList y := by
  cases x <;> cases y <;> simp only [PlainList] at hx hy <;> simp [eqList, absList]
  case cons.cons h t h' t' => rw [eqData_abs h h' hx.1 hy.1, eqList_abs t t' hx.2 hy.2]
termination_by sizeOf x + sizeOf y
theorem eqElem_abs (x y : Elem) (hx : PlainElem x) (hy : PlainElem y) : eqElem x y = true ↔ absElem x = absElem y := by
  cases x <;> cases y <;> simp only [PlainElem] at hx hy <;> simp [eqElem, absElem]
  case pair.pair k v k' v' => intro _; exact eqData_abs v v' hx hy
  case pair.kvl k v b' k' v' m' => rw [eqData_comm, eqData_abs v v' hx hy.1, eq_comm (a := k')]
  case kvl.pair b k v m k' v' => intro _; exact eqData_abs v v' hx.1 hy
  case kvl.kvl b k v m b' k' v' m' =>
    rw [eqData_abs v v' hx.1 hy.1, hx.2, hy.2]; simp [eqList]
termination_by sizeOf x + sizeOf y
theorem eqElems_abs (x y : Elems) (hx : PlainElems x) (hy : PlainElems y) : eqElems x y = true ↔ absElems x = absElems y := by
  cases x <;> cases y <;> simp only [PlainElems] at hx hy <;> simp [eqElems, absElems]
  case cons.cons h t h' t' => rw [eqElem_abs h h' hx.1 hy.1, eqElems_abs t t' hx.2 hy.2]
termination_by sizeOf x + sizeOf y
end

end Verif.Data
