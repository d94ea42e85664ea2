import Mathlib.Data.Complex.BigOperators
import Mathlib.Data.List.GetD
import Verif.Model.Common

/-!
The few NumPy conventions that the model needs on lists.
-/
namespace Sleplet.NumPy

/-- Elementwise combination of two arrays along one axis with NumPy's broadcasting rule: equal lengths, or one of them 1;
anything else raises `ValueError`. -/
def broadcast {α β γ : Type} (op : α → β → γ) (a : List α) (b : List β) : Except Err (List γ) :=
  if a.length = b.length then .ok (List.zipWith op a b)
  else match a, b with
    | [x], b => .ok (b.map (op x))
    | a, [y] => .ok (a.map fun x => op x y)
    | _, _ => .error .valueError

/-- `a[i]` with `0 ≤ i`: `IndexError` past the end. -/
def item {α : Type} (a : List α) (i : ℕ) : Except Err α :=
  match a[i]? with
  | some x => .ok x
  | none => .error .indexError

/-- `a[i] = x` with `0 ≤ i`: `IndexError` past the end. -/
def setItem {α : Type} (a : List α) (i : ℕ) (x : α) : Except Err (List α) :=
  if i < a.length then .ok (a.set i x) else .error .indexError

/-- `a[:n]`; `none` is `a[:None]`, a negative `n` counts from the end. -/
def upTo {α : Type} (a : List α) : Option ℤ → List α
  | none => a
  | some n => if 0 ≤ n then a.take n.toNat else a.take (a.length - n.natAbs)

/-- the common extent of two axes under broadcasting. -/
def dim (m n : ℕ) : Except Err ℕ :=
  if m = n then .ok m else if m = 1 then .ok n else if n = 1 then .ok m else .error .valueError

/-- A two-dimensional array: its rows, and the number of columns (which an array without rows has too). -/
structure Array2 (α : Type) where
  cols : ℕ
  rows : List (List α)

/-- every row has as many entries as there are columns. -/
def Array2.WF {α : Type} (a : Array2 α) : Prop := ∀ r ∈ a.rows, r.length = a.cols

/-- elementwise combination of two arrays, broadcasting along both axes. -/
def broadcast2 {α β γ : Type} (op : α → β → γ) (a : Array2 α) (b : Array2 β) : Except Err (Array2 γ) := do
  let c ← dim a.cols b.cols
  let rs ← broadcast (fun r s => broadcast op r s) a.rows b.rows
  let rows ← rs.mapM id
  return ⟨c, rows⟩

/-- `a[:, :n]`. -/
def Array2.colsUpTo {α : Type} (a : Array2 α) (n : Option ℤ) : Array2 α :=
  ⟨(upTo (List.range a.cols) n).length, a.rows.map fun r => upTo r n⟩

/-- `a.sum(axis=0)`. -/
def Array2.sumRows {α : Type} [AddCommMonoid α] (a : Array2 α) : List α :=
  (List.range a.cols).map fun p => (a.rows.map fun r => r.getD p 0).sum

theorem broadcast_of_length_eq {α β γ : Type} (op : α → β → γ) (a : List α) (b : List β) (h : a.length = b.length) :
    broadcast op a b = .ok (List.zipWith op a b) := by
  simp [broadcast, h]

/-- lengths that are different and both not one are rejected. -/
theorem broadcast_error {α β γ : Type} (op : α → β → γ) (a : List α) (b : List β) (h : a.length ≠ b.length)
    (ha : a.length ≠ 1) (hb : b.length ≠ 1) : broadcast op a b = .error .valueError := by
  unfold broadcast
  rw [if_neg h]
  match a, b with
  | [], [] => simp at h
  | [], [y] => simp at hb
  | [], _ :: _ :: _ => rfl
  | [_], _ => simp at ha
  | _ :: _ :: _, [] => rfl
  | _ :: _ :: _, [_] => simp at hb
  | _ :: _ :: _, _ :: _ :: _ => rfl

theorem item_of_lt {α : Type} (a : List α) (i : ℕ) (h : i < a.length) : item a i = .ok a[i] := by
  simp [item, List.getElem?_eq_getElem h]

theorem item_of_ge {α : Type} (a : List α) (i : ℕ) (h : a.length ≤ i) : item a i = .error .indexError := by
  simp [item, List.getElem?_eq_none h]

theorem setItem_of_lt {α : Type} (a : List α) (i : ℕ) (x : α) (h : i < a.length) : setItem a i x = .ok (a.set i x) := by
  simp [setItem, h]

theorem setItem_of_ge {α : Type} (a : List α) (i : ℕ) (x : α) (h : a.length ≤ i) :
    setItem a i x = .error .indexError := by
  simp [setItem, Nat.not_lt.2 h]

end Sleplet.NumPy
