import Mathlib.Data.List.Sort
import Verif.Model.Common

/-!
Model of `src/sleplet/_parallel_methods.py:6-11` (work splitting).
-/
namespace Sleplet.Parallel

/-- `_parallel_methods.py:8-10`: `arr = np.arange(arr_max)` followed by
`arr[size // 2 : size] = arr[size // 2 : size][::-1]`. -/
def reordered (n : ℕ) : List ℕ :=
  (List.range n).take (n / 2) ++ ((List.range n).drop (n / 2)).reverse

/-- NumPy basic slicing `arr[start::step]` for `step ≥ 1` (used at `_parallel_methods.py:11`):
the elements at positions `start, start + step, …` below `len(arr)`. -/
def strided {α : Type} [Inhabited α] (arr : List α) (start step : ℕ) : List α :=
  (List.range ((arr.length - start + step - 1) / step)).map fun t => arr.getD (start + t * step) default

/-- `_parallel_methods.py:6-11`, `split_arr_into_chunks`.  For `ncpu = 0` the comprehension is empty
(and the executor created afterwards raises, see `Verif.Model.Executor`). `np.sort` on integers is
insertion sort by `≤` (any sorting algorithm gives the same list of integers). -/
def splitArrIntoChunks (arrMax ncpu : ℕ) : List (List ℕ) :=
  (List.range ncpu).map fun i => (strided (reordered arrMax) i ncpu).insertionSort (· ≤ ·)

end Sleplet.Parallel
