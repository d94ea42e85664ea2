import Verif.Model.Cache
import Verif.Model.EigenClean
import Verif.Model.Harmonic

/-!
The figures of polar-cap Slepian functions in `examples/polar_cap/`: eigenfunctions along a meridian (`eigenfunctions.py`, `simons_5_1.py`) and
eigenvalues marked by order (`simons_5_3.py`).

Drawing is replaced by the numbers handed to matplotlib and seaborn; texts, ticks and colours are left out.  Real numbers replace floats.
-/
namespace Sleplet.PolarFigures

open Complex

/-- `np.linspace(a, b, n)`. -/
noncomputable def linspace (a b : ℝ) (n : ℕ) : List ℝ := (List.range n).map fun i : ℕ => a + i * ((b - a) / ((n - 1 : ℕ) : ℝ))

/-- `examples/polar_cap/eigenfunctions.py:32`, `examples/polar_cap/simons_5_1.py:29`: the horizontal axis, in degrees. -/
noncomputable def colatitudes (resolution : ℕ) : List ℝ := linspace 0 (Py.rad2deg Real.pi) (resolution + 1)

open Classical in
/-- `examples/polar_cap/eigenfunctions.py:33`, `examples/polar_cap/simons_5_1.py:30`: `(x < THETA_MAX).sum()`. -/
noncomputable def splitAt (x : List ℝ) (thetaMax : ℝ) : ℕ := (x.filter fun a => decide (a < thetaMax)).length

/-- `xs[i]` of an array, for `i ≥ 0`. -/
def index {α : Type} (xs : List α) (i : ℕ) : Except Err α :=
  match xs[i]? with
  | some x => .ok x
  | none => .error .indexError

/-- a line drawn through points; `ValueError` from matplotlib when the coordinates differ in number. -/
def line {α β : Type} (x : List α) (y : List β) : Except Err (List (α × β)) :=
  if x.length = y.length then .ok (x.zip y) else .error .valueError

/-- What a panel shows: two lines and the number in the text box. -/
structure Panel where
  inside : List (ℝ × ℝ)
  outside : List (ℝ × ℝ)
  mu : ℝ

/-- `examples/polar_cap/eigenfunctions.py:54-76`, `_helper`, and `examples/polar_cap/simons_5_1.py:51-79`, `_helper`: the lines of one panel and its
eigenvalue, for the eigenvalues and eigenvectors of the Slepian object and the sign taken from the table in the script. -/
noncomputable def panel (inverse : ℕ → List ℂ → List (List ℂ)) (evals : List ℝ) (evecs : List (List ℂ)) (sign : ℤ) (L resolution : ℕ)
    (thetaMax : ℝ) (rank : ℕ) : Except Err Panel := do
  let x := colatitudes resolution
  let i := splitAt x thetaMax
  let row ← index evecs rank
  let flm := row.map fun c => c * (sign : ℂ)
  let mu ← index evals rank
  let f ← invertFlmBoosted inverse flm L resolution
  let f := f.map fun r => r.map re
  let column ← f.mapM fun r => index r 0
  let a ← line (x.take i) (column.take i)
  let b ← line (x.drop i) (column.drop i)
  return ⟨a, b, mu⟩

/-- `examples/polar_cap/eigenfunctions.py:79-94`, `_find_p_value`, given the published file of orders. -/
def findPValue (orders : List ℤ) (order : ℤ) (rank : ℕ) : Except Err ℕ :=
  index ((List.range orders.length).filter fun p => decide (orders[p]? = some order)) rank

/-- `examples/polar_cap/simons_5_3.py:39-54`, `_create_plot`: the points of a panel, each with its rank, its eigenvalue and the order in its label.
`ValueError` from pandas when there are fewer than `ranks` of them. -/
def orderPoints (evals : List ℝ) (orders : List ℤ) (ranks : ℕ) : Except Err (List (ℕ × ℝ × ℕ)) :=
  let labels := (orders.take ranks).map Int.natAbs
  let y := evals.take ranks
  if y.length = ranks ∧ labels.length = ranks then .ok ((List.range ranks).zip (y.zip labels)) else .error .valueError

end Sleplet.PolarFigures
