import Mathlib.Analysis.SpecialFunctions.Trigonometric.Basic
import Mathlib.Analysis.SpecialFunctions.Sqrt
import Verif.Model.DMatrixReal

/-!
Model of the table of Legendre polynomials (`slepian/slepian_polar_cap.py:232-241`) and of the construction of one order's
matrix from it (`:166-230`).
-/
namespace Sleplet.RealMat

/-- NumPy boolean-mask selection `xs[mask]` of one-dimensional arrays; `IndexError` when the lengths differ. -/
def boolSelect (mask : List Bool) (xs : List ℝ) : Except Err (List ℝ) :=
  if mask.length = xs.length then .ok ((mask.zip xs).filterMap fun x => if x.1 then some x.2 else none)
  else .error .indexError

/-- `slepian_polar_cap.py:232-241`, `_create_legendre_polynomials_table(emm)`.  `plm` is the real part of
`ssht.create_ylm(theta_max, 0, 2 * L)` flattened (external).  The product of a `(1, 2L)` array with the selected vector
broadcasts when the vector has length `2L` or one; otherwise NumPy raises `ValueError`.  Simplification: the leading axis of
length one is dropped. -/
noncomputable def legendreTable (L : ℕ) (emm : List ℤ) (plm : List ℝ) : Except Err (List ℝ) := do
  let sel ← boolSelect (emm.map fun m => decide (m = 0)) plm
  let scale := (List.range (2 * L)).map fun ell : ℕ => Real.sqrt (4 * Real.pi / (2 * ell + 1))
  if sel.length = 2 * L then return List.zipWith (· * ·) scale sel
  else match sel with
    | [x] => return scale.map (· * x)
    | _ => .error .valueError

/-- `slepian_polar_cap.py:140-149,166-230`: `_create_Dm_matrix(abs(m), emm)` with the table computed first. -/
def CreatesOrder (L : ℕ) (gap : Bool) (plm : List ℝ) (m : ℤ) (ncpu : ℕ) (we : ℕ → Option Err)
    (r : Except Err Shared) : Prop :=
  match legendreTable L (createEmmVector L) plm with
  | .error e => r = .error e
  | .ok T => CreatesDm L gap (fun n => T.getD n 0) m.natAbs ncpu we r

end Sleplet.RealMat
