import Mathlib.Data.Sign.Basic
import Verif.Model.EigenvalueFigure
import Verif.Model.Tiling

/-!
The figures of wavelet generating functions: `examples/wavelets/axisymmetric_tiling.py`, `examples/arbitrary/africa/tiling_africa.py`,
`examples/arbitrary/south_america/tiling_south_america.py`, `examples/mesh/mesh_tiling.py`.

Real numbers replace floats.  Simplification: positions of texts, colours and the legend's place are dropped.
-/
namespace Sleplet.TilingFigure

open NumPy

/-! ### the interpolation -/

/-- `scipy.interpolate.pchip` (external, after `_cubic.py` of SciPy), slope number `k` of values at the integers. -/
def slope (ys : List ℝ) (k : ℕ) : ℝ := ys.getD (k + 1) 0 - ys.getD k 0

open Classical in
/-- the derivative at an inner node: the harmonic mean of the slopes, or zero when they differ in sign or vanish. -/
noncomputable def inner (a b : ℝ) : ℝ :=
  if SignType.sign a ≠ SignType.sign b ∨ a = 0 ∨ b = 0 then 0 else 2 * a * b / (a + b)

open Classical in
/-- the derivative at an end, from the next two slopes. -/
noncomputable def edge (a b : ℝ) : ℝ :=
  let d := (3 * a - b) / 2
  if SignType.sign d ≠ SignType.sign a then 0
  else if SignType.sign a ≠ SignType.sign b ∧ 3 * |a| < |d| then 3 * a
  else d

/-- the derivative at node `k`. -/
noncomputable def deriv (ys : List ℝ) (k : ℕ) : ℝ :=
  if ys.length = 2 then slope ys 0
  else if k = 0 then edge (slope ys 0) (slope ys 1)
  else if k + 1 = ys.length then edge (slope ys (k - 1)) (slope ys (k - 2))
  else inner (slope ys (k - 1)) (slope ys k)

/-- the cubic with values `a`, `b` and derivatives `c`, `d` at 0 and 1. -/
def hermite (a b c d s : ℝ) : ℝ :=
  (1 - s) ^ 2 * (1 + 2 * s) * a + s ^ 2 * (3 - 2 * s) * b + s * (1 - s) ^ 2 * c - s ^ 2 * (1 - s) * d

/-- the interpolation of values at the integers from 0: `ValueError` for less than two values; outside the nodes the first and last cubic go on. -/
noncomputable def pchip (ys : List ℝ) : Except Err (ℝ → ℝ) :=
  if ys.length < 2 then .error .valueError
  else .ok fun x =>
    let k := min ⌊x⌋.toNat (ys.length - 2)
    hermite (ys.getD k 0) (ys.getD (k + 1) 0) (deriv ys k) (deriv ys (k + 1)) (x - k)

/-! ### the figure -/

/-- `np.arange(0, stop, step)`. -/
noncomputable def arange (stop step : ℝ) : List ℝ := (List.range ⌈stop / step⌉.toNat).map fun k : ℕ => k * step

/-- `STEP` (`axisymmetric_tiling.py:13`). -/
noncomputable def step : ℝ := 1 / 100

/-- what a figure shows: the labelled curves, the dashed line with its text, the limits of the horizontal axis, and the ticks. -/
structure Figure where
  curves : List (String × List (ℝ × ℝ))
  line : Option (ℤ × String)
  left : ℝ
  right : ℝ
  ticks : List (ℕ × ℕ)

/-- the points of one curve, `axisymmetric_tiling.py:22-23,25-26`. -/
noncomputable def curve (xi : List ℝ) (kappa : List ℝ) : Except Err (List (ℝ × ℝ)) := do
  let yi ← pchip kappa
  return xi.map fun x => (x, yi x)

/-- `plt.xlim(1, xlim)` and `plt.xticks(ticks, ticks)`: matplotlib widens the axis until it holds all ticks. -/
def widen (xlim : ℝ) (ticks : List (ℕ × ℕ)) : ℝ × ℝ :=
  ticks.foldl (fun (lr : ℝ × ℝ) (t : ℕ × ℕ) => (min lr.1 (t.1 : ℝ), max lr.2 (t.1 : ℝ))) (1, xlim)

/-- `axisymmetric_tiling.py:16-31` (`sub` is `{\ell0}`, no line), `tiling_africa.py:16-40` (`sub` is `p`, `xlim` is `L**2`, line at the Shannon number), and
`mesh_tiling.py:26-65` (`xlim` is the number of basis functions).  The Shannon number is computed after the curves; here it is given. -/
noncomputable def figure (xlim B jMin : ℕ) (sub : String) (N : Option ℤ) : Except Err Figure := do
  let xi := arange ((xlim : ℝ) - 1 + step) step
  let kappas := Tiling.createKappas xlim B jMin
  let k0 ← item kappas 0
  let scaling ← curve xi k0
  let wavelets ← kappas.tail.zipIdx.mapM fun kj => do
    let c ← curve xi kj.1
    return ("$\\Psi^{" ++ toString (kj.2 + jMin) ++ "}_" ++ sub ++ "$", c)
  let ticks ← EigenFigure.ticks xlim
  let (l, r) := widen xlim ticks
  return ⟨("$\\Phi_" ++ sub ++ "$", scaling) :: wavelets, N.map fun n => (n, "N=" ++ toString n), l, r, ticks⟩

end Sleplet.TilingFigure
