import Mathlib.Analysis.SpecialFunctions.Exp
import Mathlib.Analysis.Real.Pi.Bounds
import Verif.Model.Plot

/-!
Two small figures: the region of a mesh, `examples/mesh/mesh_region.py`, and the Ricker wavelets, `examples/misc/wavelet_transform.py`.
Real numbers replace floats.
-/
namespace Sleplet.SmallFigures

open Plot

/-- `mesh_region.py:17-27`: 1 at the vertices of the region and 0 elsewhere, shown by `PlotMesh` with its defaults (normalised) and restricted to the region.
The file name of the figure goes through C63. -/
noncomputable def regionFigure (faces : List (ℕ × ℕ × ℕ)) (region : List Bool) : Except Err (Option (List ℝ × ℝ × ℝ)) :=
  executeMesh { faces := faces, meshRegion := region, region := true } (region.map fun b => if b then 1 else 0)

/-- `np.arange(start, stop, step)`. -/
noncomputable def arange (start stop step : ℝ) : List ℝ := (List.range ⌈(stop - start) / step⌉.toNat).map fun k : ℕ => start + k * step

/-- `wavelet_transform.py:29-34`, `_ricker`, with the constants `LENGTH` and `DELTA_T` as arguments. -/
noncomputable def ricker (length dt freq : ℝ) : List ℝ :=
  (arange (-length / 2) ((length - dt) / 2) dt).map fun t =>
    (1 - 2 * Real.pi ^ 2 * freq ^ 2 * t ^ 2) * Real.exp (-Real.pi ^ 2 * freq ^ 2 * t ^ 2)

/-- the assignment to a slice of `size` entries: the block must have as many, or one. -/
def assignSlice (size : ℕ) (block : List ℝ) : Except Err (List ℝ) :=
  if block.length = size then .ok block
  else match block with
    | [x] => .ok (List.replicate size x)
    | _ => .error .valueError

/-- `wavelet_transform.py:13-18`: the plotted ordinates.  The slices do not overlap and cover the array, which is hence the blocks one after the other. -/
noncomputable def rickerFigure (length dt : ℝ) (frequencies : List ℝ) : Except Err (List ℝ) := do
  let size := ⌊length / dt⌋.toNat
  let blocks ← frequencies.mapM fun f => assignSlice size (ricker length dt f)
  return blocks.flatten

end Sleplet.SmallFigures
