import Verif.Model.Region
import Mathlib.Analysis.SpecialFunctions.Log.Base

/-!
The figures of eigenvalues against rank: `examples/polar_cap/eigenvalues.py`, `examples/arbitrary/africa/eigenvalues_africa.py`,
`examples/arbitrary/south_america/eigenvalues_south_america.py`, `examples/arbitrary/eigenvalues_combined.py`,
`examples/mesh/mesh_slepian_eigenvalues.py`.

Simplification: positions of texts, colours and sizes are dropped.
-/
namespace Sleplet.EigenFigure

/-- what the figure shows: the points, the dashed line with its text, and the ticks with their texts. -/
structure Figure where
  points : List (ℕ × ℝ)
  line : ℤ
  text : String
  ticks : List (ℕ × ℕ)

/-- `np.arange(stop, dtype=int)` for a float: the integers from 0, as many as `stop` rounded up. -/
noncomputable def arange (stop : ℝ) : List ℕ := List.range ⌈stop⌉.toNat

/-- `eigenvalues.py:27`: `list(2 ** np.arange(np.log2(n) + 1, dtype=int))`, which are the texts too.  The logarithm of zero is an
infinity, for which `np.arange` raises `ValueError`. -/
noncomputable def ticks (n : ℕ) : Except Err (List (ℕ × ℕ)) :=
  if n = 0 then .error .valueError
  else
    let ts := (arange (Real.logb 2 n + 1)).map fun k => 2 ^ k
    .ok (ts.zip ts)

/-- `eigenvalues.py:15-28` and `eigenvalues_africa.py:14-27`: `n` is `L**2`.  `plt.semilogx` raises `ValueError` when the numbers of ranks
and eigenvalues differ. -/
noncomputable def figure (n : ℕ) (eigenvalues : List ℝ) (N : ℤ) : Except Err Figure :=
  if eigenvalues.length ≠ n then .error .valueError
  else do
    let ts ← ticks n
    return ⟨(List.range n).zip eigenvalues, N, "N=" ++ toString N, ts⟩

/-- `eigenvalues_combined.py:18-39`: one set of points, line and text per region, the same ticks. -/
noncomputable def combined (n : ℕ) (regions : List (List ℝ × ℤ)) : Except Err (List Figure) := regions.mapM fun r => figure n r.1 r.2

/-- `mesh_slepian_eigenvalues.py:23-39`: without ranks, matplotlib counts them from 0; `K` is `mesh.number_basis_functions`. -/
noncomputable def meshFigure (K : ℕ) (eigenvalues : List ℝ) (N : ℤ) : Except Err Figure := do
  let ts ← ticks K
  return ⟨(List.range eigenvalues.length).zip eigenvalues, N, "N=" ++ toString N, ts⟩

end Sleplet.EigenFigure
