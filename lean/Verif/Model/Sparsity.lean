import Verif.Model.PolarFigures
import Verif.Model.SlepianTransform
import Verif.Model.Wavelets

/-!
Figures of sorted coefficients: `examples/polar_cap/slepian_coefficients.py` and
`examples/arbitrary/*/sparsity_wavelet_slepian_comparison_*.py`; and the figure of norms of translated functions,
`examples/misc/translation_normalisation.py`.

Drawing is replaced by the numbers handed to matplotlib and seaborn.  Real numbers replace floats.
-/
namespace Sleplet.Sparsity

open Complex NumPy PolarFigures

open Classical in
/-- `np.sort` of real numbers. -/
noncomputable def sort (xs : List ℝ) : List ℝ := xs.mergeSort fun a b => decide (a ≤ b)

/-- `xs[::-1].sort()`: the reversed view is sorted in place, so the array holds the reverse of the sorted view. -/
noncomputable def sortReversedView (xs : List ℝ) : List ℝ := (sort xs.reverse).reverse

/-- `np.abs`. -/
noncomputable def magnitudes (c : List ℂ) : List ℝ := c.map fun z => ‖z‖

/-- `examples/polar_cap/slepian_coefficients.py:14-23`, `_earth_region_harmonic_coefficients`, given the coefficients of the Earth. -/
noncomputable def harmonicMagnitudes (flm : List ℂ) : List ℝ := sortReversedView (magnitudes flm)

/-- `examples/polar_cap/slepian_coefficients.py:26-36`, `_earth_region_slepian_coefficients`. -/
noncomputable def slepianMagnitudes {L : ℕ} {Pix : Type} [Fintype Pix] (sl : Transform.Slepian (L ^ 2)) (synth : (Fin (L ^ 2) → ℂ) → Pix → ℂ)
    (weight : Pix → ℝ) (flm : Fin (L ^ 2) → ℂ) : Except Err (List ℝ) := do
  let fp ← Transform.slepianForward sl synth weight { flm := some flm } none
  return magnitudes fp

/-- `examples/polar_cap/slepian_coefficients.py:39-53`, `main`: the points of the two curves, Slepian and harmonic. -/
noncomputable def coefficientsFigure {L : ℕ} {Pix : Type} [Fintype Pix] (sl : Transform.Slepian (L ^ 2)) (synth : (Fin (L ^ 2) → ℂ) → Pix → ℂ)
    (weight : Pix → ℝ) (flm : Fin (L ^ 2) → ℂ) : Except Err (List (ℕ × ℝ) × List (ℕ × ℝ)) := do
  let harmonic := (harmonicMagnitudes (List.ofFn flm)).take sl.N
  let fp ← slepianMagnitudes sl synth weight flm
  let a ← line (List.range sl.N) (sort fp).reverse
  let b ← line (List.range sl.N) harmonic
  return (a, b)

/-- `examples/arbitrary/africa/sparsity_wavelet_slepian_comparison_africa.py:31-35` and `:48-52`: the lines, the first without a scale in its label and
the others labelled `j + J_MIN`.  `keep` is the number of coefficients drawn.  South America: the same text. -/
noncomputable def sortedLines (jMin : ℤ) (rows : List (List ℂ)) (keep : Option ℕ) : Except Err (List (Option ℤ × List ℝ)) := do
  let w := rows.map fun r => (sort (magnitudes r)).reverse
  let cut : List ℝ → List ℝ := fun r => match keep with
    | none => r
    | some n => r.take n
  let first ← index w 0
  return (none, cut first) :: w.tail.zipIdx.map fun r => (some (r.2 + jMin), cut r.1)

/-- `examples/arbitrary/africa/sparsity_wavelet_slepian_comparison_africa.py:17-62`: the lines of the figure, given the rows of Slepian and of axisymmetric
wavelet coefficients. -/
noncomputable def sparsityFigure (jMin : ℤ) (slepianRows axisymRows : List (List ℂ)) (shannon : ℕ) :
    Except Err (List (Option ℤ × List ℝ) × List (Option ℤ × List ℝ)) := do
  let a ← sortedLines jMin slepianRows none
  let b ← sortedLines jMin axisymRows (some shannon)
  return (a, b)

/-- `examples/misc/translation_normalisation.py:16-24`: the norms drawn, for the external `ssht.create_ylm(theta, phi, L)`. -/
noncomputable def translationNorms (ylm : ℝ → ℝ → List ℂ) (flm : List ℂ) (alpha : ℝ) (thetas : List ℝ) : Except Err (List ℝ) :=
  thetas.mapM fun theta => do
    let x ← broadcast (· * ·) flm (ylm theta alpha)
    return Real.sqrt ((magnitudes x).map fun a => a ^ 2).sum

/-- `examples/misc/translation_normalisation.py:29`: `np.ceil(norm.max())`, the upper limit of the vertical axis. -/
noncomputable def upperLimit : List ℝ → Except Err ℤ
  | [] => .error .valueError
  | x :: xs => .ok ⌈xs.foldl max x⌉

/-- `examples/misc/translation_normalisation.py:25-29`: the points of the line, in degrees, and the upper limit. -/
noncomputable def translationFigure (ylm : ℝ → ℝ → List ℂ) (flm : List ℂ) (alpha : ℝ) (thetas : List ℝ) : Except Err (List (ℝ × ℝ) × ℤ) := do
  let norm ← translationNorms ylm flm alpha thetas
  let points ← line (thetas.map Py.rad2deg) norm
  let top ← upperLimit norm
  return (points, top)

end Sleplet.Sparsity
