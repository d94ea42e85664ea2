import Mathlib.Analysis.Complex.Norm
import Verif.Model.SlepianTransform

/-!
The figure of the errors of the Slepian coefficients: `examples/polar_cap/slepian_error.py`.

Fields live on a grid `Pix`; the inverse transform `synth`, the quadrature weights and the Slepian object are given.
-/
namespace Sleplet.ErrorFigure

open Transform

open Classical in
/-- one entry of `slepian_error.py:62,77`: `np.abs(output - desired) / desired`, where both are magnitudes (lines 60-61, 73-76).  `none` is the
nan or infinity that NumPy gives for a division by zero. -/
noncomputable def ratio (output desired : ℂ) : Option ℝ :=
  if ‖desired‖ = 0 then none else some (|‖output‖ - ‖desired‖| / ‖desired‖)

/-- `slepian_error.py:52-62`, `_helper_sphere` (without a mask), and `slepian_error.py:65-77`, `_helper_region` (with one). -/
noncomputable def errors {L : ℕ} {Pix : Type} [Fintype Pix] (sl : Slepian (L ^ 2)) (synth : (Fin (L ^ 2) → ℂ) → Pix → ℂ) (w : Pix → ℝ)
    (mask : Option (Pix → ℝ)) (f : Pix → ℂ) (flm : Fin (L ^ 2) → ℂ) : Except Err (List (Option ℝ)) := do
  let output ← slepianForward sl synth w { f := some f, mask := mask } none
  let desired ← slepianForward sl synth w { flm := some flm } none
  NumPy.broadcast ratio output desired

/-- the dots of the two series; a dot with ordinate `none` is not drawn. -/
structure Figure where
  region : List (ℕ × Option ℝ)
  sphere : List (ℕ × Option ℝ)

/-- `slepian_error.py:18-41`: the field of the coefficients, the two series, and the ranks below the Shannon number.  Simplification: axes and
markers are dropped. -/
noncomputable def figure {L : ℕ} {Pix : Type} [Fintype Pix] (sl : Slepian (L ^ 2)) (synth : (Fin (L ^ 2) → ℂ) → Pix → ℂ) (w : Pix → ℝ)
    (mask : Pix → ℝ) (flm : Fin (L ^ 2) → ℂ) : Except Err Figure := do
  let field := synth flm
  let region ← errors sl synth w (some mask) field flm
  let sphere ← errors sl synth w none field flm
  return ⟨(List.range sl.N).zip region, (List.range sl.N).zip sphere⟩

end Sleplet.ErrorFigure
