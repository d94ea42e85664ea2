import Mathlib.Analysis.SpecialFunctions.SmoothTransition
import Mathlib.MeasureTheory.Integral.IntervalIntegral.Basic
import Mathlib.Data.Nat.Log
import Mathlib.Data.Complex.Basic
import Verif.Model.NumPy

/-!
The wavelet generating functions of S2LET, as `pys2let.axisym_wav_l` and `pys2let.pys2let_j_max` compute them, and `create_kappas`.

S2LET is an external library: the definitions of the first part are not in the repository.  They follow its documentation and C source
(`s2let_tiling.c`: `s2let_tiling_phi2_s2dw`, `s2let_tiling_axisym`; `s2let_j_max`).  Integrals are exact and real numbers replace floats.
-/
namespace Sleplet.Tiling

/-- the infinitely smooth bump `exp(-1/(1-t²))` on `(-1, 1)`, zero elsewhere. -/
noncomputable def schwartz (t : ℝ) : ℝ := expNegInvGlue (1 - t ^ 2)

/-- the bump moved to `(1/B, 1)`. -/
noncomputable def bump (B : ℕ) (t : ℝ) : ℝ := schwartz (2 * B / (B - 1) * (t - 1 / B) - 1)

/-- the integrand of S2LET's `f_s2dw`. -/
noncomputable def density (B : ℕ) (u : ℝ) : ℝ := bump B u ^ 2 / u

/-- the smooth step from 1 at `1/B` to 0 at 1. -/
noncomputable def step (B : ℕ) (t : ℝ) : ℝ := (∫ u in t..1, density B u) / ∫ u in (1 / (B : ℝ))..1, density B u

open Classical in
/-- `s2let_tiling_phi2_s2dw`: the squared scaling function of scale `j` at degree `l`. -/
noncomputable def phi2 (B j l : ℕ) : ℝ :=
  if (l : ℝ) < (B : ℝ) ^ j / B then 1 else if (B : ℝ) ^ j < l then 0 else step B (l / (B : ℝ) ^ j)

/-- `s2let_j_max`: `ceil(log(L) / log(B))`. -/
def jMax (B xlim : ℕ) : ℕ := Nat.clog B xlim

/-- `s2let_tiling_axisym`: the scaling function at the degrees below `xlim`. -/
noncomputable def kappa0 (B xlim jMin : ℕ) : List ℝ := (List.range xlim).map fun l => Real.sqrt (phi2 B jMin l)

/-- `s2let_tiling_axisym`: the wavelet of scale `j` at the degrees below `xlim`. -/
noncomputable def kappa (B xlim j : ℕ) : List ℝ := (List.range xlim).map fun l => Real.sqrt (phi2 B (j + 1) l - phi2 B j l)

/-- `pys2let.axisym_wav_l`: the wavelets of the scales `jMin, …, jMax`. -/
noncomputable def wavelets (B xlim jMin : ℕ) : List (List ℝ) :=
  (List.range (jMax B xlim + 1 - jMin)).map fun i => kappa B xlim (jMin + i)

/-- `wavelet_methods.py:132-145`, `create_kappas`: the scaling function and the wavelets as rows of one array. -/
noncomputable def createKappas (xlim B jMin : ℕ) : List (List ℝ) := kappa0 B xlim jMin :: wavelets B xlim jMin

/-- The rows as complex numbers, as `slepian_wavelet_forward` meets them (`functions/slepian_wavelet_coefficients_africa.py:70-84`). -/
noncomputable def complexKappas (xlim B jMin : ℕ) : NumPy.Array2 ℂ := ⟨xlim, (createKappas xlim B jMin).map fun r => r.map fun x : ℝ => (x : ℂ)⟩

end Sleplet.Tiling
