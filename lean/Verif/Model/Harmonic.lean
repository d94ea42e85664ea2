import Mathlib.Data.Complex.Basic
import Mathlib.Data.List.GetD
import Verif.Model.HarmonicIndex

/-!
Harmonic-space helpers: `harmonic_methods.py:23-67`.
-/
namespace Sleplet

/-- `harmonic_methods.py:23-27`, `_create_spherical_harmonic(L, ind)`: `flm[ind] = 1` on `L²` zeros.
`IndexError` past the end.  Simplification: negative indices are not modelled (no caller passes one). -/
noncomputable def createSphericalHarmonic (L ind : ℕ) : Except Err (List ℂ) :=
  if ind < L ^ 2 then .ok ((List.replicate (L ^ 2) (0 : ℂ)).set ind 1) else .error .indexError

/-- `harmonic_methods.py:30-35`, `_boost_coefficient_resolution(flm, boost)`: `np.pad(flm, (0, boost), "constant")`,
which raises `ValueError` for a negative width. -/
noncomputable def boostCoefficientResolution (flm : List ℂ) (boost : ℤ) : Except Err (List ℂ) :=
  if boost < 0 then .error .valueError else .ok (flm ++ List.replicate boost.toNat 0)

/-- `harmonic_methods.py:38-67`, `invert_flm_boosted`: pad to `resolution²` coefficients, then the (external)
`ssht.inverse` at that bandlimit. -/
noncomputable def invertFlmBoosted {F : Type} (inverse : ℕ → List ℂ → F) (flm : List ℂ) (L resolution : ℕ) : Except Err F := do
  let padded ← boostCoefficientResolution flm ((resolution : ℤ) ^ 2 - (L : ℤ) ^ 2)
  return inverse resolution padded

end Sleplet
