import Mathlib.Analysis.SpecialFunctions.Complex.Circle
import Verif.Spec.Legendre
import Verif.Spec.Surface

/-!
Independent vocabulary: associated Legendre functions and spherical harmonics by Rodrigues' formula, integrals over polar
caps.
-/
namespace Sleplet.Spec

open Polynomial

/-- The associated Legendre function with the Condon-Shortley phase by Rodrigues' formula:
`P_l^m(x) = (-1)^m / (2^l l!) · (1 - x²)^{m/2} · (d/dx)^{l+m} (x² - 1)^l`, for `-l ≤ m ≤ l`. -/
noncomputable def assocLegendre (l : ℕ) (m : ℤ) (x : ℝ) : ℝ :=
  (-1) ^ m / (2 ^ l * (l.factorial : ℝ)) * Real.sqrt (1 - x ^ 2) ^ m *
    (derivative^[(l + m).toNat] ((X ^ 2 - 1) ^ l : ℝ[X])).eval x

/-- The spherical harmonic `Y_{lm}(θ, φ) = √((2l+1)/4π · (l-m)!/(l+m)!) P_l^m(cos θ) e^{imφ}`. -/
noncomputable def sphHarm (l : ℕ) (m : ℤ) (th ph : ℝ) : ℂ :=
  ((Real.sqrt ((2 * l + 1) / (4 * Real.pi) * (((l - m).toNat.factorial : ℝ) / ((l + m).toNat.factorial : ℝ))) *
    assocLegendre l m (Real.cos th) : ℝ) : ℂ) * Complex.exp (Complex.I * m * ph)

/-- The integral over the cap `θ ≤ t`, and for a polar gap also over the cap `θ ≥ π - t`. -/
noncomputable def capIntegral (gap : Bool) (t : ℝ) (f : ℝ → ℝ → ℂ) : ℂ :=
  surface 0 t 0 (2 * Real.pi) f + if gap then surface (Real.pi - t) Real.pi 0 (2 * Real.pi) f else 0

end Sleplet.Spec
