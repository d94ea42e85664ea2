import Mathlib.Analysis.SpecialFunctions.Exp
import Mathlib.MeasureTheory.Integral.IntervalIntegral.Basic

/-!
The curve between 1 and 0 from which the wavelets of S2LET are made (Leistedt et al. 2013, equations 6 to 8), written out.
-/
namespace Sleplet.Spec

/-- the square of the bump `exp(-1/(1-s²))` with `s` going from -1 to 1 as `u` goes from `1/B` to 1, over `u`. -/
noncomputable def falloffDensity (B : ℕ) (u : ℝ) : ℝ :=
  Real.exp (-2 / (1 - (2 * B / (B - 1) * (u - 1 / B) - 1) ^ 2)) / u

open Classical in
/-- 1 up to `1/B`, 0 from 1 on, and between them the part of the integral that is still to come. -/
noncomputable def falloff (B : ℕ) (t : ℝ) : ℝ :=
  if t ≤ 1 / B then 1 else if 1 ≤ t then 0 else (∫ u in t..1, falloffDensity B u) / ∫ u in (1 / (B : ℝ))..1, falloffDensity B u

end Sleplet.Spec
