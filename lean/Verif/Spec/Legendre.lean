import Mathlib.Algebra.Polynomial.Derivative
import Mathlib.Analysis.SpecialFunctions.Trigonometric.Basic
import Mathlib.Analysis.SpecialFunctions.Pow.Real
import Mathlib.Data.Nat.Factorial.Basic

namespace Sleplet.Spec

open Polynomial

/-- The associated Legendre function at the equator by Rodrigues' formula with the Condon-Shortley phase:
`P_l^s(0) = (-1)^s / (2^l l!) · (d/dx)^{l+s} (x² - 1)^l` at `x = 0`, for `-l ≤ s ≤ l`. -/
noncomputable def legendreAtEquator (l : ℕ) (s : ℤ) : ℝ :=
  (-1) ^ s / (2 ^ l * (l.factorial : ℝ)) * (derivative^[(l + s).toNat] ((X ^ 2 - 1) ^ l : ℝ[X])).eval 0

/-- The spin-`s` harmonic of degree `l` and order 0 on the equator:
`(-1)^s √((2l+1)/4π · (l-s)!/(l+s)!) P_l^s(0)`. -/
noncomputable def spinHarmonicAtEquator (l : ℕ) (s : ℤ) : ℝ :=
  (-1) ^ s * Real.sqrt ((2 * l + 1) / (4 * Real.pi) * (((l - s).toNat.factorial : ℝ) / ((l + s).toNat.factorial : ℝ))) *
    legendreAtEquator l s

end Sleplet.Spec
