import Mathlib.MeasureTheory.Integral.IntervalIntegral.Basic
import Mathlib.Analysis.SpecialFunctions.Trigonometric.Basic
import Mathlib.Analysis.SpecialFunctions.Sqrt
import Mathlib.Data.Complex.BigOperators

/-!
Independent vocabulary for limited latitude/longitude regions: surface integrals and spherical harmonics expanded with a
table of Wigner-d values at `π/2`.
-/
namespace Sleplet.Spec

open Complex

/-- `∫_{φ₀}^{φ₁} ∫_{θ₀}^{θ₁} f(θ, φ) sin θ dθ dφ`. -/
noncomputable def surface (t0 t1 p0 p1 : ℝ) (f : ℝ → ℝ → ℂ) : ℂ :=
  ∫ ph in p0..p1, ∫ th in t0..t1, f th ph * Real.sin th

/-- `Y_{ℓm}(θ, φ) = √((2ℓ+1)/4π) (-i)^m (∑_{m'} Δ_{m'm} Δ_{m'0} e^{i m' θ}) e^{i m φ}`: the Fourier expansion of a spherical
harmonic, where `Δ ℓ m' m` is the Wigner-d function `d^ℓ_{m'm}` at `π/2`. -/
noncomputable def harmonic (Δ : ℕ → ℤ → ℤ → ℝ) (l : ℕ) (m : ℤ) (th ph : ℝ) : ℂ :=
  (Real.sqrt ((2 * l + 1) / (4 * Real.pi)) : ℂ) * (-I) ^ m *
    (∑ mp ∈ Finset.Icc (-(l : ℤ)) l, ((Δ l mp m * Δ l mp 0 : ℝ) : ℂ) * exp (I * mp * th)) * exp (I * m * ph)

end Sleplet.Spec
