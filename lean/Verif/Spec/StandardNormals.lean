import Mathlib.Probability.Distributions.Gaussian.Real
import Mathlib.Probability.HasLaw
import Mathlib.Probability.Independence.Basic

namespace Sleplet.Spec

open MeasureTheory ProbabilityTheory

/-- Independent standard normal random variables, as `rng.standard_normal()` is meant to produce them. -/
structure StandardNormals {Ω : Type} [MeasurableSpace Ω] (P : Measure Ω) (ξ : ℕ → Ω → ℝ) : Prop where
  measurable : ∀ k, Measurable (ξ k)
  law : ∀ k, HasLaw (ξ k) (gaussianReal 0 1) P
  indep : iIndepFun ξ P

end Sleplet.Spec
