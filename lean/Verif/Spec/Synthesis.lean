import Verif.Spec.Harmonics

namespace Sleplet.Spec

/-- The field with coefficients `c`, stored by degree and then by order: `∑_{l<L} ∑_{|m|≤l} c_lm Y_lm(θ, φ)`. -/
noncomputable def synthesis (L : ℕ) (c : List ℂ) (th ph : ℝ) : ℂ :=
  ∑ l ∈ Finset.range L, ∑ m ∈ Finset.Icc (-(l : ℤ)) l, c.getD ((l : ℤ) ^ 2 + l + m).toNat 0 * sphHarm l m th ph

end Sleplet.Spec
