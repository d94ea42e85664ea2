import Mathlib.Analysis.SpecialFunctions.Trigonometric.Inverse
import Verif.Spec.Synthesis

/-!
Independent vocabulary: integrals over the whole sphere, the angle between two points, translation of a field.
-/
namespace Sleplet.Spec

/-- `∫ f(ω) g(ω)^* dΩ` over the whole sphere. -/
noncomputable def sphereInner (f g : ℝ → ℝ → ℂ) : ℂ :=
  surface 0 Real.pi 0 (2 * Real.pi) fun th ph => f th ph * (starRingEnd ℂ) (g th ph)

/-- The fields of bandlimit `L`: the sums of spherical harmonics of degrees below `L`. -/
def bandlimited (L : ℕ) : Set (ℝ → ℝ → ℂ) := {f | ∃ c : List ℂ, f = synthesis L c}

/-- The angle between the points `(θ, φ)` and `(θ', φ')` of the sphere. -/
noncomputable def angle (th ph th' ph' : ℝ) : ℝ :=
  Real.arccos (Real.cos th * Real.cos th' + Real.sin th * Real.sin th' * Real.cos (ph - ph'))

/-- The axisymmetric field `f` moved from the north pole to the point `(θ, φ)`: at each point its value is that of `f` at the
same angle from the north pole. -/
noncomputable def centredAt (f : ℝ → ℝ → ℂ) (th ph : ℝ) : ℝ → ℝ → ℂ := fun th' ph' => f (angle th ph th' ph') 0

/-- The translation of a bandlimited field to the point `(θ', φ')` used in the sifting convolution, which takes `Y_lm` to
`Y_lm(θ', φ') Y_lm`. -/
noncomputable def translated (L : ℕ) (c : List ℂ) (th' ph' : ℝ) : ℝ → ℝ → ℂ := fun th ph =>
  ∑ l ∈ Finset.range L, ∑ m ∈ Finset.Icc (-(l : ℤ)) l,
    c.getD ((l : ℤ) ^ 2 + l + m).toNat 0 * (sphHarm l m th' ph' * sphHarm l m th ph)

end Sleplet.Spec
