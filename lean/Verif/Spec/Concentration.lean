import Mathlib.Data.Complex.BigOperators
import Verif.Model.HarmonicIndex

/-!
Independent specification of concentration matrices: a discrete region integral of products of fields.
-/
namespace Sleplet.Spec

/-- `∑_p f(p) · conj(g(p)) · w(p) · mask(p)`: the region inner product that a concentration matrix entry is. -/
noncomputable def regionInner {Pix : Type} [Fintype Pix] (w mask : Pix → ℝ) (f g : Pix → ℂ) : ℂ :=
  ∑ p, f p * (starRingEnd ℂ) (g p) * (w p : ℂ) * (mask p : ℂ)

/-- The conjugation symmetry of the spherical harmonics sampled on a grid:
`Y_{ℓ,-m} = (-1)^m conj(Y_{ℓ,m})` for every degree below `L`. -/
def ConjSymmetric {Pix : Type} (L : ℕ) (Y : ℕ → Pix → ℂ) : Prop :=
  ∀ (l : ℕ) (m : ℤ), l < L → |m| ≤ l → ∀ p, Y (elm2ind l (-m)) p = (-1 : ℂ) ^ m * (starRingEnd ℂ) (Y (elm2ind l m) p)

end Sleplet.Spec
