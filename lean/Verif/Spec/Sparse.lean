import Verif.Spec.SlepianField

/-!
Independent vocabulary: distances between fields on the sphere, and arrangement in non-increasing order.
-/
namespace Sleplet.Spec

/-- `∫ |f - g|² dΩ` over the sphere. -/
noncomputable def distSq (f g : ℝ → ℝ → ℂ) : ℝ := (sphereInner (fun th ph => f th ph - g th ph) fun th ph => f th ph - g th ph).re

/-- `∫ |f|² dΩ` over the sphere. -/
noncomputable def totalEnergy (f : ℝ → ℝ → ℂ) : ℝ := (sphereInner f f).re

/-- `ys` are the numbers `xs` in non-increasing order. -/
def Decreasing (ys xs : List ℝ) : Prop := ys.Perm xs ∧ ys.Pairwise (· ≥ ·)

end Sleplet.Spec
