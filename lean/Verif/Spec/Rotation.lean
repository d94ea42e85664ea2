import Mathlib.Analysis.SpecialFunctions.Trigonometric.Basic
import Verif.Spec.Synthesis

/-!
Independent vocabulary: rotations of space and of fields on the sphere.
-/
namespace Sleplet.Spec

/-- A vector of space. -/
abbrev Vec := ℝ × ℝ × ℝ

/-- The point of the unit sphere with colatitude `θ` and longitude `φ`. -/
noncomputable def point (th ph : ℝ) : Vec := (Real.sin th * Real.cos ph, Real.sin th * Real.sin ph, Real.cos th)

/-- The rotation about the axis of the poles by the angle `a`. -/
noncomputable def rotZ (a : ℝ) (v : Vec) : Vec :=
  (v.1 * Real.cos a - v.2.1 * Real.sin a, v.1 * Real.sin a + v.2.1 * Real.cos a, v.2.2)

/-- The rotation about the second axis of the equator by the angle `b`, which takes the north pole towards the meridian 0. -/
noncomputable def rotY (b : ℝ) (v : Vec) : Vec :=
  (v.1 * Real.cos b + v.2.2 * Real.sin b, v.2.1, -v.1 * Real.sin b + v.2.2 * Real.cos b)

/-- The rotation with Euler angles `(α, β, γ)` (z-y-z). -/
noncomputable def euler (a b c : ℝ) (v : Vec) : Vec := rotZ a (rotY b (rotZ c v))

/-- The field `g` is the field `f` moved by the rotation `R`: at the point a point is taken to, `g` has the value of `f` at the
point. -/
def IsMoved (R : Vec → Vec) (f g : ℝ → ℝ → ℂ) : Prop := ∀ th ∈ Set.Icc 0 Real.pi, ∀ ph, ∀ th' ∈ Set.Icc 0 Real.pi, ∀ ph',
  point th' ph' = R (point th ph) → g th' ph' = f th ph

/-- What a rotation of coefficients with Euler angles is to do: the field of the result is the field of the input moved. -/
def RotatesFields (rotate : ℕ → List ℂ → ℝ → ℝ → ℝ → List ℂ) : Prop := ∀ (L : ℕ) (c : List ℂ) (alpha beta gamma : ℝ), c.length = L ^ 2 →
  (rotate L c alpha beta gamma).length = L ^ 2 ∧
    IsMoved (euler alpha beta gamma) (synthesis L c) (synthesis L (rotate L c alpha beta gamma))

end Sleplet.Spec
