import Mathlib.Analysis.SpecialFunctions.Trigonometric.Basic

/-! Points of space and grids of values, for the figures. -/
namespace Sleplet.Spec

/-- the square of the distance of two points. -/
def distSq3 (u v : ℝ × ℝ × ℝ) : ℝ := (u.1 - v.1) ^ 2 + (u.2.1 - v.2.1) ^ 2 + (u.2.2 - v.2.2) ^ 2

/-- the signed volume spanned by three vectors. -/
def det3 (u v w : ℝ × ℝ × ℝ) : ℝ :=
  u.1 * (v.2.1 * w.2.2 - v.2.2 * w.2.1) - u.2.1 * (v.1 * w.2.2 - v.2.2 * w.1) + u.2.2 * (v.1 * w.2.1 - v.2.1 * w.1)

/-- the unit vector with colatitude `th` and longitude `ph`. -/
noncomputable def unit (th ph : ℝ) : ℝ × ℝ × ℝ := (Real.sin th * Real.cos ph, Real.sin th * Real.sin ph, Real.cos th)

/-- the entry in row `t` and column `p`. -/
def entry {α : Type} (xs : List (List α)) (t p : ℕ) : Option α := xs[t]?.bind fun r => r[p]?

/-- the array with `a` rows, `b` columns and the entries `F t p`. -/
def grid {α : Type} (a b : ℕ) (F : ℕ → ℕ → α) : List (List α) := (List.range a).map fun t => (List.range b).map (F t)

end Sleplet.Spec
