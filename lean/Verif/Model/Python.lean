import Mathlib.Analysis.SpecialFunctions.Trigonometric.Basic

/-!
Python built-ins used by the model.
-/
namespace Sleplet.Py

open Classical in
/-- `round(x)`: nearest integer, ties to even. -/
noncomputable def round (x : ℝ) : ℤ :=
  if Int.fract x < 1 / 2 then ⌊x⌋
  else if 1 / 2 < Int.fract x then ⌊x⌋ + 1
  else if Even ⌊x⌋ then ⌊x⌋ else ⌊x⌋ + 1

theorem round_le_add_half (x : ℝ) : (round x : ℝ) ≤ x + 1 / 2 := by
  have h := Int.floor_add_fract x
  unfold round
  split
  · have := Int.fract_nonneg x; linarith
  · rename_i h1
    split
    · push_cast; linarith
    · split
      · have := Int.fract_nonneg x; linarith
      · push_cast; linarith

theorem sub_half_le_round (x : ℝ) : x - 1 / 2 ≤ (round x : ℝ) := by
  have h := Int.floor_add_fract x
  have h2 := Int.fract_lt_one x
  unfold round
  split
  · linarith
  · split
    · push_cast; linarith
    · split
      · linarith
      · push_cast; linarith

@[simp] theorem round_intCast (n : ℤ) : round (n : ℝ) = n := by
  simp [round]

theorem round_mono {x y : ℝ} (h : x ≤ y) : round x ≤ round y := by
  by_contra hlt
  push Not at hlt
  have h1 := round_le_add_half x
  have h2 := sub_half_le_round y
  have h3 : (round y : ℝ) + 1 ≤ round x := by exact_mod_cast hlt
  have hxy : x = y := by linarith
  subst hxy
  exact lt_irrefl _ hlt

theorem round_nonneg {x : ℝ} (h : 0 ≤ x) : 0 ≤ round x := by
  have h0 : round 0 = 0 := by simpa using round_intCast 0
  rw [← h0]
  exact round_mono h

/-- `np.rad2deg`. -/
noncomputable def rad2deg (x : ℝ) : ℝ := x * 180 / Real.pi

/-- `np.deg2rad`. -/
noncomputable def deg2rad (x : ℝ) : ℝ := x * Real.pi / 180

@[simp] theorem rad2deg_deg2rad (x : ℝ) : rad2deg (deg2rad x) = x := by
  unfold rad2deg deg2rad
  field_simp

end Sleplet.Py
