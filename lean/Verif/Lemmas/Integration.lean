import Mathlib.Analysis.SpecialFunctions.Trigonometric.Bounds
import Mathlib.Analysis.Real.Pi.Bounds
import Mathlib.Algebra.BigOperators.Fin
import Mathlib.Tactic.FieldSimp
import Mathlib.Tactic.Linarith
import Verif.Model.Integration

/-!
Integration weights: step widths, the total of the weights, bounds on `x cot x`.
-/
namespace Sleplet.Integration

open Real

/-! ### step widths -/

theorem ediff1d_progression (c : ℝ) (n : ℕ) :
    ediff1d ((List.range (n + 1)).map fun k : ℕ => (k : ℝ) * c) = List.replicate n c := by
  apply List.ext_getElem
  · simp [ediff1d]
  · intro i h1 h2
    simp only [ediff1d, List.getElem_zipWith, List.getElem_map, List.getElem_range, List.getElem_tail, List.getElem_replicate]
    push_cast; ring

theorem mean_replicate (c : ℝ) {n : ℕ} (h : 0 < n) : mean (List.replicate n c) = c := by
  have : (n : ℝ) ≠ 0 := by positivity
  simp [mean, this]

theorem mean_ediff_thetas {L : ℕ} (h : 1 ≤ L) : mean (ediff1d (thetas L)) = π / L := by
  have e : thetas L = (List.range (L + 1)).map fun k : ℕ => (k : ℝ) * (π / L) := by
    unfold thetas; congr 1; funext k
    have : (L : ℝ) ≠ 0 := by positivity
    field_simp
  rw [e, ediff1d_progression, mean_replicate _ h]

theorem mean_ediff_phis {L : ℕ} (h : 1 ≤ L) : mean (ediff1d (phis L)) = π / L := by
  have e : phis L = (List.range ((2 * L - 1) + 1)).map fun k : ℕ => (k : ℝ) * (π / L) := by
    unfold phis; rw [show 2 * L - 1 + 1 = 2 * L by omega]; congr 1; funext k
    have : (L : ℝ) ≠ 0 := by positivity
    field_simp
  rw [e, ediff1d_progression, mean_replicate _ (by omega)]

theorem theta_eq {L : ℕ} (h : 1 ≤ L) (x : Grid L) : theta x = (x.1 : ℕ) * (π / L) := by
  have hx := x.1.isLt
  have : (L : ℝ) ≠ 0 := by positivity
  simp only [theta, thetas, List.getD_eq_getElem?_getD, List.getElem?_map, List.getElem?_range hx, Option.map_some,
    Option.getD_some]
  field_simp

theorem weight_eq {L : ℕ} (h : 1 ≤ L) (x : Grid L) :
    weight L x = sin ((x.1 : ℕ) * (π / L)) * (π / L) * (π / L) := by
  rw [weight, mean_ediff_thetas h, mean_ediff_phis h, theta_eq h]

theorem weight_nonneg {L : ℕ} (h : 1 ≤ L) (x : Grid L) : 0 ≤ weight L x := by
  have hL : (0 : ℝ) < L := by positivity
  have hx : ((x.1 : ℕ) : ℝ) ≤ L := by exact_mod_cast Nat.lt_succ_iff.mp x.1.isLt
  rw [weight_eq h]
  have h0 : 0 ≤ π / L := by positivity
  refine mul_nonneg (mul_nonneg (sin_nonneg_of_nonneg_of_le_pi (by positivity) ?_) h0) h0
  calc ((x.1 : ℕ) : ℝ) * (π / L) ≤ L * (π / L) := by gcongr
    _ = π := by field_simp

/-! ### total -/

/-- telescoping: `2 sin (y) ∑_{t<n} sin (2 t y) = cos y - cos ((2 n - 1) y)`. -/
theorem two_sin_mul_sum (y : ℝ) (n : ℕ) :
    2 * sin y * ∑ t ∈ Finset.range n, sin (2 * t * y) = cos y - cos ((2 * n - 1) * y) := by
  induction n with
  | zero => simp
  | succ n ih =>
    rw [Finset.sum_range_succ, mul_add, ih]
    have e1 : (2 * ((n + 1 : ℕ) : ℝ) - 1) * y = 2 * n * y + y := by push_cast; ring
    have e2 : (2 * (n : ℝ) - 1) * y = 2 * n * y - y := by ring
    rw [e1, e2, cos_add, cos_sub]; ring

theorem sum_sin {L : ℕ} (h : 1 ≤ L) :
    ∑ t ∈ Finset.range (L + 1), sin ((t : ℝ) * (π / L)) = cos (π / (2 * L)) / sin (π / (2 * L)) := by
  have hL : (1 : ℝ) ≤ L := by exact_mod_cast h
  have hs : 0 < sin (π / (2 * L)) := by
    apply sin_pos_of_pos_of_lt_pi (by positivity)
    rw [div_lt_iff₀ (by positivity)]
    nlinarith [pi_pos]
  have k := two_sin_mul_sum (π / (2 * L)) (L + 1)
  have e : (2 * ((L + 1 : ℕ) : ℝ) - 1) * (π / (2 * L)) = π / (2 * L) + π := by
    push_cast; field_simp; ring
  rw [e, cos_add_pi] at k
  have e2 : ∀ t ∈ Finset.range (L + 1), sin ((t : ℝ) * (π / L)) = sin (2 * t * (π / (2 * L))) := by
    intro t _; congr 1; field_simp
  rw [Finset.sum_congr rfl e2, eq_div_iff hs.ne']
  linarith

theorem sum_weight {L : ℕ} (h : 1 ≤ L) :
    ∑ x : Grid L, weight L x = 4 * π * (π / (2 * L) * (cos (π / (2 * L)) / sin (π / (2 * L)))) := by
  have hL : (0 : ℝ) < L := by positivity
  rw [Fintype.sum_prod_type]
  simp only [weight_eq h, Finset.sum_const, Finset.card_univ, Fintype.card_fin, nsmul_eq_mul]
  rw [← sum_sin h, Finset.sum_range (fun t => sin ((t : ℝ) * (π / L)))]
  simp only [Finset.mul_sum]
  refine Finset.sum_congr rfl fun t _ => ?_
  push_cast
  field_simp
  ring

/-! ### `y cot y` -/

theorem cot_lt {y : ℝ} (h0 : 0 < y) (h1 : y ≤ π / 2) : y * (cos y / sin y) < 1 := by
  have hs : 0 < sin y := sin_pos_of_pos_of_lt_pi h0 (by linarith [pi_pos])
  rw [← mul_div_assoc, div_lt_one hs]
  rcases h1.lt_or_eq with h1 | h1
  · have hc : 0 < cos y := cos_pos_of_mem_Ioo ⟨by linarith [pi_pos], h1⟩
    have := lt_tan h0 h1
    rw [tan_eq_sin_div_cos, lt_div_iff₀ hc] at this
    exact this
  · rw [h1, cos_pi_div_two, sin_pi_div_two]; norm_num

theorem cot_nonneg {y : ℝ} (h0 : 0 < y) (h1 : y ≤ π / 2) : 0 ≤ y * (cos y / sin y) := by
  have hs : 0 < sin y := sin_pos_of_pos_of_lt_pi h0 (by linarith [pi_pos])
  have hc : 0 ≤ cos y := cos_nonneg_of_neg_pi_div_two_le_of_le (by linarith [pi_pos]) h1
  positivity

/-- `1 - y²/2 < y cot y` on `(0, π/4]`. -/
theorem one_sub_lt_cot {y : ℝ} (h0 : 0 < y) (h1 : y ≤ π / 4) : 1 - y ^ 2 / 2 < y * (cos y / sin y) := by
  have hp := pi_lt_d2
  have hy1 : y < 4 / 5 := by linarith
  have hs : 0 < sin y := sin_pos_of_pos_of_lt_pi h0 (by linarith [pi_pos])
  have h3 := one_sub_sq_div_two_le_cos (x := y)
  have h4 : sin y < y := sin_lt h0
  rw [← mul_div_assoc, lt_div_iff₀ hs]
  have h5 : 0 < 1 - y ^ 2 / 2 := by nlinarith
  nlinarith

end Sleplet.Integration
