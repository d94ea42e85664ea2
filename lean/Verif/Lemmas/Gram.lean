import Mathlib.Analysis.Complex.Norm
import Mathlib.Algebra.BigOperators.Field
import Mathlib.Data.Complex.BigOperators
import Mathlib.Tactic.LinearCombination

/-!
Functions that are orthogonal for a weighted sum over samples: coefficients, Pythagoras and best approximation.
-/
namespace Sleplet.Gram

open Complex

variable {Pix : Type} [Fintype Pix] {N : ℕ}

private theorem norm_sq_cast (z : ℂ) : ((‖z‖ ^ 2 : ℝ) : ℂ) = z * (starRingEnd ℂ) z := by
  rw [mul_conj, normSq_eq_norm_sq]

theorem energy_eq {μ : Pix → ℝ} {s : Fin N → Pix → ℂ} {e : Fin N → ℝ}
    (hG : ∀ p q : Fin N, ∑ x, s p x * (starRingEnd ℂ) (s q x) * (μ x : ℂ) = if p = q then (e p : ℂ) else 0) (c : Fin N → ℂ) :
    ∑ x, μ x * ‖∑ p, c p * s p x‖ ^ 2 = ∑ p, e p * ‖c p‖ ^ 2 := by
  have h : ((∑ x, μ x * ‖∑ p, c p * s p x‖ ^ 2 : ℝ) : ℂ) = ((∑ p, e p * ‖c p‖ ^ 2 : ℝ) : ℂ) := by
    calc ((∑ x, μ x * ‖∑ p, c p * s p x‖ ^ 2 : ℝ) : ℂ)
        = ∑ x, ∑ p, ∑ q, c p * (starRingEnd ℂ) (c q) * (s p x * (starRingEnd ℂ) (s q x) * (μ x : ℂ)) := by
          rw [ofReal_sum]
          refine Finset.sum_congr rfl fun x _ => ?_
          rw [ofReal_mul, norm_sq_cast, map_sum, Finset.sum_mul_sum, Finset.mul_sum]
          refine Finset.sum_congr rfl fun p _ => ?_
          rw [Finset.mul_sum]
          exact Finset.sum_congr rfl fun q _ => by rw [map_mul]; ring
      _ = ∑ p, ∑ q, c p * (starRingEnd ℂ) (c q) * ∑ x, s p x * (starRingEnd ℂ) (s q x) * (μ x : ℂ) := by
          rw [Finset.sum_comm]
          refine Finset.sum_congr rfl fun p _ => ?_
          rw [Finset.sum_comm]
          exact Finset.sum_congr rfl fun q _ => by rw [Finset.mul_sum]
      _ = ((∑ p, e p * ‖c p‖ ^ 2 : ℝ) : ℂ) := by
          rw [ofReal_sum]
          refine Finset.sum_congr rfl fun p _ => ?_
          simp only [hG, mul_ite, mul_zero, Finset.sum_ite_eq, Finset.mem_univ, if_true]
          rw [ofReal_mul, norm_sq_cast]
          ring
  exact_mod_cast h

theorem pythagoras {μ : Pix → ℝ} {s : Fin N → Pix → ℂ} {r : Pix → ℂ}
    (h0 : ∀ p, ∑ x, r x * (starRingEnd ℂ) (s p x) * (μ x : ℂ) = 0) (c : Fin N → ℂ) :
    ∑ x, μ x * ‖r x + ∑ p, c p * s p x‖ ^ 2 = ∑ x, μ x * ‖r x‖ ^ 2 + ∑ x, μ x * ‖∑ p, c p * s p x‖ ^ 2 := by
  have h1 : ∑ x, r x * (starRingEnd ℂ) (∑ p, c p * s p x) * (μ x : ℂ) = 0 := by
    calc ∑ x, r x * (starRingEnd ℂ) (∑ p, c p * s p x) * (μ x : ℂ)
        = ∑ x, ∑ p, (starRingEnd ℂ) (c p) * (r x * (starRingEnd ℂ) (s p x) * (μ x : ℂ)) := by
          refine Finset.sum_congr rfl fun x _ => ?_
          rw [map_sum, Finset.mul_sum, Finset.sum_mul]
          exact Finset.sum_congr rfl fun p _ => by rw [map_mul]; ring
      _ = 0 := by
          rw [Finset.sum_comm]
          refine Finset.sum_eq_zero fun p _ => ?_
          rw [← Finset.mul_sum, h0, mul_zero]
  have h2 := congrArg re h1
  rw [re_sum, zero_re] at h2
  rw [← Finset.sum_add_distrib]
  have h3 : ∀ x, μ x * ‖r x + ∑ p, c p * s p x‖ ^ 2 = (μ x * ‖r x‖ ^ 2 + μ x * ‖∑ p, c p * s p x‖ ^ 2) +
      2 * (r x * (starRingEnd ℂ) (∑ p, c p * s p x) * (μ x : ℂ)).re := by
    intro x
    rw [← normSq_eq_norm_sq, ← normSq_eq_norm_sq, ← normSq_eq_norm_sq, normSq_add, re_mul_ofReal]
    ring
  simp only [h3]
  rw [Finset.sum_add_distrib, ← Finset.mul_sum, h2]
  ring

/-- the coefficients of a combination. -/
theorem coefficient_comb {μ : Pix → ℝ} {s : Fin N → Pix → ℂ} {e : Fin N → ℝ}
    (hG : ∀ p q : Fin N, ∑ x, s p x * (starRingEnd ℂ) (s q x) * (μ x : ℂ) = if p = q then (e p : ℂ) else 0) (a : Fin N → ℂ) (p : Fin N) :
    ∑ x, (∑ q, a q * s q x) * (starRingEnd ℂ) (s p x) * (μ x : ℂ) = a p * e p := by
  calc ∑ x, (∑ q, a q * s q x) * (starRingEnd ℂ) (s p x) * (μ x : ℂ)
      = ∑ x, ∑ q, a q * (s q x * (starRingEnd ℂ) (s p x) * (μ x : ℂ)) := by
        refine Finset.sum_congr rfl fun x _ => ?_
        rw [Finset.sum_mul, Finset.sum_mul]
        exact Finset.sum_congr rfl fun q _ => by ring
    _ = ∑ q, a q * if q = p then (e q : ℂ) else 0 := by
        rw [Finset.sum_comm]
        exact Finset.sum_congr rfl fun q _ => by rw [← Finset.mul_sum, hG]
    _ = a p * e p := by simp

/-- the distance to a combination is that to the one with the coefficients of the field, and what the coefficients differ. -/
theorem distance {μ : Pix → ℝ} {s : Fin N → Pix → ℂ} {e : Fin N → ℝ} (he : ∀ p, e p ≠ 0)
    (hG : ∀ p q : Fin N, ∑ x, s p x * (starRingEnd ℂ) (s q x) * (μ x : ℂ) = if p = q then (e p : ℂ) else 0) (f : Pix → ℂ) (a : Fin N → ℂ) :
    ∑ x, μ x * ‖f x - ∑ p, a p * s p x‖ ^ 2 =
      ∑ x, μ x * ‖f x - ∑ p, (∑ x, f x * (starRingEnd ℂ) (s p x) * (μ x : ℂ)) / e p * s p x‖ ^ 2 +
      ∑ p, e p * ‖(∑ x, f x * (starRingEnd ℂ) (s p x) * (μ x : ℂ)) / e p - a p‖ ^ 2 := by
  set c : Fin N → ℂ := fun p => (∑ x, f x * (starRingEnd ℂ) (s p x) * (μ x : ℂ)) / e p with hc
  have h0 : ∀ p, ∑ x, (f x - ∑ q, c q * s q x) * (starRingEnd ℂ) (s p x) * (μ x : ℂ) = 0 := by
    intro p
    have he' : (e p : ℂ) ≠ 0 := by exact_mod_cast he p
    simp only [sub_mul]
    rw [Finset.sum_sub_distrib, coefficient_comb hG c p, hc]
    dsimp only
    rw [div_mul_cancel₀ _ he', sub_self]
  rw [← energy_eq hG, ← pythagoras h0]
  refine Finset.sum_congr rfl fun x _ => ?_
  congr 3
  simp only [sub_mul]
  rw [Finset.sum_sub_distrib]
  ring

/-- the coefficients of a field are bounded by its energy. -/
theorem coefficients_le {μ : Pix → ℝ} (hμ : ∀ x, 0 ≤ μ x) {s : Fin N → Pix → ℂ} {e : Fin N → ℝ} (he : ∀ p, e p ≠ 0)
    (hG : ∀ p q : Fin N, ∑ x, s p x * (starRingEnd ℂ) (s q x) * (μ x : ℂ) = if p = q then (e p : ℂ) else 0) (f : Pix → ℂ) :
    ∑ p, e p * ‖(∑ x, f x * (starRingEnd ℂ) (s p x) * (μ x : ℂ)) / e p‖ ^ 2 ≤ ∑ x, μ x * ‖f x‖ ^ 2 := by
  have := distance he hG f 0
  simp only [Pi.zero_apply, zero_mul, Finset.sum_const_zero, sub_zero] at this
  rw [this]
  have h : 0 ≤ ∑ x, μ x * ‖f x - ∑ p, (∑ x, f x * (starRingEnd ℂ) (s p x) * (μ x : ℂ)) / e p * s p x‖ ^ 2 :=
    Finset.sum_nonneg fun x _ => mul_nonneg (hμ x) (sq_nonneg _)
  linarith

section real
variable {μ : Pix → ℝ} {s : Fin N → Pix → ℝ} {e : Fin N → ℝ}

private theorem cast_gram (hG : ∀ p q : Fin N, ∑ x, s p x * s q x * μ x = if p = q then e p else 0) (p q : Fin N) :
    ∑ x, ((s p x : ℝ) : ℂ) * (starRingEnd ℂ) ((s q x : ℝ) : ℂ) * (μ x : ℂ) = if p = q then (e p : ℂ) else 0 := by
  simp only [conj_ofReal, ← ofReal_mul, ← ofReal_sum, hG]
  split <;> simp

theorem real_energy_eq (hG : ∀ p q : Fin N, ∑ x, s p x * s q x * μ x = if p = q then e p else 0) (c : Fin N → ℝ) :
    ∑ x, μ x * (∑ p, c p * s p x) ^ 2 = ∑ p, e p * c p ^ 2 := by
  have := energy_eq (cast_gram hG) (fun p => (c p : ℂ))
  simpa only [← ofReal_mul, ← ofReal_sum, norm_real, Real.norm_eq_abs, sq_abs] using this

theorem real_coefficient_comb (hG : ∀ p q : Fin N, ∑ x, s p x * s q x * μ x = if p = q then e p else 0) (a : Fin N → ℝ) (p : Fin N) :
    ∑ x, (∑ q, a q * s q x) * s p x * μ x = a p * e p := by
  have := coefficient_comb (cast_gram hG) (fun p => (a p : ℂ)) p
  simp only [conj_ofReal, ← ofReal_mul, ← ofReal_sum] at this
  exact_mod_cast this

theorem real_distance (he : ∀ p, e p ≠ 0) (hG : ∀ p q : Fin N, ∑ x, s p x * s q x * μ x = if p = q then e p else 0) (f : Pix → ℝ)
    (a : Fin N → ℝ) :
    ∑ x, μ x * (f x - ∑ p, a p * s p x) ^ 2 = ∑ x, μ x * (f x - ∑ p, (∑ x, f x * s p x * μ x) / e p * s p x) ^ 2 +
      ∑ p, e p * ((∑ x, f x * s p x * μ x) / e p - a p) ^ 2 := by
  have := distance he (cast_gram hG) (fun x => (f x : ℂ)) (fun p => (a p : ℂ))
  simpa only [conj_ofReal, ← ofReal_mul, ← ofReal_sum, ← ofReal_div, ← ofReal_sub, norm_real, Real.norm_eq_abs, sq_abs] using this

theorem real_coefficients_le (hμ : ∀ x, 0 ≤ μ x) (he : ∀ p, e p ≠ 0)
    (hG : ∀ p q : Fin N, ∑ x, s p x * s q x * μ x = if p = q then e p else 0) (f : Pix → ℝ) :
    ∑ p, e p * ((∑ x, f x * s p x * μ x) / e p) ^ 2 ≤ ∑ x, μ x * f x ^ 2 := by
  have := coefficients_le hμ he (cast_gram hG) (fun x => (f x : ℂ))
  simpa only [conj_ofReal, ← ofReal_mul, ← ofReal_sum, ← ofReal_div, norm_real, Real.norm_eq_abs, sq_abs] using this

end real

end Sleplet.Gram
