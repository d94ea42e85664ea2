import Mathlib.Algebra.BigOperators.Intervals
import Mathlib.Algebra.BigOperators.Fin
import Verif.Lemmas.Noise

namespace Sleplet.Noise

open Complex

theorem coeff_neg (g : ℕ → ℝ) (sigma : ℝ) (p : ℕ) (m : ℤ) :
    coeff g sigma p (-m) = (-1) ^ m * (starRingEnd ℂ) (coeff g sigma p m) := by
  rcases lt_trichotomy m 0 with h | h | h
  · obtain ⟨n, rfl⟩ : ∃ n : ℕ, m = -(n : ℤ) := ⟨m.natAbs, by omega⟩
    unfold coeff
    rw [if_neg (by omega), if_pos (by omega), if_neg (by omega), if_neg (by omega)]
    simp only [neg_neg, Int.toNat_natCast, map_mul, map_pow, map_neg, map_one, starRingEnd_self_apply, zpow_neg,
      zpow_natCast]
    rw [← mul_assoc, inv_mul_cancel₀ (pow_ne_zero _ (by norm_num)), one_mul]
  · subst h
    simp [coeff]
  · obtain ⟨n, rfl⟩ : ∃ n : ℕ, m = (n : ℤ) := ⟨m.natAbs, by omega⟩
    unfold coeff
    rw [if_neg (by omega), if_neg (by omega), if_neg (by omega), if_pos (by omega)]
    simp

theorem normSq_drawn (g : ℕ → ℝ) (sigma : ℝ) (p m : ℕ) :
    ‖drawn g sigma p m‖ ^ 2 = sigma ^ 2 / 2 * (g (p + (2 * m - 1)) ^ 2 + g (p + 2 * m) ^ 2) := by
  unfold drawn
  rw [← Complex.normSq_eq_norm_sq, map_mul, map_div₀]
  have h1 : Complex.normSq ((g (p + (2 * m - 1)) : ℂ) + I * (g (p + 2 * m) : ℂ)) =
      g (p + (2 * m - 1)) ^ 2 + g (p + 2 * m) ^ 2 := by
    rw [mul_comm I, Complex.normSq_add_mul_I]
  rw [h1, Complex.normSq_ofReal, Complex.normSq_ofReal, Real.mul_self_sqrt (by norm_num)]
  ring

theorem normSq_coeff_pos (g : ℕ → ℝ) (sigma : ℝ) (p j : ℕ) :
    ‖coeff g sigma p ((j + 1 : ℕ) : ℤ)‖ ^ 2 = sigma ^ 2 / 2 * (g (p + (2 * j + 1)) ^ 2 + g (p + (2 * j + 2)) ^ 2) := by
  unfold coeff
  rw [if_neg (by omega), if_pos (by omega), Int.toNat_natCast, normSq_drawn]
  congr 3

theorem normSq_coeff_neg (g : ℕ → ℝ) (sigma : ℝ) (p : ℕ) (m : ℤ) :
    ‖coeff g sigma p (-m)‖ ^ 2 = ‖coeff g sigma p m‖ ^ 2 := by
  rw [coeff_neg, Complex.norm_mul, RCLike.norm_conj]
  simp

theorem sum_range_two_mul_add_one {R : Type} [CommRing R] (h : ℕ → R) (l : ℕ) :
    ∑ k ∈ Finset.range (2 * l + 1), h k = h 0 + ∑ j ∈ Finset.range l, (h (2 * j + 1) + h (2 * j + 2)) := by
  induction l with
  | zero => simp
  | succ l ih =>
    rw [show 2 * (l + 1) + 1 = 2 * l + 1 + 1 + 1 from by ring, Finset.sum_range_succ, Finset.sum_range_succ, ih,
      Finset.sum_range_succ]
    ring

/-- the orders of a degree, from the middle outwards. -/
theorem sum_orders {R : Type} [CommRing R] (F : ℤ → R) (l : ℕ) :
    ∑ t ∈ Finset.range (2 * l + 1), F ((t : ℤ) - l) =
      F 0 + ∑ j ∈ Finset.range l, (F ((j + 1 : ℕ) : ℤ) + F (-((j + 1 : ℕ) : ℤ))) := by
  rw [show 2 * l + 1 = l + (1 + l) from by ring, Finset.sum_range_add, Finset.sum_range_add,
    ← Finset.sum_range_reflect (fun t => F ((t : ℤ) - l)), Finset.sum_add_distrib]
  have h1 : ∀ j ∈ Finset.range l, F (((l - 1 - j : ℕ) : ℤ) - l) = F (-((j + 1 : ℕ) : ℤ)) := by
    intro j hj
    rw [Finset.mem_range] at hj
    congr 1
    omega
  have h2 : ∀ j ∈ Finset.range l, F (((l + (1 + j) : ℕ) : ℤ) - l) = F ((j + 1 : ℕ) : ℤ) := by
    intro j _
    congr 1
    omega
  rw [Finset.sum_congr rfl h1, Finset.sum_congr rfl h2]
  simp
  ring

theorem sum_sq_coeff (g : ℕ → ℝ) (sigma : ℝ) (p l : ℕ) :
    ∑ t ∈ Finset.range (2 * l + 1), ‖coeff g sigma p ((t : ℤ) - l)‖ ^ 2 =
      sigma ^ 2 * ∑ k ∈ Finset.range (2 * l + 1), g (p + k) ^ 2 := by
  rw [sum_orders (fun m => ‖coeff g sigma p m‖ ^ 2), sum_range_two_mul_add_one (fun k => g (p + k) ^ 2), mul_add,
    Finset.mul_sum]
  congr 1
  · simp [coeff, mul_pow]
  · apply Finset.sum_congr rfl
    intro j _
    rw [normSq_coeff_neg, normSq_coeff_pos]
    ring

theorem sum_sq_blocks {R : Type} [CommRing R] (F : ℕ → R) (L : ℕ) :
    ∑ i ∈ Finset.range (L ^ 2), F i = ∑ l ∈ Finset.range L, ∑ t ∈ Finset.range (2 * l + 1), F (l ^ 2 + t) := by
  induction L with
  | zero => simp
  | succ L ih =>
    rw [show (L + 1) ^ 2 = L ^ 2 + (2 * L + 1) from by ring, Finset.sum_range_add, ih,
      Finset.sum_range_succ (fun l => ∑ t ∈ Finset.range (2 * l + 1), F (l ^ 2 + t))]

theorem list_sum_eq (a : List ℂ) (F : ℂ → ℝ) : (a.map F).sum = ∑ i ∈ Finset.range a.length, F (a.getD i 0) := by
  induction a with
  | nil => simp
  | cons x a ih =>
    rw [List.map_cons, List.sum_cons, ih, List.length_cons, Finset.sum_range_succ']
    simp [add_comm]

theorem elm2ind_block (l t : ℕ) : elm2ind l ((t : ℤ) - l) = l ^ 2 + t := by
  unfold elm2ind
  rw [show (l : ℤ) * l + l + ((t : ℤ) - l) = ((l ^ 2 + t : ℕ) : ℤ) from by push_cast; ring, Int.toNat_natCast]

/-- the power of the noise is the variance times the sum of the squares of all the values drawn. -/
theorem power_of_coeffs (g : ℕ → ℝ) (sigma : ℝ) (L : ℕ) (nlm : List ℂ) (hl : nlm.length = L ^ 2)
    (hv : ∀ (l : ℕ) (m : ℤ), l < L → |m| ≤ l → nlm.getD (elm2ind l m) 0 = coeff g sigma (l ^ 2) m) :
    signalPower nlm = sigma ^ 2 * ∑ k ∈ Finset.range (L ^ 2), g k ^ 2 := by
  unfold signalPower
  rw [list_sum_eq nlm (fun x => ‖x‖ ^ 2), hl, sum_sq_blocks, sum_sq_blocks, Finset.mul_sum]
  apply Finset.sum_congr rfl
  intro l hlL
  rw [Finset.mem_range] at hlL
  rw [← sum_sq_coeff]
  apply Finset.sum_congr rfl
  intro t ht
  rw [Finset.mem_range] at ht
  rw [← elm2ind_block, hv l _ hlL (by rw [abs_le]; omega)]

end Sleplet.Noise
