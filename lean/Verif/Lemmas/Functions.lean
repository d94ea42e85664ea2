import Mathlib.Algebra.Polynomial.Expand
import Mathlib.Tactic.FieldSimp
import Verif.Lemmas.Writes
import Verif.Model.Functions
import Verif.Spec.Legendre

namespace Sleplet.Functions

open NumPy Noise

theorem axisym_writes (V : ℕ → ℂ) (L : ℕ) (step : List ℂ → ℕ → Except Err (List ℂ))
    (hstep : ∀ (a : List ℂ) (ell : ℕ), ell < L → step a ell = setItem a (elm2ind ell 0) (V ell)) :
    ∃ b, (List.range L).foldlM step (List.replicate (L ^ 2) 0) = .ok b ∧ b.length = L ^ 2 ∧
      ∀ (l : ℕ) (m : ℤ), l < L → |m| ≤ l → b.getD (elm2ind l m) 0 = if m = 0 then V l else 0 := by
  obtain ⟨b, hb, hl, hv⟩ := writes_degrees (fun l _ => V l) (fun _ m => m = 0) (L ^ 2) step L
    (by
      intro ell a h1 h2
      have hlt : elm2ind ell 0 < a.length := by
        rw [h2]; exact elm2ind_lt_of_sq (by simp) (Nat.pow_le_pow_left (by omega) 2)
      refine ⟨a.set (elm2ind ell 0) (V ell), by rw [hstep a ell h1, setItem_of_lt _ _ _ hlt], by simpa using h2, ?_⟩
      intro l m h
      rw [getD_set]
      simp only [hlt, and_true, elm2ind_inj (show |(0 : ℤ)| ≤ ell by simp) h]
      by_cases hc : l = ell ∧ m = 0
      · rw [if_pos hc, if_pos ⟨hc.1.symm, hc.2.symm⟩]
      · rw [if_neg hc, if_neg (fun h => hc ⟨h.1.symm, h.2.symm⟩)])
    (List.replicate (L ^ 2) 0) (by simp)
  refine ⟨b, hb, hl, fun l m h1 h2 => ?_⟩
  rw [hv l m h2]
  simp only [h1, true_and]
  split_ifs
  · rfl
  · simp only [List.getD_eq_getElem?_getD, List.getElem?_replicate]
    split_ifs <;> rfl

open Polynomial in
/-- the derivative in Rodrigues' formula at zero. -/
theorem rodrigues_coeff (l k : ℕ) :
    (derivative^[k] ((X ^ 2 - 1) ^ l : ℝ[X])).eval 0 =
      if 2 ∣ k then (k.factorial : ℝ) * ((-1) ^ (l - k / 2) * (l.choose (k / 2) : ℝ)) else 0 := by
  rw [← coeff_zero_eq_eval_zero, coeff_iterate_derivative, zero_add, Nat.descFactorial_self]
  have h : ((X ^ 2 - 1) ^ l : ℝ[X]) = expand ℝ 2 ((X + C (-1)) ^ l) := by
    simp [map_pow, sub_eq_add_neg]
  rw [h, coeff_expand (by norm_num)]
  split_ifs
  · rw [coeff_X_add_C_pow, nsmul_eq_mul]
  · simp

theorem gammaln_nat (n : ℕ) : Real.exp (gammaln ((n : ℝ) + 1)) = n.factorial := by
  unfold gammaln
  rw [Real.Gamma_nat_eq_factorial, Real.exp_log (by positivity)]

/-- the ring coefficient is `2π` times the spin harmonic on the equator. -/
theorem ringEntry_eq (spin : ℤ) (l : ℕ) (h : spin.natAbs ≤ l) :
    ringEntry spin l = 2 * Real.pi * Spec.spinHarmonicAtEquator l spin := by
  obtain ⟨k, hk⟩ : ∃ k : ℕ, (k : ℤ) = l + spin := ⟨(l + spin).toNat, by omega⟩
  have hk2 : k ≤ 2 * l := by omega
  have e1 : ((l : ℤ) + spin).toNat = k := by omega
  have e2 : ((l : ℤ) - spin).toNat = 2 * l - k := by omega
  have r1 : (l : ℝ) + spin = k := by
    have : ((k : ℤ) : ℝ) = ((l + spin : ℤ) : ℝ) := by rw [hk]
    push_cast at this
    linarith
  have r2 : (l : ℝ) - spin = ((2 * l - k : ℕ) : ℝ) := by
    rw [Nat.cast_sub hk2]
    push_cast
    linarith
  have hp1 : (0 : ℝ) < (2 * l + 1) / (4 * Real.pi) := by positivity
  unfold ringEntry Spec.spinHarmonicAtEquator Spec.legendreAtEquator
  simp only
  have hE : Real.exp (gammaln (((2 * l - k : ℕ) : ℝ) + 1) - gammaln ((k : ℝ) + 1)) =
      ((2 * l - k).factorial : ℝ) / (k.factorial : ℝ) := by
    rw [Real.exp_sub, gammaln_nat, gammaln_nat]
  rw [e1, e2, r1, r2, rodrigues_coeff, hE, Real.sqrt_mul hp1.le]
  have hs : ((-1 : ℝ) ^ spin) * ((-1 : ℝ) ^ spin) = 1 := by
    rw [← mul_zpow]; norm_num
  by_cases hd : 2 ∣ k
  · obtain ⟨j, rfl⟩ := hd
    have hj : j ≤ l := by omega
    rw [if_pos (by simp), show 2 * l - 2 * j = 2 * (l - j) by omega, show 2 * j / 2 = j by omega]
    have q1 : ((2 * j : ℕ) : ℝ) / 2 = j := by push_cast; ring
    have q2 : ((2 * (l - j) : ℕ) : ℝ) / 2 = ((l - j : ℕ) : ℝ) := by push_cast; ring
    rw [q1, q2, Real.exp_sub, Real.exp_sub, Real.exp_sub, gammaln_nat, gammaln_nat, gammaln_nat]
    have q3 : Real.exp ((l : ℝ) * Real.log 2) = 2 ^ l := by
      rw [mul_comm, Real.exp_mul, Real.exp_log (by norm_num), Real.rpow_natCast]
    have q4 : Real.cos (Real.pi * (j : ℝ)) = (-1) ^ j := by
      rw [mul_comm]; exact Real.cos_nat_mul_pi j
    have q5 : ((-1 : ℝ) ^ spin) * (-1) ^ (l - j) = (-1) ^ j := by
      have : spin = 2 * j - l := by push_cast at hk; omega
      rw [this, ← zpow_natCast, ← zpow_add₀ (by norm_num), ← zpow_natCast, show (2 * (j : ℤ) - l + ((l - j : ℕ) : ℤ)) = j by omega]
    have q6 : (l.choose j : ℝ) = l.factorial / (j.factorial * (l - j).factorial) := Nat.cast_choose ℝ hj
    rw [q3, q4, q6, ← q5]
    have : (l.factorial : ℝ) ≠ 0 := by positivity
    have : (j.factorial : ℝ) ≠ 0 := by positivity
    have : ((l - j).factorial : ℝ) ≠ 0 := by positivity
    have hsq : ((-1 : ℝ) ^ spin) ^ 2 = 1 := by rw [sq, hs]
    field_simp
  · rw [if_neg hd]
    have hodd : k % 2 = 1 := by omega
    have : Real.cos (Real.pi * ((k : ℝ) / 2)) = 0 := by
      rw [Real.cos_eq_zero_iff]
      obtain ⟨j, rfl⟩ : ∃ j, k = 2 * j + 1 := ⟨k / 2, by omega⟩
      refine ⟨(j : ℤ), ?_⟩
      push_cast
      ring
    rw [this]
    simp

end Sleplet.Functions
