import Mathlib.Algebra.Polynomial.Derivative
import Mathlib.Analysis.Calculus.Deriv.Polynomial
import Mathlib.MeasureTheory.Integral.IntervalIntegral.FundThmCalculus
import Mathlib.MeasureTheory.Integral.IntervalIntegral.IntegrationByParts
import Mathlib.Topology.Algebra.Polynomial
import Mathlib.Tactic.ComputeDegree
import Verif.Lemmas.Racah

/-!
Derivatives of `(x² - 1)^l` and integrals of polynomials over `[-1, 1]`.
-/
namespace Sleplet.Gaunt

open Polynomial

/-- `x² - 1`. -/
noncomputable def q : ℝ[X] := X ^ 2 - 1

/-- the `k`-th derivative of `(x² - 1)^l`. -/
noncomputable def dq (l k : ℕ) : ℝ[X] := derivative^[k] (q ^ l)

/-- the integral over `[a, b]`. -/
noncomputable def intg (a b : ℝ) (p : ℝ[X]) : ℝ := ∫ x in a..b, p.eval x

theorem intg_add (a b : ℝ) (p r : ℝ[X]) : intg a b (p + r) = intg a b p + intg a b r := by
  unfold intg
  simp only [eval_add]
  exact intervalIntegral.integral_add (p.continuous.intervalIntegrable _ _) (r.continuous.intervalIntegrable _ _)

theorem intg_C_mul (a b c : ℝ) (p : ℝ[X]) : intg a b (C c * p) = c * intg a b p := by
  unfold intg
  simp only [eval_mul, eval_C]
  exact intervalIntegral.integral_const_mul _ _

theorem intg_neg (a b : ℝ) (p : ℝ[X]) : intg a b (-p) = -intg a b p := by
  have := intg_C_mul a b (-1) p
  rw [show C (-1 : ℝ) * p = -p by rw [C_neg, C_1]; ring] at this
  linarith

theorem intg_sub (a b : ℝ) (p r : ℝ[X]) : intg a b (p - r) = intg a b p - intg a b r := by
  rw [sub_eq_add_neg, intg_add, intg_neg]; ring

theorem intg_zero (a b : ℝ) : intg a b 0 = 0 := by simp [intg]

theorem intg_sum {ι : Type} (a b : ℝ) (s : Finset ι) (f : ι → ℝ[X]) : intg a b (∑ i ∈ s, f i) = ∑ i ∈ s, intg a b (f i) := by
  classical
  induction s using Finset.induction_on with
  | empty => simp [intg_zero]
  | insert i s hi ih => rw [Finset.sum_insert hi, Finset.sum_insert hi, intg_add, ih]

theorem intg_derivative (a b : ℝ) (p : ℝ[X]) : intg a b (derivative p) = p.eval b - p.eval a := by
  unfold intg
  exact intervalIntegral.integral_eq_sub_of_hasDerivAt (fun x _ => p.hasDerivAt x)
    ((derivative p).continuous.intervalIntegrable _ _)

theorem eval_q (x : ℝ) : q.eval x = x ^ 2 - 1 := by simp [q]

theorem q_ne_zero : q ≠ 0 := by
  intro h
  have := congrArg (eval 0) h
  simp [q] at this

theorem natDegree_q : q.natDegree = 2 := by unfold q; compute_degree!

theorem q_eq : q = (X - C 1) * (X + C 1) := by unfold q; simp only [C_1]; ring

theorem derivative_q : derivative q = C 2 * X := by
  unfold q
  simp only [derivative_sub, derivative_X_sq, derivative_one, sub_zero]

theorem derivative_dq (l k : ℕ) : derivative (dq l k) = dq l (k + 1) := (Function.iterate_succ_apply' _ _ _).symm

@[simp] theorem dq_zero (l : ℕ) : dq l 0 = q ^ l := rfl

theorem dq_eq_zero {l k : ℕ} (h : 2 * l < k) : dq l k = 0 := by
  refine iterate_derivative_eq_zero ?_
  rw [natDegree_pow, natDegree_q]; omega

theorem natDegree_dq_le (l k : ℕ) : (dq l k).natDegree ≤ 2 * l - k := by
  have := natDegree_iterate_derivative (q ^ l) k
  rw [natDegree_pow, natDegree_q] at this
  unfold dq; omega

theorem dq_top (l : ℕ) : dq l (2 * l) = C ((2 * l).factorial : ℝ) := by
  have h : (dq l (2 * l)).natDegree ≤ 0 := by simpa using natDegree_dq_le l (2 * l)
  rw [eq_C_of_natDegree_le_zero h]
  congr 1
  unfold dq
  rw [coeff_iterate_derivative]
  have hc : (q ^ l).coeff (0 + 2 * l) = 1 := by
    have hm : q.Monic := by unfold q; monicity!
    have := (hm.pow l).coeff_natDegree
    rwa [natDegree_pow, natDegree_q, show l * 2 = 0 + 2 * l by ring] at this
  rw [hc, zero_add, Nat.descFactorial_self]
  simp

theorem dvd_dq (l k : ℕ) : q ^ (l - k) ∣ dq l k := pow_sub_dvd_iterate_derivative_pow q l k

theorem eval_dq_of_lt {l k : ℕ} (h : k < l) {x : ℝ} (hx : x ^ 2 = 1) : (dq l k).eval x = 0 := by
  obtain ⟨r, hr⟩ := dvd_dq l k
  rw [hr, eval_mul, eval_pow, eval_q, hx, sub_self, zero_pow (by omega), zero_mul]

/-- `D q^{l+1} = 2(l+1) x q^l`. -/
theorem derivative_q_pow (l : ℕ) : derivative (q ^ (l + 1)) = C (2 * ((l : ℝ) + 1)) * (q ^ l * X) := by
  rw [derivative_pow, derivative_q]
  simp only [Nat.add_sub_cancel, C_mul, C_add, C_1, Nat.cast_add, Nat.cast_one, map_natCast]
  ring

theorem dq_mul_X (l k : ℕ) :
    C (2 * ((l : ℝ) + 1)) * (dq l k * X) = dq (l + 1) (k + 1) - C (2 * ((l : ℝ) + 1) * k) * dq l (k - 1) := by
  have h : dq (l + 1) (k + 1) = C (2 * ((l : ℝ) + 1)) * derivative^[k] (q ^ l * X) := by
    unfold dq
    rw [Function.iterate_succ_apply, derivative_q_pow, iterate_derivative_C_mul]
  rw [h, iterate_derivative_mul_X]
  unfold dq
  rw [nsmul_eq_mul, show C (2 * ((l : ℝ) + 1) * k) = C (2 * ((l : ℝ) + 1)) * (k : ℝ[X]) by rw [C_mul, map_natCast]]
  ring

theorem cast_descFactorial {n k s : ℕ} (h : n = k + s) : (n.descFactorial k : ℝ) = (n.factorial : ℝ) / s.factorial := by
  have := Nat.factorial_mul_descFactorial (show k ≤ n by omega)
  rw [show n - k = s by omega] at this
  rw [eq_div_iff (by positivity), mul_comm]
  exact_mod_cast this

private theorem reflect_coeff (m k s : ℕ) :
    ((m + k + s + m).factorial : ℝ) * (((k + s).choose k : ℝ) * (((m + k + s).descFactorial s : ℝ) *
      ((m + k + s).descFactorial k : ℝ))) =
    ((k + s).factorial : ℝ) * (((m + k + s + m).choose (k + m) : ℝ) * (((m + k + s).descFactorial (m + s) : ℝ) *
      ((m + k + s).descFactorial (k + m) : ℝ))) := by
  rw [cast_descFactorial (show m + k + s = s + (m + k) by ring), cast_descFactorial (show m + k + s = k + (m + s) by ring),
    cast_descFactorial (show m + k + s = m + s + k by ring), cast_descFactorial (show m + k + s = k + m + s by ring),
    Nat.cast_add_choose, show m + k + s + m = (k + m) + (m + s) by ring, Nat.cast_add_choose, show m + k = k + m by ring]
  have h1 : (k.factorial : ℝ) ≠ 0 := by positivity
  have h2 : (s.factorial : ℝ) ≠ 0 := by positivity
  have h3 : ((k + m).factorial : ℝ) ≠ 0 := by positivity
  have h4 : ((m + s).factorial : ℝ) ≠ 0 := by positivity
  field_simp

/-- reflection in the order. -/
theorem dq_reflect {l m : ℕ} (h : m ≤ l) :
    C ((l + m).factorial : ℝ) * dq l (l - m) = C ((l - m).factorial : ℝ) * (q ^ m * dq l (l + m)) := by
  unfold dq
  rw [q_eq, mul_pow, mul_pow, iterate_derivative_mul, iterate_derivative_mul]
  have hR : ∑ k ∈ Finset.range (l + m).succ, (l + m).choose k • (derivative^[l + m - k] ((X - C (1 : ℝ)) ^ l) *
        derivative^[k] ((X + C 1) ^ l)) =
      ∑ k ∈ Finset.range (l - m).succ, (l + m).choose (k + m) • (derivative^[l - k] ((X - C (1 : ℝ)) ^ l) *
        derivative^[k + m] ((X + C 1) ^ l)) := by
    symm
    refine Finset.sum_of_injOn (fun k => k + m) ?_ ?_ ?_ ?_
    · intro a _ b _ hab; simpa using hab
    · intro a ha
      simp only [Finset.coe_range, Set.mem_Iio] at *
      omega
    · intro j hj hj'
      simp only [Finset.coe_range, Set.mem_image, Set.mem_Iio, not_exists, not_and, Finset.mem_range] at *
      by_cases h1 : j < m
      · rw [iterate_derivative_X_sub_pow, Nat.descFactorial_eq_zero_iff_lt.2 (by omega)]; simp
      · have h2 : l < j := by
          by_contra hc
          exact hj' (j - m) (by omega) (by omega)
        rw [iterate_derivative_X_add_pow, Nat.descFactorial_eq_zero_iff_lt.2 h2]; simp
    · intro k hk
      rw [Finset.mem_range] at hk
      rw [show l + m - (k + m) = l - k by omega]
  rw [hR, Finset.mul_sum, Finset.mul_sum, Finset.mul_sum]
  refine Finset.sum_congr rfl fun k hk => ?_
  rw [Finset.mem_range] at hk
  obtain ⟨s, rfl⟩ : ∃ s, l = m + k + s := ⟨l - m - k, by omega⟩
  rw [iterate_derivative_X_sub_pow, iterate_derivative_X_add_pow, iterate_derivative_X_sub_pow, iterate_derivative_X_add_pow,
    show m + k + s - m - k = s by omega, show m + k + s - m = k + s by omega, show m + k + s - k = m + s by omega,
    show m + k + s - (m + s) = k by omega, show m + k + s - (k + m) = s by omega, show m + k + s - s = m + k by omega]
  simp only [nsmul_eq_mul, ← map_natCast (C : ℝ →+* ℝ[X])]
  have hc := congrArg (C : ℝ → ℝ[X]) (reflect_coeff m k s)
  simp only [C_mul] at hc
  rw [pow_add, pow_add]
  linear_combination ((X - C 1) ^ m * (X - C 1) ^ k * ((X + C 1) ^ m * (X + C 1) ^ s)) * hc

/-- the values at one. -/
theorem eval_dq_one (l : ℕ) : (dq l l).eval 1 = 2 ^ l * (l.factorial : ℝ) := by
  unfold dq
  rw [q_eq, mul_pow, iterate_derivative_mul, eval_finset_sum, Finset.sum_eq_single 0]
  · rw [iterate_derivative_X_sub_pow]
    simp [Nat.descFactorial_self]
    norm_num
    ring
  · intro k hk hk0
    rw [Finset.mem_range] at hk
    rw [iterate_derivative_X_sub_pow]
    simp only [nsmul_eq_mul, eval_mul, eval_pow, eval_sub, eval_X, eval_C, sub_self]
    rw [zero_pow (by omega)]
    ring
  · intro h; simp at h

/-- parity. -/
theorem dq_comp_neg (l k : ℕ) : (dq l k).comp (-X) = (-1) ^ k * dq l k := by
  induction k with
  | zero =>
    unfold dq q
    simp
  | succ k ih =>
    have h := congrArg derivative ih
    rw [derivative_comp, derivative_dq, derivative_neg, derivative_X] at h
    have h2 : derivative ((-1 : ℝ[X]) ^ k * dq l k) = (-1) ^ k * dq l (k + 1) := by
      rw [derivative_mul, derivative_dq]
      have : derivative ((-1 : ℝ[X]) ^ k) = 0 := by
        rw [derivative_pow]; simp
      rw [this]; ring
    rw [h2] at h
    rw [pow_succ]
    linear_combination -h

theorem intg_comp_neg (a b : ℝ) (p : ℝ[X]) : intg (-b) (-a) p = intg a b (p.comp (-X)) := by
  unfold intg
  simp only [eval_comp, eval_neg, eval_X]
  rw [intervalIntegral.integral_comp_neg (fun x => p.eval x)]

end Sleplet.Gaunt
