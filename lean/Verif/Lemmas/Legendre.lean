import Mathlib.Algebra.Polynomial.Degree.Operations
import Verif.Lemmas.Gaunt

/-!
Legendre polynomials: values, orthogonality, expansion of polynomials, antiderivatives.
-/
namespace Sleplet.Gaunt

open Polynomial

/-- the Legendre polynomial. -/
noncomputable def legP (n : ℕ) : ℝ[X] := C (1 / (2 ^ n * (n.factorial : ℝ))) * dq n n

theorem legP_zero : legP 0 = 1 := by simp [legP]

theorem eval_legP_one (n : ℕ) : (legP n).eval 1 = 1 := by
  unfold legP
  rw [eval_mul, eval_C, eval_dq_one]
  have : (2 : ℝ) ^ n * (n.factorial : ℝ) ≠ 0 := by positivity
  field_simp

theorem legP_comp_neg (n : ℕ) : (legP n).comp (-X) = (-1) ^ n * legP n := by
  unfold legP
  rw [mul_comp, C_comp, dq_comp_neg]; ring

/-- integration by parts, `k` times. -/
theorem intg_dq_mul {n : ℕ} (r : ℝ[X]) {k : ℕ} (h : k ≤ n) :
    intg (-1) 1 (dq n n * r) = (-1) ^ k * intg (-1) 1 (dq n (n - k) * derivative^[k] r) := by
  induction k with
  | zero => simp
  | succ k ih =>
    rw [ih (by omega)]
    have hd : derivative (dq n (n - (k + 1)) * derivative^[k] r) =
        dq n (n - k) * derivative^[k] r + dq n (n - (k + 1)) * derivative^[k + 1] r := by
      rw [derivative_mul, derivative_dq, Function.iterate_succ_apply', show n - (k + 1) + 1 = n - k by omega]
    have h0 := congrArg (intg (-1) 1) hd
    rw [intg_derivative, intg_add, eval_mul, eval_mul, eval_dq_of_lt (by omega) (by norm_num),
      eval_dq_of_lt (by omega) (by norm_num)] at h0
    rw [pow_succ]
    linear_combination -(-1 : ℝ) ^ k * h0

theorem intg_legP_mul (n : ℕ) (r : ℝ[X]) :
    intg (-1) 1 (legP n * r) = (-1) ^ n / (2 ^ n * (n.factorial : ℝ)) * intg (-1) 1 (q ^ n * derivative^[n] r) := by
  unfold legP
  rw [mul_assoc, intg_C_mul, intg_dq_mul r (le_refl n), Nat.sub_self, dq_zero]
  ring

theorem natDegree_legP_le (n : ℕ) : (legP n).natDegree ≤ n := by
  unfold legP
  refine (natDegree_C_mul_le _ _).trans ((natDegree_dq_le n n).trans (by omega))

theorem legP_orth_lt {n : ℕ} {r : ℝ[X]} (h : r.natDegree < n) : intg (-1) 1 (legP n * r) = 0 := by
  rw [intg_legP_mul, iterate_derivative_eq_zero h, mul_zero, intg_zero, mul_zero]

theorem legP_orth {n k : ℕ} (h : n ≠ k) : intg (-1) 1 (legP n * legP k) = 0 := by
  rcases lt_or_gt_of_ne h with h | h
  · rw [mul_comm]; exact legP_orth_lt ((natDegree_legP_le n).trans_lt h)
  · exact legP_orth_lt ((natDegree_legP_le k).trans_lt h)

theorem legP_norm (n : ℕ) : intg (-1) 1 (legP n * legP n) = 2 / (2 * n + 1) := by
  rw [intg_legP_mul]
  have h : derivative^[n] (legP n) = C (1 / (2 ^ n * (n.factorial : ℝ)) * ((2 * n).factorial : ℝ)) := by
    unfold legP
    rw [iterate_derivative_C_mul, C_mul, ← dq_top]
    unfold dq
    rw [← Function.iterate_add_apply, two_mul]
  rw [h, mul_comm (q ^ n), intg_C_mul, intg_q_pow, Nat.factorial_succ]
  have h1 : (n.factorial : ℝ) ≠ 0 := by positivity
  have h2 : ((2 * n).factorial : ℝ) ≠ 0 := by positivity
  have h3 : (2 * (n : ℝ) + 1) ≠ 0 := by positivity
  have h4 : ((-1 : ℝ) ^ n) * (-1) ^ n = 1 := by rw [← mul_pow]; simp
  push_cast
  field_simp
  rw [pow_add, pow_mul]
  rw [show ((2 : ℝ) ^ 2) ^ n = 2 ^ n * 2 ^ n by rw [← mul_pow]; norm_num]
  linear_combination (2 : ℝ) ^ n * 2 ^ n * 2 * h4

theorem coeff_legP_ne_zero (n : ℕ) : (legP n).coeff n ≠ 0 := by
  unfold legP dq
  rw [coeff_C_mul, coeff_iterate_derivative]
  have hc : (q ^ n).coeff (n + n) = 1 := by
    have hm : q.Monic := by unfold q; monicity!
    have := (hm.pow n).coeff_natDegree
    rwa [natDegree_pow, natDegree_q, show n * 2 = n + n by ring] at this
  have hd : ((n + n).descFactorial n : ℝ) ≠ 0 := by
    have : (n + n).descFactorial n ≠ 0 := by
      rw [Ne, Nat.descFactorial_eq_zero_iff_lt]; omega
    exact_mod_cast this
  rw [hc, nsmul_eq_mul, mul_one]
  have : (2 : ℝ) ^ n * (n.factorial : ℝ) ≠ 0 := by positivity
  exact mul_ne_zero (one_div_ne_zero this) hd

theorem exists_expansion (N : ℕ) : ∀ r : ℝ[X], r.natDegree ≤ N → ∃ c : ℕ → ℝ, r = ∑ n ∈ Finset.range (N + 1), C (c n) * legP n := by
  induction N with
  | zero =>
    intro r hr
    refine ⟨fun _ => r.coeff 0, ?_⟩
    rw [Finset.sum_range_one, legP_zero, mul_one]
    exact eq_C_of_natDegree_le_zero hr
  | succ N ih =>
    intro r hr
    set a := r.coeff (N + 1) / (legP (N + 1)).coeff (N + 1)
    have hdeg : (r - C a * legP (N + 1)).natDegree ≤ N := by
      refine natDegree_le_pred (n := N + 1) ?_ ?_
      · exact (natDegree_sub_le _ _).trans (max_le hr ((natDegree_C_mul_le _ _).trans (natDegree_legP_le _)))
      · rw [coeff_sub, coeff_C_mul, div_mul_cancel₀ _ (coeff_legP_ne_zero _), sub_self]
    obtain ⟨c, hc⟩ := ih _ hdeg
    refine ⟨fun n => if n = N + 1 then a else c n, ?_⟩
    rw [Finset.sum_range_succ]
    dsimp only
    rw [if_pos rfl]
    have : ∑ n ∈ Finset.range (N + 1), C (if n = N + 1 then a else c n) * legP n =
        ∑ n ∈ Finset.range (N + 1), C (c n) * legP n := by
      refine Finset.sum_congr rfl fun n hn => ?_
      rw [if_neg (Finset.mem_range.1 hn).ne]
    rw [this, ← hc]; ring

/-- every polynomial is its Legendre series. -/
theorem expansion {N : ℕ} {r : ℝ[X]} (h : r.natDegree ≤ N) :
    r = ∑ n ∈ Finset.range (N + 1), C ((2 * (n : ℝ) + 1) / 2 * intg (-1) 1 (r * legP n)) * legP n := by
  obtain ⟨c, hc⟩ := exists_expansion N r h
  have hcn : ∀ k ∈ Finset.range (N + 1), (2 * (k : ℝ) + 1) / 2 * intg (-1) 1 (r * legP k) = c k := by
    intro k hk
    rw [hc, Finset.sum_mul, intg_sum, Finset.sum_eq_single k]
    · rw [mul_assoc, intg_C_mul, legP_norm]
      have : (2 * (k : ℝ) + 1) ≠ 0 := by positivity
      field_simp
    · intro n _ hn
      rw [mul_assoc, intg_C_mul, legP_orth hn, mul_zero]
    · intro h; exact absurd hk h
  conv_lhs => rw [hc]
  exact Finset.sum_congr rfl fun n hn => by rw [hcn n hn]

theorem derivative_legP_one : derivative (legP 1) = legP 0 := by
  unfold legP
  rw [derivative_C_mul, derivative_dq, show 1 + 1 = 2 * 1 by rfl, dq_top, ← C_mul]
  simp

theorem derivative_legP (n : ℕ) : derivative (legP (n + 2)) = C (2 * (n : ℝ) + 3) * legP (n + 1) + derivative (legP n) := by
  have h2 : derivative^[2] (q ^ (n + 2)) =
      C (2 * ((n : ℝ) + 2)) * (C (2 * (n : ℝ) + 3) * q ^ (n + 1) + C (2 * ((n : ℝ) + 1)) * q ^ n) := by
    have e : (X : ℝ[X]) * X = q + 1 := by unfold q; ring
    show derivative (derivative (q ^ (n + 1 + 1))) = _
    rw [derivative_q_pow, derivative_C_mul, derivative_mul, derivative_q_pow, derivative_X]
    push_cast
    rw [show ((n : ℝ) + 1 + 1) = (n : ℝ) + 2 by ring]
    simp only [C_mul, C_add, C_1]
    rw [show (C 3 : ℝ[X]) = C 2 + 1 by rw [← C_1, ← C_add]; norm_num]
    linear_combination (C 2 * (C (n : ℝ) + C 2) * (C 2 * (C (n : ℝ) + 1)) * q ^ n) * e
  have h : dq (n + 2) (n + 3) =
      C (2 * ((n : ℝ) + 2)) * (C (2 * (n : ℝ) + 3) * dq (n + 1) (n + 1) + C (2 * ((n : ℝ) + 1)) * dq n (n + 1)) := by
    unfold dq
    rw [show n + 3 = (n + 1) + 2 by ring, Function.iterate_add_apply, h2, iterate_derivative_C_mul, iterate_map_add,
      iterate_derivative_C_mul, iterate_derivative_C_mul]
  unfold legP
  rw [derivative_C_mul, derivative_C_mul, derivative_dq, derivative_dq, h, Nat.factorial_succ, Nat.factorial_succ]
  have h1 : (n.factorial : ℝ) ≠ 0 := by positivity
  have e1 : (1 / (2 ^ (n + 2) * (((n + 1 + 1) * ((n + 1) * n.factorial) : ℕ) : ℝ))) * (2 * ((n : ℝ) + 2)) =
      1 / (2 ^ (n + 1) * (((n + 1) * n.factorial : ℕ) : ℝ)) := by
    push_cast
    have a1 : ((n : ℝ) + 1) ≠ 0 := by positivity
    have a2 : ((n : ℝ) + 1 + 1) ≠ 0 := by positivity
    field_simp
    ring
  have e2 : 1 / (2 ^ (n + 1) * (((n + 1) * n.factorial : ℕ) : ℝ)) * (2 * ((n : ℝ) + 1)) = 1 / (2 ^ n * (n.factorial : ℝ)) := by
    push_cast
    have a1 : ((n : ℝ) + 1) ≠ 0 := by positivity
    field_simp
    ring
  rw [← mul_assoc, ← C_mul, e1, mul_add, ← mul_assoc, ← mul_assoc, ← C_mul, ← C_mul, e2]
  rw [mul_comm (1 / _) (2 * (n : ℝ) + 3), C_mul]
  ring

/-- the integral of a Legendre polynomial from `c` to one. -/
theorem intg_legP (c : ℝ) (n : ℕ) :
    (2 * (n : ℝ) + 1) * intg c 1 (legP n) = (if n = 0 then 1 else (legP (n - 1)).eval c) - (legP (n + 1)).eval c := by
  rcases n with _ | n
  · have := intg_derivative c 1 (legP 1)
    rw [derivative_legP_one, eval_legP_one] at this
    simp [this]
  · have h := congrArg (intg c 1) (derivative_legP n)
    rw [intg_derivative, intg_add, intg_C_mul, intg_derivative, eval_legP_one, eval_legP_one] at h
    rw [if_neg (by omega), Nat.add_sub_cancel]
    push_cast
    linarith

end Sleplet.Gaunt
