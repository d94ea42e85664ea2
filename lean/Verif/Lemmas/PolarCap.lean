import Mathlib.MeasureTheory.Integral.IntervalIntegral.IntegrationByParts
import Mathlib.Analysis.SpecialFunctions.Integrals.Basic
import Verif.Lemmas.GauntWigner
import Verif.Lemmas.Surface
import Verif.Spec.Harmonics

/-!
Integrals of products of spherical harmonics over polar caps.
-/
namespace Sleplet.Gaunt

open Polynomial Sleplet.Wigner Sleplet.RealMat

/-- product of two functions of opposite orders. -/
noncomputable def prodP (m el p : ℕ) : ℝ[X] := dq el (el + m) * dq p (p - m)

theorem natDegree_prodP {m el p : ℕ} (h1 : m ≤ el) (h2 : m ≤ p) : (prodP m el p).natDegree ≤ el + p := by
  have a := natDegree_dq_le el (el + m)
  have b := natDegree_dq_le p (p - m)
  exact natDegree_mul_le.trans (by omega)

theorem zf_nat (n : ℕ) : zf (n : ℤ) = (n.factorial : ℝ) := by simp [zf]

theorem intg_prodP_legP {m el p : ℕ} (h1 : m ≤ el) (h2 : m ≤ p) (n : ℕ) :
    intg (-1) 1 (prodP m el p * legP n) = 2 * (2 ^ (el + p) * ((el.factorial : ℝ) * p.factorial)) *
      (w3j el n p 0 0 0 * w3j el n p m 0 (-m)) *
      (Real.sqrt (((el + m).factorial : ℝ) / ((el - m).factorial : ℝ)) *
        Real.sqrt (((p - m).factorial : ℝ) / ((p + m).factorial : ℝ))) := by
  have ht : triple el n p m 0 = intg (-1) 1 (prodP m el p * dq n n) := by
    unfold triple prodP
    rw [dz_of_nonneg (by omega), dz_of_nonneg (by omega), dz_of_nonneg (by omega),
      show ((el : ℤ) + m).toNat = el + m by omega, show ((n : ℤ) + 0).toNat = n by omega,
      show ((p : ℤ) - m - 0).toNat = p - m by omega]
    congr 1; ring
  have h := triple_eq (l1 := el) (l2 := n) (l3 := p) (m1 := m) (m2 := 0) (by simpa using h1) (by simp) (by simpa using h2)
  rw [ht] at h
  simp only [sub_zero, add_zero] at h
  rw [div_self (zf_pos _).ne', Real.sqrt_one, mul_one] at h
  rw [show (el : ℤ) + m = ((el + m : ℕ) : ℤ) by push_cast; ring, show (el : ℤ) - m = ((el - m : ℕ) : ℤ) by omega,
    show (p : ℤ) + -m = ((p - m : ℕ) : ℤ) by omega, show (p : ℤ) - -m = ((p + m : ℕ) : ℤ) by push_cast; ring,
    zf_nat, zf_nat, zf_nat, zf_nat] at h
  unfold legP
  rw [show prodP m el p * (C (1 / (2 ^ n * (n.factorial : ℝ))) * dq n n) =
    C (1 / (2 ^ n * (n.factorial : ℝ))) * (prodP m el p * dq n n) by ring, intg_C_mul, h]
  have : (n.factorial : ℝ) ≠ 0 := by positivity
  field_simp
  ring

/-- the integral of the product over a cap. -/
theorem intg_prodP {m el p : ℕ} (h1 : m ≤ el) (h2 : m ≤ p) (c : ℝ) :
    intg c 1 (prodP m el p) = (2 ^ (el + p) * ((el.factorial : ℝ) * p.factorial)) *
      (Real.sqrt (((el + m).factorial : ℝ) / ((el - m).factorial : ℝ)) *
        Real.sqrt (((p - m).factorial : ℝ) / ((p + m).factorial : ℝ))) *
      ∑ n ∈ Finset.range (el + p + 1), w3j el n p 0 0 0 * w3j el n p m 0 (-m) *
        ((if n = 0 then 1 else (legP (n - 1)).eval c) - (legP (n + 1)).eval c) := by
  conv_lhs => rw [expansion (natDegree_prodP h1 h2)]
  rw [intg_sum, Finset.mul_sum]
  refine Finset.sum_congr rfl fun n _ => ?_
  rw [intg_C_mul, intg_prodP_legP h1 h2, ← intg_legP]
  ring

theorem sum_Icc_cast (el p : ℕ) (f : ℤ → ℝ) (hf : ∀ n : ℕ, (n : ℤ) < |(el : ℤ) - p| → f n = 0) :
    ∑ n ∈ Finset.Icc |(el : ℤ) - p| (el + p), f n = ∑ n ∈ Finset.range (el + p + 1), f n := by
  have h0 : ∑ n ∈ Finset.Icc |(el : ℤ) - p| (el + p), f n = ∑ n ∈ Finset.Icc (0 : ℤ) (el + p), f n := by
    refine Finset.sum_subset (Finset.Icc_subset_Icc (abs_nonneg _) le_rfl) fun n hn h => ?_
    rw [Finset.mem_Icc] at hn h
    obtain ⟨k, rfl⟩ := Int.eq_ofNat_of_zero_le hn.1
    exact hf k (by omega)
  rw [h0]
  symm
  refine Finset.sum_of_injOn (fun n : ℕ => (n : ℤ)) (fun a _ b _ h => by simpa using h) ?_ ?_ fun _ _ => rfl
  · intro n hn
    simp only [Finset.coe_range, Set.mem_Iio, Finset.coe_Icc, Set.mem_Icc] at *
    omega
  · intro n hn h
    exfalso
    rw [Finset.mem_Icc] at hn
    refine h ⟨n.toNat, ?_, by simp only; omega⟩
    simp only [Finset.coe_range, Set.mem_Iio]; omega

/-- by parts: the orders disappear. -/
theorem intg_prodP_full {m el p : ℕ} (h2 : m ≤ p) :
    intg (-1) 1 (prodP m el p) = (-1) ^ m * intg (-1) 1 (dq el el * dq p p) := by
  induction m with
  | zero => simp [prodP]
  | succ m ih =>
    have hd : derivative (dq el (el + m) * dq p (p - (m + 1))) = prodP (m + 1) el p + prodP m el p := by
      unfold prodP
      rw [derivative_mul, derivative_dq, derivative_dq, show p - (m + 1) + 1 = p - m by omega, add_assoc]
    have h0 := congrArg (intg (-1) 1) hd
    rw [intg_derivative, intg_add, eval_mul, eval_mul, eval_dq_of_lt (k := p - (m + 1)) (by omega) (by norm_num),
      eval_dq_of_lt (k := p - (m + 1)) (by omega) (by norm_num), ih (by omega)] at h0
    rw [pow_succ]
    linarith

theorem intg_prodP_whole {m el p : ℕ} (h2 : m ≤ p) :
    intg (-1) 1 (prodP m el p) = if el = p then (-1) ^ m * (2 ^ el * (el.factorial : ℝ)) ^ 2 * (2 / (2 * el + 1)) else 0 := by
  have hq : ∀ n, dq n n = C (2 ^ n * (n.factorial : ℝ)) * legP n := by
    intro n
    unfold legP
    rw [← mul_assoc, ← C_mul]
    have : (2 : ℝ) ^ n * (n.factorial : ℝ) ≠ 0 := by positivity
    rw [mul_one_div_cancel this, C_1, one_mul]
  rw [intg_prodP_full h2, hq, hq, show C (2 ^ el * (el.factorial : ℝ)) * legP el * (C (2 ^ p * (p.factorial : ℝ)) * legP p) =
    C ((2 ^ el * (el.factorial : ℝ)) * (2 ^ p * (p.factorial : ℝ))) * (legP el * legP p) by
      rw [C_mul (a := 2 ^ el * (el.factorial : ℝ))]; ring, intg_C_mul]
  by_cases h : el = p
  · subst h
    rw [legP_norm, if_pos rfl]; ring
  · rw [legP_orth h, if_neg h]; ring

theorem prodP_comp_neg {m el p : ℕ} (h2 : m ≤ p) : (prodP m el p).comp (-X) = C ((-1) ^ (el + p)) * prodP m el p := by
  unfold prodP
  rw [mul_comp, dq_comp_neg, dq_comp_neg, C_pow, C_neg, C_1]
  have : (-1 : ℝ[X]) ^ (el + m) * (-1) ^ (p - m) = (-1) ^ (el + p) := by
    rw [← pow_add]; congr 1; omega
  rw [← this]; ring

/-- the addition theorem at a point. -/
theorem unsold_poly (l : ℕ) :
    ∑ k ∈ Finset.range (2 * l + 1), (-1 : ℝ[X]) ^ (l + k) * (dq l k * dq l (2 * l - k)) = C ((2 ^ l * (l.factorial : ℝ)) ^ 2) := by
  have hder : derivative (∑ k ∈ Finset.range (2 * l + 1), (-1 : ℝ[X]) ^ (l + k) * (dq l k * dq l (2 * l - k))) = 0 := by
    have ht : ∀ k ∈ Finset.range (2 * l + 1), derivative ((-1 : ℝ[X]) ^ (l + k) * (dq l k * dq l (2 * l - k))) =
        (-1 : ℝ[X]) ^ (l + k) * (dq l k * dq l (2 * l + 1 - k)) - (-1 : ℝ[X]) ^ (l + (k + 1)) * (dq l (k + 1) * dq l (2 * l + 1 - (k + 1))) := by
      intro k hk
      rw [Finset.mem_range] at hk
      have hc : (-1 : ℝ[X]) ^ (l + k) = C ((-1) ^ (l + k)) := by rw [C_pow, C_neg, C_1]
      rw [hc, derivative_C_mul, ← hc, derivative_mul, derivative_dq, derivative_dq, show 2 * l - k + 1 = 2 * l + 1 - k by omega,
        show 2 * l + 1 - (k + 1) = 2 * l - k by omega, ← add_assoc, pow_succ]
      ring
    rw [derivative_sum, Finset.sum_congr rfl ht, Finset.sum_range_sub']
    rw [Nat.sub_zero, Nat.sub_self, dq_eq_zero (show 2 * l < 2 * l + 1 by omega)]
    ring
  have hconst := eq_C_of_derivative_eq_zero hder
  rw [hconst]
  congr 1
  have he := congrArg (eval 1) hconst
  rw [eval_C] at he
  rw [← he, eval_finsetSum, Finset.sum_eq_single l]
  · simp only [eval_mul, eval_pow, eval_neg, eval_one]
    rw [show 2 * l - l = l by omega, eval_dq_one, ← two_mul, pow_mul]
    norm_num
    ring
  · intro k hk hkl
    rw [Finset.mem_range] at hk
    simp only [eval_mul]
    rcases lt_or_gt_of_ne hkl with h | h
    · rw [eval_dq_of_lt h (by norm_num)]; ring
    · rw [eval_dq_of_lt (k := 2 * l - k) (by omega) (by norm_num)]; ring
  · intro h; exact absurd (Finset.mem_range.2 (by omega)) h

end Sleplet.Gaunt
