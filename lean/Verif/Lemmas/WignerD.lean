import Mathlib.Algebra.Polynomial.Taylor
import Mathlib.Algebra.Polynomial.Coeff
import Verif.Lemmas.SphHarm
import Verif.Spec.WignerD
import Verif.Spec.Surface

/-!
The Fourier expansion of spherical harmonics with Wigner-d values at `π/2`.
-/
namespace Sleplet.Gaunt

open Polynomial Complex Spec

/-- the sum of Wigner's formula with `i = l - a`, `j = l - b`, `n = 2l`, over the exponent `u = l - a - s`. -/
noncomputable def wsum (n i j : ℕ) : ℝ :=
  ∑ u ∈ Finset.range (n + 1), if u ≤ i ∧ u ≤ j ∧ i + j ≤ n + u then
    (-1) ^ (j - u) / (((n + u - i - j).factorial * (i - u).factorial * ((j - u).factorial * u.factorial) : ℕ) : ℝ) else 0

theorem wignerHalfPi_eq {l : ℕ} {a b : ℤ} (ha : |a| ≤ l) (hb : |b| ≤ l) :
    wignerHalfPi l a b = (1 / 2) ^ l * Real.sqrt ((l + a).toNat.factorial * (l - a).toNat.factorial * ((l + b).toNat.factorial * (l - b).toNat.factorial)) *
      wsum (2 * l) (l - a).toNat (l - b).toNat := by
  rw [abs_le] at ha hb
  unfold wignerHalfPi wsum
  congr 1
  refine Finset.sum_bij_ne_zero (fun s _ _ => (l - a).toNat - s) ?_ ?_ ?_ ?_
  · intro s _ _
    rw [Finset.mem_range]
    omega
  · intro s _ h1 s' _ h2 h
    have e1 : 0 ≤ (l : ℤ) + b - s ∧ 0 ≤ a - b + s ∧ 0 ≤ (l : ℤ) - a - s := by
      by_contra hh
      exact h1 (if_neg hh)
    have e2 : 0 ≤ (l : ℤ) + b - s' ∧ 0 ≤ a - b + s' ∧ 0 ≤ (l : ℤ) - a - s' := by
      by_contra hh
      exact h2 (if_neg hh)
    omega
  · intro u _ h1
    have e1 : u ≤ (l - a).toNat ∧ u ≤ (l - b).toNat ∧ (l - a).toNat + (l - b).toNat ≤ 2 * l + u := by
      by_contra hh
      exact h1 (if_neg hh)
    have e : 0 ≤ (l : ℤ) + b - (((l - a).toNat - u : ℕ) : ℤ) ∧ 0 ≤ a - b + (((l - a).toNat - u : ℕ) : ℤ) ∧
        0 ≤ (l : ℤ) - a - (((l - a).toNat - u : ℕ) : ℤ) := by omega
    refine ⟨(l - a).toNat - u, by rw [Finset.mem_range]; omega, ?_, by omega⟩
    rw [if_pos e]
    have : ∀ k : ℕ, ((-1 : ℝ)) ^ k ≠ 0 := fun k => pow_ne_zero _ (by norm_num)
    have := this (a - b + (((l - a).toNat - u : ℕ) : ℤ)).toNat
    positivity
  · intro s hs h1
    have e1 : 0 ≤ (l : ℤ) + b - s ∧ 0 ≤ a - b + s ∧ 0 ≤ (l : ℤ) - a - s := by
      by_contra hh
      exact h1 (if_neg hh)
    rw [if_pos e1, if_pos (by omega)]
    rw [show (a - b + s).toNat = (l - b).toNat - ((l - a).toNat - s) by omega,
      show (l + b - s).toNat = 2 * l + ((l - a).toNat - s) - (l - a).toNat - (l - b).toNat by omega,
      show (l - a - s).toNat = (l - a).toNat - s by omega]
    push_cast
    rw [show (l - a).toNat - ((l - a).toNat - s) = s by omega]

/-- as coefficients of a polynomial, in the first index. -/
theorem wsum_first {n i j : ℕ} (hi : i ≤ n) (hj : j ≤ n) :
    (((1 + X) ^ (n - j) * (X - 1) ^ j : ℝ[X])).coeff i = (n - j).factorial * j.factorial * wsum n i j := by
  rw [coeff_mul, Finset.Nat.sum_antidiagonal_eq_sum_range_succ_mk, wsum, Finset.mul_sum]
  have h1 : ∑ u ∈ Finset.range (n + 1), ((n - j).factorial * j.factorial : ℝ) * (if u ≤ i ∧ u ≤ j ∧ i + j ≤ n + u then
      (-1) ^ (j - u) / (((n + u - i - j).factorial * (i - u).factorial * ((j - u).factorial * u.factorial) : ℕ) : ℝ) else 0) =
    ∑ u ∈ Finset.range (i + 1), ((n - j).factorial * j.factorial : ℝ) * (if u ≤ i ∧ u ≤ j ∧ i + j ≤ n + u then
      (-1) ^ (j - u) / (((n + u - i - j).factorial * (i - u).factorial * ((j - u).factorial * u.factorial) : ℕ) : ℝ) else 0) := by
    symm
    apply Finset.sum_subset
    · intro u hu; rw [Finset.mem_range] at hu ⊢; omega
    · intro u _ hu
      rw [Finset.mem_range] at hu
      rw [if_neg (by omega), mul_zero]
  rw [h1, ← Finset.sum_range_reflect]
  refine Finset.sum_congr rfl fun u hu => ?_
  rw [Finset.mem_range] at hu
  simp only
  rw [show i + 1 - 1 - u = i - u by omega, show i - (i - u) = u by omega, coeff_one_add_X_pow,
    show (X - 1 : ℝ[X]) = X + C (-1) by simp [sub_eq_add_neg], coeff_X_add_C_pow]
  by_cases hc : u ≤ i ∧ u ≤ j ∧ i + j ≤ n + u
  · rw [if_pos hc]
    have c1 : ((n - j).choose (i - u) : ℝ) = (n - j).factorial / ((i - u).factorial * (n + u - i - j).factorial) := by
      rw [Nat.cast_choose ℝ (show i - u ≤ n - j by omega), show n - j - (i - u) = n + u - i - j by omega]
    have c2 : (j.choose u : ℝ) = j.factorial / (u.factorial * (j - u).factorial) := Nat.cast_choose ℝ (by omega)
    rw [c1, c2]
    push_cast
    field_simp
  · rw [if_neg hc, mul_zero]
    by_cases h2 : u ≤ j
    · rw [Nat.choose_eq_zero_of_lt (show n - j < i - u by omega)]
      simp
    · rw [Nat.choose_eq_zero_of_lt (show j < u by omega)]
      simp

/-- as coefficients of a polynomial, in the second index. -/
theorem wsum_second {n i j : ℕ} (hi : i ≤ n) (hj : j ≤ n) :
    (((1 - X) ^ (n - i) * (1 + X) ^ i : ℝ[X])).coeff j = (n - i).factorial * i.factorial * wsum n i j := by
  have hsym : wsum n i j = (-1) ^ (i + j) * wsum n j i := by
    unfold wsum
    rw [Finset.mul_sum]
    refine Finset.sum_congr rfl fun u _ => ?_
    by_cases hc : u ≤ i ∧ u ≤ j ∧ i + j ≤ n + u
    · rw [if_pos hc, if_pos (by omega)]
      have h1 : ((-1 : ℝ)) ^ (i + j) = (-1) ^ (i - u) * (-1) ^ (j - u) := by
        rw [← pow_add, show i + j = (i - u + (j - u)) + 2 * u by omega, pow_add _ _ (2 * u), pow_mul]
        simp
      have h2 : ((-1 : ℝ)) ^ (i - u) * (-1) ^ (i - u) = 1 := by rw [← mul_pow]; simp
      rw [h1, show n + u - j - i = n + u - i - j by omega]
      rw [Nat.mul_comm (j - u).factorial u.factorial, Nat.mul_comm (i - u).factorial u.factorial]
      push_cast
      field_simp
      linear_combination -h2
    · rw [if_neg hc, if_neg (by omega), mul_zero]
  have h := wsum_first hj hi
  have hp : ((1 - X) ^ (n - i) * (1 + X) ^ i : ℝ[X]) =
      C ((-1) ^ i) * (((1 + X) ^ (n - i) * (X - 1) ^ i : ℝ[X])).comp (-X) := by
    simp only [mul_comp, pow_comp, add_comp, sub_comp, one_comp, X_comp, C_pow, C_neg, C_1]
    rw [show (-X - 1 : ℝ[X]) = -1 * (1 + X) by ring, mul_pow, show (1 + -X : ℝ[X]) = 1 - X by ring]
    have : ((-1 : ℝ[X])) ^ i * (-1) ^ i = 1 := by rw [← mul_pow]; simp
    linear_combination -((1 - X) ^ (n - i) * (1 + X) ^ i) * this
  have hcomp : ∀ (p : ℝ[X]) (k : ℕ), (p.comp (-X)).coeff k = (-1) ^ k * p.coeff k := by
    intro p k
    have : (-X : ℝ[X]) = C (-1) * X := by simp
    rw [this, comp_C_mul_X_coeff, mul_comm]
  rw [hp, coeff_C_mul, hcomp, h, hsym, pow_add]
  ring

/-- products with the middle column, as coefficients of polynomials. -/
theorem wigner_product {l : ℕ} {a m : ℤ} (ha : |a| ≤ l) (hm : |m| ≤ l) :
    wignerHalfPi l a m * wignerHalfPi l a 0 =
      (1 / 4) ^ l * Real.sqrt ((l + m).toNat.factorial * (l - m).toNat.factorial) / l.factorial *
        ((((1 - X) ^ (l + a).toNat * (1 + X) ^ (l - a).toNat : ℝ[X])).coeff (l - m).toNat *
          (((X ^ 2 - 1) ^ l : ℝ[X])).coeff (l - a).toNat) := by
  have h0 : |(0 : ℤ)| ≤ l := by simp
  have e1 := wignerHalfPi_eq ha hm
  have e2 := wignerHalfPi_eq ha h0
  rw [abs_le] at ha hm
  have f1 := wsum_second (n := 2 * l) (i := (l - a).toNat) (j := (l - m).toNat) (by omega) (by omega)
  have f2 := wsum_first (n := 2 * l) (i := (l - a).toNat) (j := l) (by omega) (by omega)
  rw [show 2 * l - (l - a).toNat = (l + a).toNat by omega] at f1
  rw [show 2 * l - l = l by omega, ← mul_pow, show ((1 + X) * (X - 1) : ℝ[X]) = X ^ 2 - 1 by ring] at f2
  rw [show ((l : ℤ) - 0).toNat = l by omega, show ((l : ℤ) + 0).toNat = l by omega] at e2
  rw [e1, e2, f1, f2]
  set A : ℝ := (l + a).toNat.factorial * (l - a).toNat.factorial with hA
  set M : ℝ := (l + m).toNat.factorial * (l - m).toNat.factorial
  have hA0 : 0 ≤ A := by positivity
  have hM0 : 0 ≤ M := by positivity
  have hl : (l.factorial : ℝ) ≠ 0 := by positivity
  rw [Real.sqrt_mul hA0, Real.sqrt_mul hA0, Real.sqrt_mul_self (by positivity),
    show ((1 : ℝ) / 4) ^ l = (1 / 2) ^ l * (1 / 2) ^ l by rw [← mul_pow]; norm_num]
  have hs := Real.mul_self_sqrt hA0
  field_simp
  linear_combination (Real.sqrt M * wsum (2 * l) (l - a).toNat (l - m).toNat * wsum (2 * l) (l - a).toNat l) * hs

theorem sum_Icc_range (l : ℕ) (f : ℤ → ℂ) : ∑ a ∈ Finset.Icc (-(l : ℤ)) l, f a = ∑ k ∈ Finset.range (2 * l + 1), f (l - k) := by
  refine Finset.sum_nbij' (fun a => (l - a).toNat) (fun k : ℕ => (l : ℤ) - k) ?_ ?_ ?_ ?_ ?_
  · intro a ha; rw [Finset.mem_Icc] at ha; rw [Finset.mem_range]; omega
  · intro k hk; rw [Finset.mem_range] at hk; rw [Finset.mem_Icc]; omega
  · intro a ha; rw [Finset.mem_Icc] at ha; omega
  · intro k hk; rw [Finset.mem_range] at hk; omega
  · intro a ha; rw [Finset.mem_Icc] at ha; congr 1; omega

theorem coeff_sq_sub_one (l k : ℕ) : (((X ^ 2 - 1) ^ l : ℂ[X])).coeff k =
    ∑ r ∈ Finset.range (l + 1), if k = 2 * r then (-1) ^ (l - r) * (l.choose r : ℂ) else 0 := by
  rw [sub_eq_add_neg, add_pow, finsetSum_coeff]
  refine Finset.sum_congr rfl fun r _ => ?_
  rw [← pow_mul, show ((X : ℂ[X]) ^ (2 * r) * (-1) ^ (l - r) * (l.choose r : ℂ[X])) =
    C ((-1) ^ (l - r) * (l.choose r : ℂ)) * X ^ (2 * r) by simp; ring, coeff_C_mul_X_pow]

/-- the generating function of the products. -/
theorem wigner_generating (l : ℕ) {z : ℂ} (hz : z ≠ 0) :
    ∑ k ∈ Finset.range (2 * l + 1), C ((((X ^ 2 - 1) ^ l : ℂ[X])).coeff k * z ^ ((l : ℤ) - k)) * ((1 - X) ^ (2 * l - k) * (1 + X) ^ k) =
      (C z⁻¹ * (1 + X) ^ 2 - C z * (1 - X) ^ 2) ^ l := by
  rw [sub_eq_add_neg (C z⁻¹ * (1 + X) ^ 2), add_pow]
  have h : ∀ k ∈ Finset.range (2 * l + 1), C ((((X ^ 2 - 1) ^ l : ℂ[X])).coeff k * z ^ ((l : ℤ) - k)) * ((1 - X) ^ (2 * l - k) * (1 + X) ^ k) =
      ∑ r ∈ Finset.range (l + 1), if k = 2 * r then
        C ((-1) ^ (l - r) * (l.choose r : ℂ) * z ^ ((l : ℤ) - 2 * r)) * ((1 - X) ^ (2 * l - 2 * r) * (1 + X) ^ (2 * r)) else 0 := by
    intro k _
    rw [coeff_sq_sub_one, Finset.sum_mul, map_sum, Finset.sum_mul]
    refine Finset.sum_congr rfl fun r _ => ?_
    split
    · rename_i hk
      subst hk
      push_cast
      rfl
    · simp
  rw [Finset.sum_congr rfl h, Finset.sum_comm]
  refine Finset.sum_congr rfl fun r hr => ?_
  rw [Finset.mem_range] at hr
  rw [Finset.sum_ite_eq' _ _ _, if_pos (by rw [Finset.mem_range]; omega)]
  have hzz : z ^ ((l : ℤ) - 2 * r) = z⁻¹ ^ r * z ^ (l - r) := by
    rw [inv_pow, ← zpow_natCast, ← zpow_natCast, ← zpow_neg, ← zpow_add₀ hz]
    congr 1
    omega
  rw [hzz, show 2 * l - 2 * r = 2 * (l - r) by omega, pow_mul, pow_mul, neg_pow (C z * (1 - X) ^ 2), mul_pow, mul_pow]
  simp only [map_mul, map_pow, map_neg, map_one, map_natCast]
  ring

/-- Taylor coefficients of `(x² - 1)^l` along a complex direction. -/
theorem coeff_taylor_q (l k : ℕ) (x : ℝ) (w : ℂ) :
    ((((X ^ 2 - 1) ^ l : ℂ[X])).comp (C w * X + C (x : ℂ))).coeff k * k.factorial = (((dq l k).eval x : ℝ) : ℂ) * w ^ k := by
  have h1 : (((X ^ 2 - 1) ^ l : ℂ[X])).comp (C w * X + C (x : ℂ)) = (taylor (x : ℂ) (((X ^ 2 - 1) ^ l : ℂ[X]))).comp (C w * X) := by
    rw [taylor_apply, comp_assoc]
    simp
  rw [h1, comp_C_mul_X_coeff, taylor_coeff]
  have h2 := congrArg (fun f => f ((X ^ 2 - 1) ^ l : ℂ[X])) (factorial_smul_hasseDeriv (R := ℂ) k)
  have h3 : ((X ^ 2 - 1) ^ l : ℂ[X]) = (q ^ l).map ofRealHom := by simp [q]
  have h4 : (k.factorial : ℂ) * (hasseDeriv k ((X ^ 2 - 1) ^ l : ℂ[X])).eval (x : ℂ) = (((dq l k).eval x : ℝ) : ℂ) := by
    have h5 : eval (x : ℂ) (k.factorial • hasseDeriv k ((X ^ 2 - 1) ^ l : ℂ[X])) = _ := congrArg (eval (x : ℂ)) h2
    rw [eval_smul, nsmul_eq_mul] at h5
    rw [h5, h3, iterate_derivative_map, eval_map]
    exact eval₂_at_apply ofRealHom x
  linear_combination w ^ k * h4

theorem thetaPart_neg_int {l : ℕ} {m : ℤ} (h : |m| ≤ l) (th : ℝ) : thetaPart l (-m) th = (-1) ^ m * thetaPart l m th := by
  rw [abs_le] at h
  rcases le_total 0 m with h0 | h0
  · obtain ⟨k, rfl⟩ : ∃ k : ℕ, m = k := ⟨m.toNat, by omega⟩
    rw [thetaPart_neg (by omega), zpow_natCast]
  · obtain ⟨k, rfl⟩ : ∃ k : ℕ, m = -(k : ℤ) := ⟨(-m).toNat, by omega⟩
    rw [neg_neg, thetaPart_neg (by omega), ← mul_assoc, ← zpow_natCast, ← zpow_add₀ (by norm_num)]
    simp

theorem wigner_fourier_interior {l : ℕ} {m : ℤ} (hm : |m| ≤ l) {th : ℝ} (h : 0 < Real.sin th) :
    (Real.sqrt ((2 * l + 1) / (4 * Real.pi)) : ℂ) * ∑ a ∈ Finset.Icc (-(l : ℤ)) l,
      ((wignerHalfPi l a m * wignerHalfPi l a 0 : ℝ) : ℂ) * exp (I * a * th) = I ^ m * (thetaPart l m th : ℂ) := by
  set N : ℝ := Real.sqrt ((2 * l + 1) / (4 * Real.pi)) with hN
  set z : ℂ := exp (I * th) with hzdef
  have hz : z ≠ 0 := exp_ne_zero _
  have hexp : ∀ a : ℤ, exp (I * a * th) = z ^ a := by
    intro a
    rw [hzdef, ← exp_int_mul]
    congr 1
    ring
  set G : ℝ := ((l + m).toNat.factorial : ℝ) with hG
  set F : ℝ := ((l - m).toNat.factorial : ℝ) with hF
  have hG0 : 0 < G := by positivity
  have hF0 : 0 < F := by positivity
  have hl0 : (l.factorial : ℝ) ≠ 0 := by positivity
  -- the sum is a coefficient of the generating function
  have hsum : ∑ a ∈ Finset.Icc (-(l : ℤ)) l, ((wignerHalfPi l a m * wignerHalfPi l a 0 : ℝ) : ℂ) * exp (I * a * th) =
      (((1 / 4) ^ l * Real.sqrt (G * F) / l.factorial : ℝ) : ℂ) *
        (((C z⁻¹ * (1 + X) ^ 2 - C z * (1 - X) ^ 2) ^ l : ℂ[X])).coeff (l - m).toNat := by
    rw [← wigner_generating l hz, finsetSum_coeff, Finset.mul_sum, sum_Icc_range]
    refine Finset.sum_congr rfl fun k hk => ?_
    rw [Finset.mem_range] at hk
    rw [wigner_product (by rw [abs_le]; omega) hm, hexp, coeff_C_mul, show ((l : ℤ) - (l - k)).toNat = k by omega,
      show ((l : ℤ) + (l - k)).toNat = 2 * l - k by omega]
    have c1 : ((((1 - X) ^ (2 * l - k) * (1 + X) ^ k : ℝ[X]).coeff (l - m).toNat : ℝ) : ℂ) =
        ((1 - X) ^ (2 * l - k) * (1 + X) ^ k : ℂ[X]).coeff (l - m).toNat := by
      have : ((1 - X) ^ (2 * l - k) * (1 + X) ^ k : ℂ[X]) = ((1 - X) ^ (2 * l - k) * (1 + X) ^ k : ℝ[X]).map ofRealHom := by simp
      rw [this, coeff_map]
      rfl
    have c2 : ((((X ^ 2 - 1) ^ l : ℝ[X]).coeff k : ℝ) : ℂ) = ((X ^ 2 - 1) ^ l : ℂ[X]).coeff k := by
      have : ((X ^ 2 - 1) ^ l : ℂ[X]) = ((X ^ 2 - 1) ^ l : ℝ[X]).map ofRealHom := by simp
      rw [this, coeff_map]
      rfl
    rw [← c1, ← c2]
    push_cast
    ring
  -- the generating function is a Taylor expansion of (x² - 1)^l
  have hbase : C (Real.sin th : ℂ) * (C z⁻¹ * (1 + X) ^ 2 - C z * (1 - X) ^ 2) =
      C (2 * I) * ((X ^ 2 - 1 : ℂ[X])).comp (C (-I * Real.sin th) * X + C (Real.cos th : ℂ)) := by
    have hz1 : z = Real.cos th + Real.sin th * I := by
      rw [hzdef, mul_comm, exp_mul_I, ofReal_cos, ofReal_sin]
    have hsc : (Real.sin th : ℂ) ^ 2 + (Real.cos th : ℂ) ^ 2 = 1 := by exact_mod_cast Real.sin_sq_add_cos_sq th
    have hz2 : z⁻¹ = Real.cos th - Real.sin th * I := by
      rw [inv_eq_iff_eq_inv, eq_comm]
      apply inv_eq_of_mul_eq_one_right
      rw [hz1]
      linear_combination hsc - (Real.sin th : ℂ) ^ 2 * I_sq
    rw [hz2, hz1]
    simp only [sub_comp, pow_comp, X_comp, one_comp, C_sub, C_add, C_mul, C_neg]
    have hI : (C I : ℂ[X]) ^ 2 = -1 := by rw [← C_pow, I_sq]; simp
    have hsc' : (C (Real.sin th : ℂ) : ℂ[X]) ^ 2 + C (Real.cos th : ℂ) ^ 2 = 1 := by
      rw [← C_pow, ← C_pow, ← C_add, hsc, C_1]
    rw [show (C (2 : ℂ) : ℂ[X]) = 2 from rfl]
    linear_combination (-2 * C I) * hsc' +
      (-2 * C I * C (Real.sin th : ℂ) ^ 2 * X ^ 2 + 4 * C (Real.sin th : ℂ) * C (Real.cos th : ℂ) * X) * hI
  have hgen : (Real.sin th : ℂ) ^ l * (((C z⁻¹ * (1 + X) ^ 2 - C z * (1 - X) ^ 2) ^ l : ℂ[X])).coeff (l - m).toNat * F =
      (2 * I) ^ l * ((((dq l (l - m).toNat).eval (Real.cos th) : ℝ) : ℂ) * (-I * Real.sin th) ^ (l - m).toNat) := by
    rw [← coeff_taylor_q, ← coeff_C_mul _ (a := (Real.sin th : ℂ) ^ l), C_pow, ← mul_pow, hbase, mul_pow, ← C_pow, coeff_C_mul, pow_comp]
    rw [hF]
    push_cast
    ring
  set D : ℝ := (dq l (l - m).toNat).eval (Real.cos th) with hD
  set c := (((C z⁻¹ * (1 + X) ^ 2 - C z * (1 - X) ^ 2) ^ l : ℂ[X])).coeff (l - m).toNat
  have hs : (Real.sin th : ℂ) ≠ 0 := by exact_mod_cast h.ne'
  rw [abs_le] at hm
  have hw : (-I * (Real.sin th : ℂ)) ^ (l - m).toNat = (-I) ^ l * (Real.sin th : ℂ) ^ l * (I ^ m * (Real.sin th : ℂ) ^ (-m)) := by
    have hi : (-I : ℂ) ≠ 0 := neg_ne_zero.2 I_ne_zero
    have e : ((l - m).toNat : ℤ) = (l : ℤ) + -m := by omega
    rw [← zpow_natCast, e, mul_zpow, zpow_add₀ hi, zpow_add₀ hs, zpow_natCast, zpow_natCast]
    have : (-I : ℂ) ^ (-m) = I ^ m := by
      rw [zpow_neg, ← inv_zpow, inv_neg, inv_I, neg_neg]
    rw [this]
    ring
  have hc : c = 2 ^ l * D / F * (I ^ m * (Real.sin th : ℂ) ^ (-m)) := by
    have h2 : (2 * I : ℂ) ^ l * (-I) ^ l = 2 ^ l := by
      rw [← mul_pow]
      congr 1
      linear_combination (-2 : ℂ) * I_sq
    have hFc : (F : ℂ) ≠ 0 := by exact_mod_cast hF0.ne'
    rw [hw] at hgen
    have hsl : (Real.sin th : ℂ) ^ l ≠ 0 := pow_ne_zero _ hs
    have : (Real.sin th : ℂ) ^ l * (c * F) = (Real.sin th : ℂ) ^ l * (2 ^ l * D * (I ^ m * (Real.sin th : ℂ) ^ (-m))) := by
      rw [← h2]
      linear_combination hgen
    have := mul_left_cancel₀ hsl this
    field_simp
    linear_combination this
  -- the other side, by Rodrigues' formula for the order -m
  have hth : thetaPart l m th = N * Real.sqrt (G / F) / (2 ^ l * l.factorial) * Real.sin th ^ (-m) * D := by
    have h1 := thetaPart_neg_int (l := l) (m := m) (by rw [abs_le]; omega) th
    have h2 : ((-1 : ℝ)) ^ m * (-1) ^ m = 1 := by rw [← mul_zpow]; simp
    have h3 : thetaPart l m th = (-1) ^ m * thetaPart l (-m) th := by
      rw [h1, ← mul_assoc, h2, one_mul]
    have h4 : Real.sqrt (1 - Real.cos th ^ 2) = Real.sin th := by
      rw [← Real.sin_sq, Real.sqrt_sq h.le]
    have h5 : ((-1 : ℝ)) ^ (-m) = (-1) ^ m := by
      rw [zpow_neg, ← inv_zpow]; norm_num
    rw [h3]
    unfold thetaPart nrm assocLegendre
    rw [show (l : ℤ) - -m = l + m by ring, show (l : ℤ) + -m = l - m by ring, h4, h5, Real.sqrt_mul (by positivity)]
    change (-1) ^ m * (N * Real.sqrt (G / F) * ((-1) ^ m / (2 ^ l * (l.factorial : ℝ)) * Real.sin th ^ (-m) * D)) = _
    rw [show (-1) ^ m * (N * Real.sqrt (G / F) * ((-1) ^ m / (2 ^ l * (l.factorial : ℝ)) * Real.sin th ^ (-m) * D)) =
      ((-1) ^ m * (-1) ^ m) * (N * Real.sqrt (G / F) / (2 ^ l * l.factorial) * Real.sin th ^ (-m) * D) by ring, h2, one_mul]
  have hGF : Real.sqrt (G * F) / F = Real.sqrt (G / F) := by
    rw [Real.sqrt_mul hG0.le, Real.sqrt_div hG0.le, div_eq_div_iff hF0.ne' (Real.sqrt_pos.2 hF0).ne', mul_assoc,
      Real.mul_self_sqrt hF0.le]
  rw [hsum, hc, hth, ← hGF]
  have h4 : ((1 : ℂ) / 4) ^ l * 2 ^ l * 2 ^ l = 1 := by
    rw [← mul_pow, ← mul_pow]; norm_num
  have hFc : (F : ℂ) ≠ 0 := by exact_mod_cast hF0.ne'
  have hlc : (l.factorial : ℂ) ≠ 0 := by exact_mod_cast hl0
  push_cast
  field_simp
  linear_combination (N * Real.sqrt (G * F) * D * sin (th : ℂ) ^ (-m) : ℂ) * h4

/-- With Wigner's values, the Fourier expansion is the spherical harmonic of Rodrigues' formula. -/
theorem harmonic_wigner {l : ℕ} {m : ℤ} (hm : |m| ≤ l) {th : ℝ} (h : th ∈ Set.Icc 0 Real.pi) (ph : ℝ) :
    harmonic wignerHalfPi l m th ph = sphHarm l m th ph := by
  have hE : Set.EqOn (fun th : ℝ => (Real.sqrt ((2 * l + 1) / (4 * Real.pi)) : ℂ) * ∑ a ∈ Finset.Icc (-(l : ℤ)) l,
      ((wignerHalfPi l a m * wignerHalfPi l a 0 : ℝ) : ℂ) * exp (I * a * th)) (fun th : ℝ => I ^ m * (thetaPart l m th : ℂ))
      (Set.Ioo 0 Real.pi) := fun x hx => wigner_fourier_interior hm (Real.sin_pos_of_mem_Ioo hx)
  have hc := hE.closure (by fun_prop) (continuous_const.mul (continuous_ofReal.comp (continuous_thetaPart hm)))
  rw [closure_Ioo Real.pi_pos.ne] at hc
  have h1 := hc h
  dsimp only at h1
  have h2 : (-I : ℂ) ^ m * I ^ m = 1 := by
    rw [← mul_zpow, show -I * I = 1 by rw [neg_mul, I_mul_I, neg_neg], one_zpow]
  rw [sphHarm_eq]
  unfold harmonic
  calc _ = (-I) ^ m * ((Real.sqrt ((2 * l + 1) / (4 * Real.pi)) : ℂ) * ∑ a ∈ Finset.Icc (-(l : ℤ)) l,
      ((wignerHalfPi l a m * wignerHalfPi l a 0 : ℝ) : ℂ) * exp (I * a * th)) * exp (I * m * ph) := by ring
    _ = _ := by rw [h1, ← mul_assoc, h2, one_mul]

end Sleplet.Gaunt
