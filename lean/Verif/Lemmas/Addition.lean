import Mathlib.Algebra.Polynomial.Homogenize
import Mathlib.Algebra.Polynomial.Taylor
import Mathlib.Algebra.Polynomial.HasseDeriv
import Verif.Lemmas.SphHarm

/-!
The addition theorem of the spherical harmonics, by the invariant bilinear form of binary forms of degree `2l`.
-/
namespace Sleplet.Gaunt

open Polynomial Complex Sleplet.Spec

/-- the linear polynomial `a X + b`. -/
noncomputable def lin (a b : ℂ) : ℂ[X] := C a * X + C b

theorem natDegree_lin (a b : ℂ) : (lin a b).natDegree ≤ 1 := natDegree_linear_le

theorem natDegree_lin_pow (a b : ℂ) (n : ℕ) : (lin a b ^ n).natDegree ≤ n :=
  (natDegree_pow_le_of_le n (natDegree_lin a b)).trans (by simp)

theorem coeff_lin_pow (a b : ℂ) (n k : ℕ) : (lin a b ^ n).coeff k = (n.choose k : ℂ) * (a ^ k * b ^ (n - k)) := by
  unfold lin
  rw [add_pow, finset_sum_coeff]
  simp only [mul_pow, ← C_pow, ← C_eq_natCast]
  have h : ∀ i ∈ Finset.range (n + 1), (C (a ^ i) * X ^ i * C (b ^ (n - i)) * C (n.choose i : ℂ)).coeff k =
      if i = k then (n.choose k : ℂ) * (a ^ k * b ^ (n - k)) else 0 := by
    intro i _
    rw [coeff_mul_C, coeff_mul_C, coeff_C_mul, coeff_X_pow]
    split_ifs with h1 h2 h2
    · subst h1; ring
    · exact absurd h1.symm h2
    · exact absurd h2.symm h1
    · ring
  rw [Finset.sum_congr rfl h, Finset.sum_ite_eq' (Finset.range (n + 1)) k]
  split_ifs with h3
  · rfl
  · rw [Finset.mem_range] at h3
    rw [Nat.choose_eq_zero_of_lt (by omega)]; simp

theorem choose_identity {l k j : ℕ} (h1 : j ≤ k) (h2 : j ≤ l) (h3 : k - j ≤ l) :
    k.factorial * (2 * l - k).factorial * (l.choose (k - j) * l.choose j) =
      l.factorial ^ 2 * (k.choose j * (2 * l - k).choose (l - j)) := by
  have e1 := Nat.choose_mul_factorial_mul_factorial h3
  have e2 := Nat.choose_mul_factorial_mul_factorial h2
  have e3 := Nat.choose_mul_factorial_mul_factorial h1
  have e4 := Nat.choose_mul_factorial_mul_factorial (show l - j ≤ 2 * l - k by omega)
  rw [show 2 * l - k - (l - j) = l - (k - j) by omega] at e4
  have p1 := Nat.factorial_pos j
  have p2 := Nat.factorial_pos (k - j)
  have p3 := Nat.factorial_pos (l - j)
  have p4 := Nat.factorial_pos (l - (k - j))
  have hp : 0 < j.factorial * (k - j).factorial * (l - j).factorial * (l - (k - j)).factorial := by positivity
  refine Nat.eq_of_mul_eq_mul_left hp ?_
  calc _ = k.factorial * (2 * l - k).factorial * (l.choose (k - j) * (k - j).factorial * (l - (k - j)).factorial) *
        (l.choose j * j.factorial * (l - j).factorial) := by ring
    _ = (k.choose j * j.factorial * (k - j).factorial) *
        ((2 * l - k).choose (l - j) * (l - j).factorial * (l - (k - j)).factorial) * l.factorial * l.factorial := by
        rw [e1, e2, e3, e4]
    _ = _ := by ring

theorem coeff_two_lin (a1 b1 a2 b2 : ℂ) {l k : ℕ} (hk : k ≤ 2 * l) :
    (k.factorial : ℂ) * ((2 * l - k).factorial : ℂ) * (lin a1 b1 ^ l * lin a2 b2 ^ l).coeff k =
      (l.factorial : ℂ) ^ 2 * (lin a2 a1 ^ k * lin b2 b1 ^ (2 * l - k)).coeff l := by
  rw [coeff_mul, coeff_mul, ← Finset.Nat.sum_antidiagonal_swap, Finset.Nat.sum_antidiagonal_eq_sum_range_succ_mk,
    Finset.Nat.sum_antidiagonal_eq_sum_range_succ_mk, Finset.mul_sum, Finset.mul_sum]
  simp only [Prod.fst_swap, Prod.snd_swap, coeff_lin_pow]
  rw [← Finset.sum_filter_of_ne (s := Finset.range k.succ) (p := fun j => j ≤ l ∧ k - j ≤ l),
    ← Finset.sum_filter_of_ne (s := Finset.range l.succ) (p := fun j => j ≤ k ∧ k - j ≤ l)]
  · have hs : (Finset.range k.succ).filter (fun j => j ≤ l ∧ k - j ≤ l) = (Finset.range l.succ).filter fun j => j ≤ k ∧ k - j ≤ l := by
      ext j
      simp only [Finset.mem_filter, Finset.mem_range]
      omega
    rw [hs]
    refine Finset.sum_congr rfl fun j hj => ?_
    simp only [Finset.mem_filter, Finset.mem_range] at hj
    have hc := choose_identity (l := l) (k := k) (j := j) hj.2.1 (by omega) hj.2.2
    have hc' : (k.factorial : ℂ) * ((2 * l - k).factorial : ℂ) * ((l.choose (k - j) : ℂ) * (l.choose j : ℂ)) =
        (l.factorial : ℂ) ^ 2 * ((k.choose j : ℂ) * ((2 * l - k).choose (l - j) : ℂ)) := by exact_mod_cast hc
    rw [show 2 * l - k - (l - j) = l - (k - j) by omega]
    linear_combination (a1 ^ (k - j) * b1 ^ (l - (k - j)) * (a2 ^ j * b2 ^ (l - j))) * hc'
  · intro j hj h
    rw [Finset.mem_range] at hj
    by_contra h'
    apply h
    rcases le_or_gt j k with h1 | h1
    · rw [Nat.choose_eq_zero_of_lt (show 2 * l - k < l - j by omega)]; simp
    · rw [Nat.choose_eq_zero_of_lt h1]; simp
  · intro j hj h
    rw [Finset.mem_range] at hj
    by_contra h'
    apply h
    rcases le_or_gt j l with h1 | h1
    · rw [Nat.choose_eq_zero_of_lt (show l < k - j by omega)]; simp
    · rw [Nat.choose_eq_zero_of_lt h1]; simp

theorem homogeneous_two_lin (a1 b1 a2 b2 : ℂ) (l : ℕ) (u v : ℂ[X]) :
    ∑ k ∈ Finset.range (2 * l + 1), C ((lin a1 b1 ^ l * lin a2 b2 ^ l).coeff k) * (u ^ k * v ^ (2 * l - k)) =
      (C a1 * u + C b1 * v) ^ l * (C a2 * u + C b2 * v) ^ l := by
  have hone : ∀ a b : ℂ, MvPolynomial.aeval ![u, v] ((lin a b).homogenize 1) = C a * u + C b * v := by
    intro a b
    have : (lin a b).homogenize 1 = MvPolynomial.C a * MvPolynomial.X 0 + MvPolynomial.C b * MvPolynomial.X 1 := by
      unfold lin
      rw [homogenize_add, homogenize_C_mul, homogenize_X (by norm_num), homogenize_C]
      simp
    rw [this]
    simp [MvPolynomial.algebraMap_eq, MvPolynomial.aeval_def]
  have hpow : ∀ a b : ℂ, (lin a b ^ l).homogenize l = ((lin a b).homogenize 1) ^ l := by
    intro a b
    have := homogenize_finsetProd (s := Finset.range l) (p := fun _ => lin a b) (n := fun _ => 1)
      (fun _ _ => natDegree_lin a b)
    simpa using this
  have h2 : (lin a1 b1 ^ l * lin a2 b2 ^ l).homogenize (2 * l) = ((lin a1 b1).homogenize 1) ^ l * ((lin a2 b2).homogenize 1) ^ l := by
    rw [two_mul, homogenize_mul _ _ (natDegree_lin_pow a1 b1 l) (natDegree_lin_pow a2 b2 l), hpow, hpow]
  have h3 := congrArg (MvPolynomial.aeval ![u, v]) h2
  rw [map_mul, map_pow, map_pow, hone, hone] at h3
  rw [← h3]
  unfold homogenize
  rw [Finset.Nat.sum_antidiagonal_eq_sum_range_succ_mk, map_sum]
  refine Finset.sum_congr rfl fun k _ => ?_
  rw [MvPolynomial.aeval_monomial]
  simp [Finsupp.prod_fintype, Fin.prod_univ_two]

/-- the form `∑_k k! (2l-k)! f_k g_k` on products of `l`-th powers of two linear polynomials. -/
theorem form_two_lin (a1 b1 a2 b2 c1 d1 c2 d2 : ℂ) (l : ℕ) :
    ∑ k ∈ Finset.range (2 * l + 1), (k.factorial : ℂ) * ((2 * l - k).factorial : ℂ) *
        ((lin a1 b1 ^ l * lin a2 b2 ^ l).coeff k * (lin c1 d1 ^ l * lin c2 d2 ^ l).coeff k) =
      (l.factorial : ℂ) ^ 2 * ∑ j ∈ Finset.range (l + 1), (l.choose j : ℂ) ^ 2 *
        (((a1 * c2 + b1 * d2) * (a2 * c1 + b2 * d1)) ^ j * ((a1 * c1 + b1 * d1) * (a2 * c2 + b2 * d2)) ^ (l - j)) := by
  have h1 : ∀ k ∈ Finset.range (2 * l + 1), (k.factorial : ℂ) * ((2 * l - k).factorial : ℂ) *
        ((lin a1 b1 ^ l * lin a2 b2 ^ l).coeff k * (lin c1 d1 ^ l * lin c2 d2 ^ l).coeff k) =
      (l.factorial : ℂ) ^ 2 * (C ((lin a1 b1 ^ l * lin a2 b2 ^ l).coeff k) * (lin c2 c1 ^ k * lin d2 d1 ^ (2 * l - k))).coeff l := by
    intro k hk
    rw [Finset.mem_range] at hk
    rw [coeff_C_mul]
    linear_combination (lin a1 b1 ^ l * lin a2 b2 ^ l).coeff k * coeff_two_lin c1 d1 c2 d2 (l := l) (k := k) (by omega)
  rw [Finset.sum_congr rfl h1, ← Finset.mul_sum, ← finset_sum_coeff, homogeneous_two_lin]
  congr 1
  have e1 : C a1 * lin c2 c1 + C b1 * lin d2 d1 = lin (a1 * c2 + b1 * d2) (a1 * c1 + b1 * d1) := by
    unfold lin; simp only [C_add, C_mul]; ring
  have e2 : C a2 * lin c2 c1 + C b2 * lin d2 d1 = lin (a2 * c2 + b2 * d2) (a2 * c1 + b2 * d1) := by
    unfold lin; simp only [C_add, C_mul]; ring
  rw [e1, e2, coeff_mul, Finset.Nat.sum_antidiagonal_eq_sum_range_succ_mk]
  refine Finset.sum_congr rfl fun j hj => ?_
  rw [Finset.mem_range] at hj
  simp only [coeff_lin_pow]
  rw [Nat.choose_symm (by omega : j ≤ l), show l - (l - j) = j by omega, mul_pow, mul_pow]
  ring

/-- the Legendre polynomial as a sum of squares of binomial coefficients. -/
theorem legendre_eq (l : ℕ) (y : ℝ) : assocLegendre l 0 y =
    ∑ j ∈ Finset.range (l + 1), (l.choose j : ℝ) ^ 2 * (((y - 1) / 2) ^ j * ((y + 1) / 2) ^ (l - j)) := by
  have h1 : assocLegendre l 0 y = 1 / (2 ^ l * (l.factorial : ℝ)) * (dq l l).eval y := by
    unfold assocLegendre dq q
    simp
  rw [h1]
  unfold dq
  rw [q_eq, mul_pow, iterate_derivative_mul, eval_finset_sum, Finset.mul_sum]
  refine Finset.sum_congr rfl fun j hj => ?_
  rw [Finset.mem_range] at hj
  rw [iterate_derivative_X_sub_pow, iterate_derivative_X_add_pow]
  simp only [nsmul_eq_mul, eval_mul, eval_pow, eval_sub, eval_add, eval_X, eval_C, eval_natCast]
  rw [show l - (l - j) = j by omega, div_pow, div_pow]
  have hl : (l.factorial : ℝ) ≠ 0 := by positivity
  have e1 : ((l - (l - j)).factorial : ℝ) * (l.descFactorial (l - j) : ℝ) = l.factorial := by
    exact_mod_cast Nat.factorial_mul_descFactorial (show l - j ≤ l by omega)
  have e2 : ((l - j).factorial : ℝ) * (l.descFactorial j : ℝ) = l.factorial := by
    exact_mod_cast Nat.factorial_mul_descFactorial (show j ≤ l by omega)
  have e3 : (l.choose j : ℝ) * (j.factorial : ℝ) * ((l - j).factorial : ℝ) = l.factorial := by
    exact_mod_cast Nat.choose_mul_factorial_mul_factorial (show j ≤ l by omega)
  rw [show l - (l - j) = j by omega] at e1
  have p1 : (j.factorial : ℝ) ≠ 0 := by positivity
  have p2 : ((l - j).factorial : ℝ) ≠ 0 := by positivity
  have hd : (l.descFactorial (l - j) : ℝ) * (l.descFactorial j : ℝ) = l.factorial * l.choose j := by
    have : (j.factorial : ℝ) * ((l - j).factorial : ℝ) * ((l.descFactorial (l - j) : ℝ) * (l.descFactorial j : ℝ)) =
        (j.factorial : ℝ) * ((l - j).factorial : ℝ) * (l.factorial * l.choose j) := by
      linear_combination (((l - j).factorial : ℝ) * (l.descFactorial j : ℝ)) * e1 + (l.factorial : ℝ) * e2 - (l.factorial : ℝ) * e3
    exact mul_left_cancel₀ (mul_ne_zero p1 p2) this
  have h2 : (2 : ℝ) ^ j * 2 ^ (l - j) = 2 ^ l := by rw [← pow_add]; congr 1; omega
  have h2' : (2 : ℝ) ^ l ≠ 0 := by positivity
  rw [div_mul_div_comm, h2]
  field_simp
  linear_combination ((l.choose j : ℝ) * (y - 1) ^ j * (y + 1) ^ (l - j)) * hd

/-- the derivatives of `(x² - 1)^l` as coefficients: `q(x + s u) = s (s u² + 2 x u - s)` when `s² + x² = 1`. -/
theorem coeff_generating {x s : ℝ} (h : s ^ 2 + x ^ 2 = 1) (l k : ℕ) :
    s ^ l * ((C s * X ^ 2 + C (2 * x) * X - C s : ℝ[X]) ^ l).coeff k = s ^ k * ((dq l k).eval x / k.factorial) := by
  have h1 : (taylor x (q ^ l)).coeff k = (dq l k).eval x / k.factorial := by
    rw [taylor_coeff, eq_div_iff (by positivity)]
    have := congrFun (factorial_smul_hasseDeriv (R := ℝ) k) (q ^ l)
    have h2 := congrArg (eval x) this
    simp only [nsmul_eq_mul] at h2
    unfold dq
    rw [← h2]
    simp [mul_comm]
  have h3 : (taylor x (q ^ l)).comp (C s * X) = C (s ^ l) * (C s * X ^ 2 + C (2 * x) * X - C s) ^ l := by
    refine Polynomial.funext fun t => ?_
    unfold q
    simp only [taylor_apply, eval_comp, eval_pow, eval_sub, eval_add, eval_mul, eval_X, eval_C, eval_one]
    rw [← mul_pow]
    congr 1
    linear_combination (1 : ℝ) * h
  have h5 := congrArg (fun p => coeff p k) h3
  simp only [comp_C_mul_X_coeff, coeff_C_mul] at h5
  rw [← h5, h1]
  ring

theorem coeff_generating_zpow {th : ℝ} {l : ℕ} {m : ℤ} (hm : |m| ≤ l) :
    ((C (Real.sin th) * X ^ 2 + C (2 * Real.cos th) * X - C (Real.sin th) : ℝ[X]) ^ l).coeff (l + m).toNat =
      Real.sin th ^ m * ((dq l (l + m).toNat).eval (Real.cos th) / ((l + m).toNat.factorial : ℝ)) := by
  rw [abs_le] at hm
  have h := coeff_generating (Real.sin_sq_add_cos_sq th) l (l + m).toNat
  by_cases hs : Real.sin th = 0
  · rw [hs]
    simp only [C_0, zero_mul, zero_add, sub_zero, mul_pow, ← C_pow, coeff_C_mul, coeff_X_pow]
    by_cases h0 : m = 0
    · subst h0
      have hx : Real.cos th ^ 2 = 1 := by
        have := Real.sin_sq_add_cos_sq th
        rw [hs] at this; linarith
      simp only [add_zero, Int.toNat_natCast, if_true, mul_one, zpow_zero, one_mul]
      rw [eq_div_iff (by positivity)]
      rcases sq_eq_one_iff.1 hx with h1 | h1
      · rw [h1, eval_dq_one]; ring
      · have h2 := congrArg (eval 1) (dq_comp_neg l l)
        simp only [eval_comp, eval_neg, eval_X, eval_mul, eval_pow, eval_one, eval_dq_one] at h2
        rw [h1, h2]
        ring
    · rw [if_neg (by omega), zero_zpow _ h0]; simp
  · have h2 : Real.sin th ^ (l + m).toNat = Real.sin th ^ l * Real.sin th ^ m := by
      rw [← zpow_natCast, ← zpow_natCast, ← zpow_add₀ hs]
      congr 1
      omega
    rw [h2, mul_assoc] at h
    exact mul_left_cancel₀ (pow_ne_zero _ hs) h

/-- the colatitude part as a coefficient of a product of powers of linear polynomials. -/
theorem thetaPart_coeff {th : ℝ} (h : th ∈ Set.Icc 0 Real.pi) {l : ℕ} {m : ℤ} (hm : |m| ≤ l) :
    (thetaPart l m th : ℂ) = ((nrm l m * ((-1) ^ m * ((l + m).toNat.factorial : ℝ) / (l.factorial : ℝ)) : ℝ) : ℂ) *
      (lin (Real.sin (th / 2)) (Real.cos (th / 2)) ^ l * lin (Real.cos (th / 2)) (-Real.sin (th / 2)) ^ l).coeff (l + m).toNat := by
  have hs : Real.sqrt (1 - Real.cos th ^ 2) = Real.sin th := by
    rw [← Real.sin_sq, Real.sqrt_sq (Real.sin_nonneg_of_nonneg_of_le_pi h.1 h.2)]
  have hg := coeff_generating_zpow (th := th) hm
  have hp : (C (Real.sin th) * X ^ 2 + C (2 * Real.cos th) * X - C (Real.sin th) : ℝ[X]) ^ l =
      C (2 ^ l) * ((C (Real.sin (th / 2)) * X + C (Real.cos (th / 2))) ^ l * (C (Real.cos (th / 2)) * X + C (-Real.sin (th / 2))) ^ l) := by
    rw [C_pow, ← mul_pow, ← mul_pow]
    congr 1
    refine Polynomial.funext fun t => ?_
    simp only [eval_sub, eval_add, eval_mul, eval_pow, eval_X, eval_C]
    have e1 : Real.sin th = 2 * Real.sin (th / 2) * Real.cos (th / 2) := by rw [← Real.sin_two_mul]; congr 1; ring
    have e2 : Real.cos th = Real.cos (th / 2) ^ 2 - Real.sin (th / 2) ^ 2 := by
      rw [← Real.cos_two_mul']; congr 1; ring
    rw [e1, e2]
    ring
  have hmap : (lin (Real.sin (th / 2)) (Real.cos (th / 2)) ^ l * lin (Real.cos (th / 2)) (-Real.sin (th / 2)) ^ l) =
      ((C (Real.sin (th / 2)) * X + C (Real.cos (th / 2))) ^ l * (C (Real.cos (th / 2)) * X + C (-Real.sin (th / 2))) ^ l : ℝ[X]).map
        Complex.ofRealHom := by
    unfold lin
    simp
  rw [hmap, coeff_map, Complex.ofRealHom_eq_coe, ← Complex.ofReal_mul]
  congr 1
  rw [hp, coeff_C_mul] at hg
  unfold thetaPart assocLegendre
  rw [hs]
  have h2 : (2 : ℝ) ^ l ≠ 0 := by positivity
  have h3 : (l.factorial : ℝ) ≠ 0 := by positivity
  have h4 : ((l + m).toNat.factorial : ℝ) ≠ 0 := by positivity
  have h5 : Real.sin th ^ m * (dq l (l + m).toNat).eval (Real.cos th) = ((l + m).toNat.factorial : ℝ) * (2 ^ l *
      ((C (Real.sin (th / 2)) * X + C (Real.cos (th / 2))) ^ l * (C (Real.cos (th / 2)) * X + C (-Real.sin (th / 2))) ^ l : ℝ[X]).coeff
        (l + m).toNat) := by
    rw [hg]; field_simp
  change nrm l m * ((-1) ^ m / (2 ^ l * (l.factorial : ℝ)) * Real.sin th ^ m * (dq l (l + m).toNat).eval (Real.cos th)) = _
  rw [mul_assoc ((-1) ^ m / (2 ^ l * (l.factorial : ℝ))), h5]
  field_simp

theorem coeff_lin_scale (a b c d w : ℂ) (l k : ℕ) :
    (lin (a * w) b ^ l * lin (c * w) d ^ l).coeff k = w ^ k * (lin a b ^ l * lin c d ^ l).coeff k := by
  have h : lin (a * w) b ^ l * lin (c * w) d ^ l = (lin a b ^ l * lin c d ^ l).comp (C w * X) := by
    unfold lin
    simp only [mul_comp, pow_comp, add_comp, C_comp, X_comp, C_mul]
    ring
  rw [h, comp_C_mul_X_coeff]
  ring

/-- the addition theorem: `∑_m Y_lm(ω) Y_lm(ω')^* = (2l+1)/4π P_l(cos γ)` for the angle `γ` between two points. -/
theorem sphHarm_addition (l : ℕ) {th th' : ℝ} (h : th ∈ Set.Icc 0 Real.pi) (h' : th' ∈ Set.Icc 0 Real.pi) (ph ph' : ℝ) :
    ∑ m ∈ Finset.Icc (-(l : ℤ)) l, sphHarm l m th ph * (starRingEnd ℂ) (sphHarm l m th' ph') =
      (((2 * l + 1) / (4 * Real.pi) * assocLegendre l 0
        (Real.cos th * Real.cos th' + Real.sin th * Real.sin th' * Real.cos (ph - ph')) : ℝ) : ℂ) := by
  set w : ℂ := exp (I * (ph - ph' : ℝ)) with hw
  have hw0 : w ≠ 0 := exp_ne_zero _
  have hw2 : w ^ 2 + 1 = 2 * w * (Real.cos (ph - ph') : ℝ) := by
    rw [ofReal_cos, Complex.cos, hw]
    have e1 : exp ((ph - ph' : ℝ) * I) = exp (I * (ph - ph' : ℝ)) := by rw [mul_comm]
    have e2 : exp (-((ph - ph' : ℝ) : ℂ) * I) * exp (I * (ph - ph' : ℝ)) = 1 := by
      rw [← Complex.exp_add, show -((ph - ph' : ℝ) : ℂ) * I + I * (ph - ph' : ℝ) = 0 by ring, Complex.exp_zero]
    rw [e1]
    linear_combination -e2
  have hterm : ∀ m ∈ Finset.Icc (-(l : ℤ)) l, sphHarm l m th ph * (starRingEnd ℂ) (sphHarm l m th' ph') =
      (((2 * l + 1) / (4 * Real.pi) / (l.factorial : ℝ) ^ 2 : ℝ) : ℂ) * (w ^ l)⁻¹ *
        (((l + m).toNat.factorial : ℂ) * ((2 * l - (l + m).toNat).factorial : ℂ) *
        ((lin (Real.sin (th / 2) * w) (Real.cos (th / 2)) ^ l * lin (Real.cos (th / 2) * w) (-Real.sin (th / 2)) ^ l).coeff (l + m).toNat *
          (lin (Real.sin (th' / 2)) (Real.cos (th' / 2)) ^ l * lin (Real.cos (th' / 2)) (-Real.sin (th' / 2)) ^ l).coeff (l + m).toNat)) := by
    intro m hm
    rw [Finset.mem_Icc] at hm
    have hwm : exp (I * m * ph) * exp (-I * m * ph') = (w ^ l)⁻¹ * w ^ (l + m).toNat := by
      have e1 : exp (I * m * ph) * exp (-I * m * ph') = w ^ m := by
        rw [← Complex.exp_add, hw, ← Complex.exp_int_mul]
        congr 1
        push_cast
        ring
      rw [e1, ← zpow_natCast, ← zpow_natCast, ← zpow_neg, ← zpow_add₀ hw0]
      congr 1
      omega
    have hn : nrm l m * nrm l m = (2 * l + 1) / (4 * Real.pi) *
        (((2 * l - (l + m).toNat).factorial : ℝ) / ((l + m).toNat.factorial : ℝ)) := by
      unfold nrm
      rw [Real.mul_self_sqrt (by positivity), show (l - m).toNat = 2 * l - (l + m).toNat by omega]
    have h1 : ((-1 : ℝ)) ^ m * (-1) ^ m = 1 := by rw [← mul_zpow]; simp
    have hl : (l.factorial : ℝ) ≠ 0 := by positivity
    have hk : ((l + m).toNat.factorial : ℝ) ≠ 0 := by positivity
    have hc : nrm l m * ((-1) ^ m * ((l + m).toNat.factorial : ℝ) / (l.factorial : ℝ)) *
        (nrm l m * ((-1) ^ m * ((l + m).toNat.factorial : ℝ) / (l.factorial : ℝ))) =
        (2 * l + 1) / (4 * Real.pi) / (l.factorial : ℝ) ^ 2 * (((l + m).toNat.factorial : ℝ) * ((2 * l - (l + m).toNat).factorial : ℝ)) := by
      calc _ = (nrm l m * nrm l m) * ((-1) ^ m * (-1) ^ m) * (((l + m).toNat.factorial : ℝ) / (l.factorial : ℝ)) ^ 2 := by ring
        _ = _ := by rw [hn, h1]; field_simp
    have hc' : (((nrm l m * ((-1) ^ m * ((l + m).toNat.factorial : ℝ) / (l.factorial : ℝ)) : ℝ)) : ℂ) *
        ((nrm l m * ((-1) ^ m * ((l + m).toNat.factorial : ℝ) / (l.factorial : ℝ)) : ℝ) : ℂ) =
        (((2 * l + 1) / (4 * Real.pi) / (l.factorial : ℝ) ^ 2 : ℝ) : ℂ) *
          (((l + m).toNat.factorial : ℂ) * ((2 * l - (l + m).toNat).factorial : ℂ)) := by
      rw [← ofReal_mul, hc]; push_cast; ring
    have hconj : (starRingEnd ℂ) (I * m * ph') = -I * m * ph' := by
      rw [map_mul, map_mul, conj_I, conj_ofReal]; simp
    rw [coeff_lin_scale, sphHarm_eq, sphHarm_eq, map_mul, conj_ofReal, ← exp_conj, hconj, thetaPart_coeff h (abs_le.2 hm),
      thetaPart_coeff h' (abs_le.2 hm)]
    generalize (lin (Real.sin (th / 2)) (Real.cos (th / 2)) ^ l * lin (Real.cos (th / 2)) (-Real.sin (th / 2)) ^ l).coeff (l + m).toNat = A
    generalize (lin (Real.sin (th' / 2)) (Real.cos (th' / 2)) ^ l * lin (Real.cos (th' / 2)) (-Real.sin (th' / 2)) ^ l).coeff (l + m).toNat = B
    generalize ((nrm l m * ((-1) ^ m * ((l + m).toNat.factorial : ℝ) / (l.factorial : ℝ)) : ℝ) : ℂ) = N at hc' ⊢
    calc N * A * exp (I * m * ph) * (N * B * exp (-I * m * ph')) = (N * N) * (exp (I * m * ph) * exp (-I * m * ph')) * (A * B) := by ring
      _ = _ := by rw [hc', hwm]; ring
  rw [Finset.sum_congr rfl hterm, ← Finset.mul_sum]
  have hre : ∀ F : ℕ → ℂ, ∑ m ∈ Finset.Icc (-(l : ℤ)) l, F (l + m).toNat = ∑ k ∈ Finset.range (2 * l + 1), F k := by
    intro F
    refine Finset.sum_bij' (fun m _ => (l + m).toNat) (fun k _ => (k : ℤ) - l) ?_ ?_ ?_ ?_ ?_
    · intro m hm; rw [Finset.mem_Icc] at hm; rw [Finset.mem_range]; omega
    · intro k hk; rw [Finset.mem_range] at hk; rw [Finset.mem_Icc]; omega
    · intro m hm; rw [Finset.mem_Icc] at hm; omega
    · intro k hk; omega
    · intro m hm; rfl
  rw [hre fun k => ((k.factorial : ℂ) * ((2 * l - k).factorial : ℂ) *
        ((lin (Real.sin (th / 2) * w) (Real.cos (th / 2)) ^ l * lin (Real.cos (th / 2) * w) (-Real.sin (th / 2)) ^ l).coeff k *
          (lin (Real.sin (th' / 2)) (Real.cos (th' / 2)) ^ l * lin (Real.cos (th' / 2)) (-Real.sin (th' / 2)) ^ l).coeff k)), form_two_lin,
    legendre_eq]
  set y : ℝ := Real.cos th * Real.cos th' + Real.sin th * Real.sin th' * Real.cos (ph - ph') with hy
  have q1 := Real.sin_sq_add_cos_sq (th / 2)
  have q2 := Real.sin_sq_add_cos_sq (th' / 2)
  have hyh : y = (Real.cos (th / 2) ^ 2 - Real.sin (th / 2) ^ 2) * (Real.cos (th' / 2) ^ 2 - Real.sin (th' / 2) ^ 2) +
      4 * (Real.sin (th / 2) * Real.cos (th / 2) * Real.sin (th' / 2) * Real.cos (th' / 2)) * Real.cos (ph - ph') := by
    have e1 : ∀ t : ℝ, Real.sin t = 2 * Real.sin (t / 2) * Real.cos (t / 2) := by
      intro t; rw [← Real.sin_two_mul]; congr 1; ring
    have e2 : ∀ t : ℝ, Real.cos t = Real.cos (t / 2) ^ 2 - Real.sin (t / 2) ^ 2 := by
      intro t; rw [← Real.cos_two_mul']; congr 1; ring
    rw [hy, e1 th, e1 th', e2 th, e2 th']
    ring
  have hm1 : (y - 1) / 2 = 2 * (Real.sin (th / 2) * Real.cos (th / 2) * Real.sin (th' / 2) * Real.cos (th' / 2)) * Real.cos (ph - ph') -
      Real.sin (th / 2) ^ 2 * Real.cos (th' / 2) ^ 2 - Real.cos (th / 2) ^ 2 * Real.sin (th' / 2) ^ 2 := by
    have : (1 : ℝ) = (Real.sin (th / 2) ^ 2 + Real.cos (th / 2) ^ 2) * (Real.sin (th' / 2) ^ 2 + Real.cos (th' / 2) ^ 2) := by
      rw [q1, q2]; norm_num
    rw [hyh]
    linear_combination (-1 / 2 : ℝ) * this
  have hp1 : (y + 1) / 2 = 2 * (Real.sin (th / 2) * Real.cos (th / 2) * Real.sin (th' / 2) * Real.cos (th' / 2)) * Real.cos (ph - ph') +
      Real.sin (th / 2) ^ 2 * Real.sin (th' / 2) ^ 2 + Real.cos (th / 2) ^ 2 * Real.cos (th' / 2) ^ 2 := by
    have : (1 : ℝ) = (Real.sin (th / 2) ^ 2 + Real.cos (th / 2) ^ 2) * (Real.sin (th' / 2) ^ 2 + Real.cos (th' / 2) ^ 2) := by
      rw [q1, q2]; norm_num
    rw [hyh]
    linear_combination (1 / 2 : ℝ) * this
  have d1 : ((Real.sin (th / 2) : ℂ) * w * Real.cos (th' / 2) + Real.cos (th / 2) * -(Real.sin (th' / 2) : ℂ)) *
      (Real.cos (th / 2) * w * Real.sin (th' / 2) + -(Real.sin (th / 2) : ℂ) * Real.cos (th' / 2)) = w * (((y - 1) / 2 : ℝ) : ℂ) := by
    rw [hm1]
    push_cast
    push_cast at hw2
    linear_combination ((Complex.sin (th / 2) * Complex.cos (th / 2) * Complex.sin (th' / 2) * Complex.cos (th' / 2))) * hw2
  have d2 : ((Real.sin (th / 2) : ℂ) * w * Real.sin (th' / 2) + Real.cos (th / 2) * (Real.cos (th' / 2) : ℂ)) *
      (Real.cos (th / 2) * w * Real.cos (th' / 2) + -(Real.sin (th / 2) : ℂ) * -(Real.sin (th' / 2) : ℂ)) = w * (((y + 1) / 2 : ℝ) : ℂ) := by
    rw [hp1]
    push_cast
    push_cast at hw2
    linear_combination ((Complex.sin (th / 2) * Complex.cos (th / 2) * Complex.sin (th' / 2) * Complex.cos (th' / 2))) * hw2
  have hsum : ∑ j ∈ Finset.range (l + 1), (l.choose j : ℂ) ^ 2 * ((w * (((y - 1) / 2 : ℝ) : ℂ)) ^ j * (w * (((y + 1) / 2 : ℝ) : ℂ)) ^ (l - j)) =
      w ^ l * ((∑ j ∈ Finset.range (l + 1), (l.choose j : ℝ) ^ 2 * (((y - 1) / 2) ^ j * ((y + 1) / 2) ^ (l - j)) : ℝ) : ℂ) := by
    rw [ofReal_sum, Finset.mul_sum]
    refine Finset.sum_congr rfl fun j hj => ?_
    rw [Finset.mem_range] at hj
    have e : w ^ j * w ^ (l - j) = w ^ l := by rw [← pow_add]; congr 1; omega
    rw [mul_pow, mul_pow, ← e]
    push_cast
    ring
  rw [d1, d2, hsum]
  generalize (∑ j ∈ Finset.range (l + 1), (l.choose j : ℝ) ^ 2 * (((y - 1) / 2) ^ j * ((y + 1) / 2) ^ (l - j))) = S
  have hl : (l.factorial : ℂ) ≠ 0 := by exact_mod_cast Nat.factorial_ne_zero l
  have hpi : (Real.pi : ℂ) ≠ 0 := by exact_mod_cast Real.pi_ne_zero
  push_cast
  field_simp

end Sleplet.Gaunt
