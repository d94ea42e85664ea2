import Mathlib.Analysis.Fourier.AddCircle
import Mathlib.Analysis.PSeries
import Mathlib.Analysis.SpecialFunctions.Integrals.Basic
import Verif.Lemmas.Integration

/-!
A positive quadrature on the colatitudes of the sampling grid that is exact for polynomials in the cosine, and how it
compares with the weights the program uses.
-/
namespace Sleplet.ClenshawCurtis

open Real Finset

/-! ### the cosine series of the sine -/

/-- partial sums of the cosine series of `π/2 sin θ`. -/
noncomputable def S (M : ℕ) (th : ℝ) : ℝ := 1 - ∑ j ∈ range M, 2 * cos (2 * (j + 1 : ℕ) * th) / (4 * ((j + 1 : ℕ) : ℝ) ^ 2 - 1)

theorem den_pos (j : ℕ) : 0 < 4 * ((j + 1 : ℕ) : ℝ) ^ 2 - 1 := by
  have : (0 : ℝ) ≤ j := by positivity
  push_cast; nlinarith

theorem S_succ (M : ℕ) (th : ℝ) : S (M + 1) th = S M th - 2 * cos (2 * (M + 1 : ℕ) * th) / (4 * ((M + 1 : ℕ) : ℝ) ^ 2 - 1) := by
  unfold S
  rw [sum_range_succ]; ring

/-- the partial sums cannot fall by more than the tail of `∑ 2/(4j²-1)`. -/
theorem S_lower (M k : ℕ) (th : ℝ) : S (M + k) th - 1 / (2 * (M : ℝ) + 1) + 1 / (2 * ((M + k : ℕ) : ℝ) + 1) ≤ S M th := by
  induction k with
  | zero => simp
  | succ k ih =>
    refine le_trans ?_ ih
    rw [← add_assoc, S_succ]
    have hd := den_pos (M + k)
    have hc := neg_one_le_cos (2 * (M + k + 1 : ℕ) * th)
    have : -(2 / (4 * ((M + k + 1 : ℕ) : ℝ) ^ 2 - 1)) ≤ 2 * cos (2 * (M + k + 1 : ℕ) * th) / (4 * ((M + k + 1 : ℕ) : ℝ) ^ 2 - 1) := by
      rw [← neg_div]
      apply div_le_div_of_nonneg_right _ hd.le
      linarith
    have e : 2 / (4 * ((M + k + 1 : ℕ) : ℝ) ^ 2 - 1) = 1 / (2 * ((M + k : ℕ) : ℝ) + 1) - 1 / (2 * ((M + k + 1 : ℕ) : ℝ) + 1) := by
      have h1 : (2 * ((M + k : ℕ) : ℝ) + 1) ≠ 0 := by positivity
      have h2 : (2 * ((M + k + 1 : ℕ) : ℝ) + 1) ≠ 0 := by positivity
      rw [div_sub_div _ _ h1 h2, div_eq_div_iff hd.ne' (mul_ne_zero h1 h2)]
      push_cast; ring
    linarith

theorem S_zero_arg (M : ℕ) : S M 0 = 1 / (2 * M + 1) := by
  induction M with
  | zero => simp [S]
  | succ k ih =>
    rw [S_succ, ih]
    have hd := den_pos k
    have h1 : (2 * (k : ℝ) + 1) ≠ 0 := by positivity
    have h2 : (2 * ((k + 1 : ℕ) : ℝ) + 1) ≠ 0 := by positivity
    simp only [mul_zero, cos_zero, mul_one]
    rw [div_sub_div _ _ h1 hd.ne', div_eq_div_iff (mul_ne_zero h1 hd.ne') h2]
    push_cast; ring

theorem integral_sin_exp (n : ℤ) : ∫ x in (0 : ℝ)..π, Complex.exp (-(2 * Complex.I * n * x)) * (sin x : ℂ) =
    2 / (1 - 4 * (n : ℂ) ^ 2) := by
  have hd : (1 - 4 * (n : ℂ) ^ 2) ≠ 0 := by
    intro h
    have : (1 - 4 * n ^ 2 : ℤ) = 0 := by exact_mod_cast h
    omega
  have hF : ∀ x ∈ Set.uIcc (0 : ℝ) π, HasDerivAt (fun x : ℝ => Complex.exp (-(2 * Complex.I * n * x)) *
      (-(cos x : ℂ) - 2 * Complex.I * n * (sin x : ℂ)) / (1 - 4 * (n : ℂ) ^ 2))
      (Complex.exp (-(2 * Complex.I * n * x)) * (sin x : ℂ)) x := by
    intro x _
    have h1 : HasDerivAt (fun x : ℝ => Complex.exp (-(2 * Complex.I * n * x)))
        (Complex.exp (-(2 * Complex.I * n * x)) * (-(2 * Complex.I * n))) x := by
      have : HasDerivAt (fun x : ℝ => -(2 * Complex.I * n * (x : ℂ))) (-(2 * Complex.I * n)) x := by
        have := (hasDerivAt_id x).ofReal_comp.const_mul (-(2 * Complex.I * n))
        simp only [id, Complex.ofReal_one, mul_one] at this
        refine this.congr_of_eventuallyEq (Filter.Eventually.of_forall fun y => ?_)
        ring
      exact this.cexp
    have h2 : HasDerivAt (fun x : ℝ => (cos x : ℂ)) (((-sin x : ℝ)) : ℂ) x := (hasDerivAt_cos x).ofReal_comp
    have h3 : HasDerivAt (fun x : ℝ => (sin x : ℂ)) ((cos x : ℝ) : ℂ) x := (hasDerivAt_sin x).ofReal_comp
    have h4 := (h1.mul (h2.neg.sub (h3.const_mul (2 * Complex.I * n)))).div_const (1 - 4 * (n : ℂ) ^ 2)
    refine HasDerivAt.congr_deriv (f := fun x : ℝ => Complex.exp (-(2 * Complex.I * n * x)) *
      (-(cos x : ℂ) - 2 * Complex.I * n * (sin x : ℂ)) / (1 - 4 * (n : ℂ) ^ 2)) h4 ?_
    rw [div_eq_iff hd]
    push_cast
    simp only [Pi.sub_apply, Pi.neg_apply]
    linear_combination (4 * (n : ℂ) ^ 2 * Complex.exp (-(2 * Complex.I * n * x)) * Complex.sin x) * Complex.I_sq
  rw [intervalIntegral.integral_eq_sub_of_hasDerivAt hF]
  · have : Complex.exp (-(2 * Complex.I * n * (π : ℝ))) = 1 := by
      rw [Complex.exp_eq_one_iff]
      exact ⟨-n, by push_cast; ring⟩
    rw [this]
    simp
    ring
  · apply Continuous.intervalIntegrable
    fun_prop

theorem hasSum_sin {th : ℝ} (h0 : 0 ≤ th) (h1 : th < π) :
    HasSum (fun n : ℤ => 2 / π * cos (2 * n * th) / (1 - 4 * (n : ℝ) ^ 2)) (sin th) := by
  haveI : Fact (0 < π) := ⟨pi_pos⟩
  let g : ℝ → ℂ := fun x => (sin x : ℂ)
  have hc : Continuous (AddCircle.liftIco π 0 g) := AddCircle.liftIco_zero_continuous (by simp [g]) (by fun_prop)
  let f : C(AddCircle π, ℂ) := ⟨_, hc⟩
  have hcoef : ∀ n : ℤ, fourierCoeff f n = ((2 / π / (1 - 4 * (n : ℝ) ^ 2) : ℝ) : ℂ) := by
    intro n
    change fourierCoeff (AddCircle.liftIco π 0 g) n = _
    rw [fourierCoeff_liftIco_eq, fourierCoeffOn_eq_integral]
    have : ∀ x : ℝ, (fourier (-n) (x : AddCircle (0 + π - 0))) • g x = Complex.exp (-(2 * Complex.I * n * x)) * (sin x : ℂ) := by
      intro x
      rw [fourier_coe_apply, smul_eq_mul]
      congr 2
      have : (π : ℂ) ≠ 0 := by exact_mod_cast pi_ne_zero
      push_cast
      field_simp
      ring
    simp only [this]
    rw [zero_add, integral_sin_exp]
    rw [Complex.real_smul]
    push_cast
    ring
  have hs : Summable (fourierCoeff f) := by
    rw [show fourierCoeff f = fun n : ℤ => ((2 / π / (1 - 4 * (n : ℝ) ^ 2) : ℝ) : ℂ) from funext hcoef]
    refine Summable.of_norm_bounded_eventually (Real.summable_one_div_int_pow.mpr (by norm_num : 1 < 2)) ?_
    have hfin : {n : ℤ | ¬ ‖((2 / π / (1 - 4 * (n : ℝ) ^ 2) : ℝ) : ℂ)‖ ≤ 1 / (n : ℝ) ^ 2} ⊆ {0} := by
      intro n hn
      by_contra h0
      apply hn
      have hn0 : n ≠ 0 := h0
      have h1 : (1 : ℝ) ≤ (n : ℝ) ^ 2 := by
        have : (1 : ℤ) ≤ n ^ 2 := by have := sq_nonneg n; have : n ^ 2 ≠ 0 := pow_ne_zero 2 hn0; omega
        exact_mod_cast this
      rw [Complex.norm_real, norm_eq_abs, abs_div, abs_of_pos (by positivity : 0 < 2 / π), abs_of_neg (by linarith),
        div_div, div_le_div_iff₀ (by nlinarith [pi_pos]) (by positivity)]
      nlinarith [pi_gt_three]
    exact (Set.finite_singleton (0 : ℤ)).subset hfin
  have := has_pointwise_sum_fourier_series_of_summable hs (th : AddCircle π)
  have hv : f (th : AddCircle π) = (sin th : ℂ) := by
    change AddCircle.liftIco π 0 g (th : AddCircle π) = _
    rw [AddCircle.liftIco_zero_coe_apply ⟨h0, h1⟩]
  rw [hv] at this
  have h2 := Complex.hasSum_re this
  simp only [Complex.ofReal_re] at h2
  convert h2 using 2 with n
  rw [hcoef, smul_eq_mul, Complex.re_ofReal_mul, fourier_coe_apply]
  rw [show (2 * (π : ℂ) * Complex.I * (n : ℂ) * (th : ℂ) / (π : ℂ)) = ((2 * n * th : ℝ) : ℂ) * Complex.I by
    have : (π : ℂ) ≠ 0 := by exact_mod_cast pi_ne_zero
    push_cast; field_simp]
  rw [Complex.exp_ofReal_mul_I_re]
  ring

theorem tendsto_S {th : ℝ} (h0 : 0 ≤ th) (h1 : th < π) : Filter.Tendsto (fun M => S M th) Filter.atTop (nhds (π / 2 * sin th)) := by
  have h := (hasSum_sin h0 h1).nat_add_neg.tendsto_sum_nat
  have hS : ∀ M : ℕ, ∑ n ∈ range (M + 1), (2 / π * cos (2 * ((n : ℤ) : ℝ) * th) / (1 - 4 * ((n : ℤ) : ℝ) ^ 2) +
      2 / π * cos (2 * ((-(n : ℤ) : ℤ) : ℝ) * th) / (1 - 4 * ((-(n : ℤ) : ℤ) : ℝ) ^ 2)) = 2 / π * (S M th + 1) := by
    intro M
    induction M with
    | zero => simp [S]; ring
    | succ k ih =>
      rw [sum_range_succ, ih, S_succ]
      have hd := den_pos k
      have hd' : (1 - 4 * ((k + 1 : ℕ) : ℝ) ^ 2) ≠ 0 := by linarith
      push_cast at hd hd' ⊢
      rw [show 2 * -((k : ℝ) + 1) * th = -(2 * ((k : ℝ) + 1) * th) by ring, cos_neg, neg_sq]
      have e : (1 - 4 * ((k : ℝ) + 1) ^ 2) = -(4 * ((k : ℝ) + 1) ^ 2 - 1) := by ring
      rw [e, div_neg]
      ring
  have h2 := (h.comp (Filter.tendsto_add_atTop_nat 1)).congr hS
  have h3 := (h2.const_mul (π / 2)).sub_const 1
  have hp := pi_ne_zero
  convert h3 using 2
  · field_simp; ring
  · simp
    field_simp
    ring

theorem S_ge {th : ℝ} (h0 : 0 ≤ th) (h1 : th ≤ π) (M : ℕ) : π / 2 * sin th - 1 / (2 * M + 1) ≤ S M th := by
  rcases h1.lt_or_eq with h1 | rfl
  · refine le_of_tendsto ((tendsto_S h0 h1).sub_const _) (Filter.eventually_atTop.mpr ⟨M, fun K hK => ?_⟩)
    obtain ⟨k, rfl⟩ := Nat.exists_eq_add_of_le hK
    have := S_lower M k th
    have hp : (0 : ℝ) ≤ 1 / (2 * ((M + k : ℕ) : ℝ) + 1) := by positivity
    linarith
  · have : S M π = S M 0 := by
      unfold S
      congr 1
      refine sum_congr rfl fun j _ => ?_
      rw [mul_zero, cos_zero, show 2 * ((j + 1 : ℕ) : ℝ) * π = ((j + 1 : ℕ) : ℝ) * (2 * π) by ring, cos_nat_mul_two_pi]
    rw [this, S_zero_arg, sin_pi]
    have hp : (0 : ℝ) ≤ 1 / (2 * (M : ℝ) + 1) := by positivity
    linarith

/-! ### the trapezium rule -/

/-- the trapezium rule with `N` intervals. -/
noncomputable def trap (N : ℕ) (F : ℕ → ℝ) : ℝ := ∑ t ∈ range N, (F t + F (t + 1)) / 2

theorem trap_eq (N : ℕ) (F : ℕ → ℝ) (h : 1 ≤ N) :
    trap N F = ∑ t ∈ range (N + 1), (if t = 0 ∨ t = N then 1 / 2 else 1) * F t := by
  have h1 : ∑ t ∈ range (N + 1), (if t = 0 ∨ t = N then 1 / 2 else 1) * F t =
      ∑ t ∈ range (N + 1), F t - (F 0 + F N) / 2 := by
    have e : ∀ t ∈ range (N + 1), (if t = 0 ∨ t = N then 1 / 2 else 1) * F t =
        F t - ((if t = 0 then F 0 / 2 else 0) + (if t = N then F N / 2 else 0)) := by
      intro t _
      by_cases h0 : t = 0
      · subst h0
        rw [if_pos (Or.inl rfl), if_pos rfl, if_neg (by omega)]; ring
      · by_cases hN : t = N
        · subst hN
          rw [if_pos (Or.inr rfl), if_neg h0, if_pos rfl]; ring
        · rw [if_neg (by tauto), if_neg h0, if_neg hN]; ring
    rw [sum_congr rfl e, sum_sub_distrib, sum_add_distrib, sum_ite_eq' , sum_ite_eq', if_pos (by simp), if_pos (by simp)]
    ring
  rw [h1]
  unfold trap
  rw [← sum_div, sum_add_distrib, sum_range_succ]
  have := sum_range_succ' F N
  rw [sum_range_succ] at this
  linarith

theorem trap_add (N : ℕ) (F G : ℕ → ℝ) : trap N (fun t => F t + G t) = trap N F + trap N G := by
  unfold trap
  rw [← sum_add_distrib]
  refine sum_congr rfl fun t _ => ?_
  ring

theorem trap_mul (N : ℕ) (c : ℝ) (F : ℕ → ℝ) : trap N (fun t => c * F t) = c * trap N F := by
  unfold trap
  rw [mul_sum]
  refine sum_congr rfl fun t _ => ?_
  ring

theorem trap_sum {ι : Type*} (N : ℕ) (s : Finset ι) (F : ι → ℕ → ℝ) : trap N (fun t => ∑ i ∈ s, F i t) = ∑ i ∈ s, trap N (F i) := by
  unfold trap
  rw [sum_comm]
  refine sum_congr rfl fun t _ => ?_
  rw [← sum_add_distrib, sum_div]

theorem sin_mul_trap (a : ℝ) (N : ℕ) : 2 * sin (a / 2) * trap N (fun t => cos (t * a)) = cos (a / 2) * sin (N * a) := by
  induction N with
  | zero => simp [trap]
  | succ n ih =>
    unfold trap at ih ⊢
    rw [sum_range_succ, mul_add, ih]
    have e : ((n + 1 : ℕ) : ℝ) * a = n * a + a := by push_cast; ring
    have hs : sin a = 2 * sin (a / 2) * cos (a / 2) := by rw [← sin_two_mul]; congr 1; ring
    have hc : cos a = 2 * cos (a / 2) ^ 2 - 1 := by rw [← cos_two_mul]; congr 1; ring
    dsimp only
    rw [e, cos_add, sin_add, hs, hc]
    have := sin_sq_add_cos_sq (a / 2)
    linear_combination (-2 * sin (n * a) * cos (a / 2)) * this

/-- discrete orthogonality: the trapezium rule of a cosine below the aliasing frequency. -/
theorem trap_cos {N : ℕ} (h : 1 ≤ N) (k : ℤ) (hk : |k| < 2 * N) :
    trap N (fun t => cos (t * (k * (π / N)))) = if k = 0 then (N : ℝ) else 0 := by
  have hN : (0 : ℝ) < N := by positivity
  split
  · rename_i h0; subst h0; simp [trap]
  · rename_i h0
    have h1 := sin_mul_trap (k * (π / N)) N
    have e : (N : ℝ) * (k * (π / N)) = k * π := by field_simp
    rw [e, sin_int_mul_pi, mul_zero] at h1
    have h2 : sin (k * (π / N) / 2) ≠ 0 := by
      rw [Ne, sin_eq_zero_iff]
      rintro ⟨n, hn⟩
      have : (k : ℝ) = 2 * N * n := by
        have hp := pi_ne_zero
        field_simp at hn
        linarith
      have hkz : k = 2 * N * n := by exact_mod_cast this
      rw [hkz, abs_mul] at hk
      have hn0 : n ≠ 0 := by rintro rfl; simp at hkz; exact h0 hkz
      have : (1 : ℤ) ≤ |n| := Int.one_le_abs hn0
      rw [abs_of_nonneg (by positivity)] at hk
      nlinarith
    have := mul_eq_zero.mp h1
    rcases this with h3 | h3
    · exact absurd (by linarith : sin (k * (π / N) / 2) = 0) h2
    · exact h3

theorem trap_cos_mul {N : ℕ} (h : 1 ≤ N) (j k : ℕ) (hk : j + k < 2 * N) :
    trap N (fun t => cos (j * (t * (π / N))) * cos (k * (t * (π / N)))) =
      if j = k then (if k = 0 then (N : ℝ) else N / 2) else 0 := by
  have e : (fun t : ℕ => cos (j * (t * (π / N))) * cos (k * (t * (π / N)))) = fun t : ℕ =>
      1 / 2 * cos (t * (((j + k : ℤ) : ℝ) * (π / N))) + 1 / 2 * cos (t * (((j - k : ℤ) : ℝ) * (π / N))) := by
    funext t
    have a1 : (t : ℝ) * (((j + k : ℤ) : ℝ) * (π / N)) = j * (t * (π / N)) + k * (t * (π / N)) := by push_cast; ring
    have a2 : (t : ℝ) * (((j - k : ℤ) : ℝ) * (π / N)) = j * (t * (π / N)) - k * (t * (π / N)) := by push_cast; ring
    rw [a1, a2, cos_add, cos_sub]; ring
  rw [e, trap_add, trap_mul, trap_mul, trap_cos h _ (by rw [abs_lt]; omega), trap_cos h _ (by rw [abs_lt]; omega)]
  by_cases hjk : j = k
  · subst hjk
    by_cases h0 : j = 0
    · subst h0; simp; ring
    · rw [if_neg (by omega), if_pos (by omega), if_pos rfl, if_neg h0]; ring
  · rw [if_neg (by omega), if_neg (by omega), if_neg hjk]; simp

/-! ### exactness -/

/-- the quadrature: `S M` at the samples, trapezium ends. -/
noncomputable def quad (M N : ℕ) (F : ℕ → ℝ) : ℝ := trap N fun t => 2 / N * S M (t * (π / N)) * F t

theorem quad_add (M N : ℕ) (F G : ℕ → ℝ) : quad M N (fun t => F t + G t) = quad M N F + quad M N G := by
  unfold quad
  rw [← trap_add]; congr 1; funext t; ring

theorem quad_mul (M N : ℕ) (c : ℝ) (F : ℕ → ℝ) : quad M N (fun t => c * F t) = c * quad M N F := by
  unfold quad
  rw [← trap_mul]; congr 1; funext t; ring

theorem quad_sum {ι : Type*} (M N : ℕ) (s : Finset ι) (F : ι → ℕ → ℝ) :
    quad M N (fun t => ∑ i ∈ s, F i t) = ∑ i ∈ s, quad M N (F i) := by
  unfold quad
  rw [← trap_sum]; congr 1; funext t; rw [mul_sum]

/-- the quadrature of a cosine. -/
theorem quad_cos {M N : ℕ} (h : 1 ≤ N) (hM : 2 * M ≤ N) (k : ℕ) (hk : k < N) (hk2 : k ≤ 2 * M + 1) :
    quad M N (fun t => cos (k * (t * (π / N)))) = if Even k then 2 / (1 - (k : ℝ) ^ 2) else 0 := by
  have hN : (0 : ℝ) < N := by positivity
  have e : quad M N (fun t => cos (k * (t * (π / N)))) =
      2 / N * (trap N (fun t => cos ((0 : ℕ) * (t * (π / N))) * cos (k * (t * (π / N)))) -
        ∑ j ∈ range M, 2 / (4 * ((j + 1 : ℕ) : ℝ) ^ 2 - 1) *
          trap N (fun t => cos ((2 * (j + 1) : ℕ) * (t * (π / N))) * cos (k * (t * (π / N))))) := by
    have : ∀ F G : ℕ → ℝ, trap N F - trap N G = trap N fun t => F t - G t := by
      intro F G
      have := trap_add N F (fun t => -1 * G t)
      rw [trap_mul] at this
      rw [show (fun t => F t - G t) = fun t => F t + -1 * G t by funext t; ring, this]; ring
    simp only [← trap_mul]
    rw [← trap_sum, this, ← trap_mul]
    unfold quad
    congr 1
    funext t
    unfold S
    rw [Nat.cast_zero, zero_mul, cos_zero, one_mul, mul_assoc, sub_mul, one_mul, sum_mul]
    congr 2
    refine sum_congr rfl fun j _ => ?_
    push_cast
    ring
  rw [e, trap_cos_mul h 0 k (by omega)]
  have e2 : ∀ j ∈ range M, 2 / (4 * ((j + 1 : ℕ) : ℝ) ^ 2 - 1) *
          trap N (fun t => cos ((2 * (j + 1) : ℕ) * (t * (π / N))) * cos (k * (t * (π / N)))) =
      if 2 * (j + 1) = k then 2 / ((k : ℝ) ^ 2 - 1) * (N / 2) else 0 := by
    intro j hj
    rw [mem_range] at hj
    rw [trap_cos_mul h _ k (by omega)]
    by_cases hjk : 2 * (j + 1) = k
    · rw [if_pos hjk, if_pos hjk, if_neg (by omega), ← hjk]
      push_cast; ring
    · rw [if_neg hjk, if_neg hjk, mul_zero]
  rw [sum_congr rfl e2]
  by_cases he : Even k
  · rw [if_pos he]
    obtain ⟨i, hi⟩ := he
    by_cases h0 : k = 0
    · subst h0
      rw [if_pos rfl, if_pos rfl, sum_eq_zero (fun j _ => by rw [if_neg (by omega)])]
      simp; field_simp
    · rw [if_neg (by omega), sum_eq_single (i - 1) (fun j _ hj => by rw [if_neg (by omega)])
        (fun hn => by rw [mem_range] at hn; omega), if_pos (by omega)]
      have hk1 : (k : ℝ) ^ 2 - 1 ≠ 0 := by
        have : (2 : ℝ) ≤ k := by exact_mod_cast (by omega : 2 ≤ k)
        nlinarith
      have hk3 : 1 - (k : ℝ) ^ 2 ≠ 0 := by intro hh; apply hk1; linarith
      rw [eq_div_iff hk3]
      field_simp
      ring
  · rw [if_neg he]
    have h0 : k ≠ 0 := by rintro rfl; exact he (by simp)
    rw [if_neg (by omega), sum_eq_zero (fun j _ => by rw [if_neg (by rintro rfl; exact he (by simp))])]
    simp

theorem integral_cos_sin (k : ℕ) : ∫ x in (0 : ℝ)..π, cos (k * x) * sin x = if Even k then 2 / (1 - (k : ℝ) ^ 2) else 0 := by
  by_cases h1 : k = 1
  · subst h1
    have : ∀ x : ℝ, cos ((1 : ℕ) * x) * sin x = sin x * cos x := by intro x; rw [Nat.cast_one, one_mul, mul_comm]
    simp only [this, integral_sin_mul_cos₁]
    simp
  · have hd : 1 - (k : ℝ) ^ 2 ≠ 0 := by
      intro h
      have h2 : ((k : ℝ) - 1) * (k + 1) = 0 := by linarith
      rcases mul_eq_zero.mp h2 with h3 | h3
      · exact h1 (by have : (k : ℝ) = 1 := by linarith
                     exact_mod_cast this)
      · have : (0 : ℝ) ≤ k := by positivity
        linarith
    have hF : ∀ x ∈ Set.uIcc (0 : ℝ) π, HasDerivAt (fun x : ℝ => (-(cos x * cos (k * x)) - k * (sin x * sin (k * x))) / (1 - (k : ℝ) ^ 2))
        (cos (k * x) * sin x) x := by
      intro x _
      have hk : HasDerivAt (fun x : ℝ => (k : ℝ) * x) k x := by simpa using (hasDerivAt_id x).const_mul (k : ℝ)
      have hc := hk.cos
      have hs := hk.sin
      have h4 := ((((hasDerivAt_cos x).mul hc).neg.sub (((hasDerivAt_sin x).mul hs).const_mul (k : ℝ)))).div_const (1 - (k : ℝ) ^ 2)
      refine HasDerivAt.congr_deriv (f := fun x : ℝ => (-(cos x * cos (k * x)) - k * (sin x * sin (k * x))) / (1 - (k : ℝ) ^ 2)) h4 ?_
      rw [div_eq_iff hd]
      ring
    rw [intervalIntegral.integral_eq_sub_of_hasDerivAt hF (by apply Continuous.intervalIntegrable; fun_prop)]
    simp only [cos_pi, sin_pi, cos_zero, sin_zero, mul_zero, zero_mul, cos_nat_mul_pi]
    by_cases he : Even k
    · rw [if_pos he, he.neg_one_pow]; field_simp; norm_num
    · rw [if_neg he, (Nat.not_even_iff_odd.mp he).neg_one_pow]; simp

/-- exact for powers of the cosine times a cosine. -/
theorem quad_pow_cos {M N : ℕ} (h : 1 ≤ N) (hM : 2 * M ≤ N) (n k : ℕ) (hk : n + k < N) (hk2 : n + k ≤ 2 * M + 1) :
    quad M N (fun t => cos (t * (π / N)) ^ n * cos (k * (t * (π / N)))) = ∫ x in (0 : ℝ)..π, cos x ^ n * cos (k * x) * sin x := by
  induction n generalizing k with
  | zero =>
    simp only [pow_zero, one_mul]
    rw [quad_cos h hM k (by omega) (by omega), integral_cos_sin]
  | succ n ih =>
    cases k with
    | zero =>
      have := ih 1 (by omega) (by omega)
      simp only [Nat.cast_one, one_mul, ← pow_succ] at this
      simpa using this
    | succ k =>
      have a := ih (k + 2) (by omega) (by omega)
      have b := ih k (by omega) (by omega)
      have e : ∀ x : ℝ, cos x ^ (n + 1) * cos ((k + 1 : ℕ) * x) =
          1 / 2 * (cos x ^ n * cos ((k + 2 : ℕ) * x)) + 1 / 2 * (cos x ^ n * cos (k * x)) := by
        intro x
        have e1 : ((k + 2 : ℕ) : ℝ) * x = (k + 1 : ℕ) * x + x := by push_cast; ring
        have e2 : (k : ℝ) * x = (k + 1 : ℕ) * x - x := by push_cast; ring
        rw [e1, e2, cos_add, cos_sub]; ring
      simp only [e]
      rw [quad_add, quad_mul, quad_mul, a, b]
      rw [← intervalIntegral.integral_const_mul, ← intervalIntegral.integral_const_mul, ← intervalIntegral.integral_add]
      · congr 1; funext x; ring
      · apply Continuous.intervalIntegrable; fun_prop
      · apply Continuous.intervalIntegrable; fun_prop

/-- exact for polynomials in the cosine. -/
theorem quad_poly {M N : ℕ} (h : 1 ≤ N) (hM : 2 * M ≤ N) (r : Polynomial ℝ) (hr : r.natDegree < N) (hr2 : r.natDegree ≤ 2 * M + 1) :
    quad M N (fun t => r.eval (cos (t * (π / N)))) = ∫ x in (0 : ℝ)..π, r.eval (cos x) * sin x := by
  simp only [Polynomial.eval_eq_sum_range]
  rw [quad_sum]
  simp only [quad_mul, sum_mul]
  rw [intervalIntegral.integral_finsetSum (fun i _ => by apply Continuous.intervalIntegrable; fun_prop)]
  refine sum_congr rfl fun i hi => ?_
  rw [mem_range] at hi
  have := quad_pow_cos h hM i 0 (by omega) (by omega)
  simp only [Nat.cast_zero, zero_mul, cos_zero, mul_one] at this
  rw [this, ← intervalIntegral.integral_const_mul]
  congr 1; funext x; ring

/-! ### comparison -/

/-- the program's weight in colatitude is at most 4/3 of the exact one. -/
theorem weight_le {M : ℕ} (h : 1 ≤ M) (t : ℕ) (ht : t ≤ 2 * M) :
    sin (t * (π / (2 * M : ℕ))) * (π / (2 * M : ℕ)) ≤
      4 / 3 * ((if t = 0 ∨ t = 2 * M then 1 / 2 else 1) * (2 / (2 * M : ℕ) * S M (t * (π / (2 * M : ℕ))))) ∧
    0 ≤ (if t = 0 ∨ t = 2 * M then 1 / 2 else 1 : ℝ) * (2 / (2 * M : ℕ) * S M (t * (π / (2 * M : ℕ)))) := by
  have hM : (1 : ℝ) ≤ M := by exact_mod_cast h
  have hpi := pi_pos
  have hp3 := pi_gt_three
  set y : ℝ := π / (2 * M : ℕ) with hy
  have hy0 : 0 < y := by rw [hy]; positivity
  have htop : ((2 * M : ℕ) : ℝ) * y = π := by rw [hy]; field_simp
  have ht' : (t : ℝ) * y ≤ π := by
    rw [← htop]
    exact mul_le_mul_of_nonneg_right (by exact_mod_cast ht) hy0.le
  have hS := S_ge (by positivity : 0 ≤ (t : ℝ) * y) ht' M
  by_cases he : t = 0 ∨ t = 2 * M
  · have hs : sin (t * y) = 0 := by
      rcases he with rfl | rfl
      · simp
      · rw [htop, sin_pi]
    have hv : S M (t * y) = 1 / (2 * M + 1) := by
      rcases he with rfl | rfl
      · rw [Nat.cast_zero, zero_mul, S_zero_arg]
      · rw [htop, ← S_zero_arg]
        unfold S
        congr 1
        refine sum_congr rfl fun j _ => ?_
        rw [mul_zero, cos_zero, show 2 * ((j + 1 : ℕ) : ℝ) * π = ((j + 1 : ℕ) : ℝ) * (2 * π) by ring, cos_nat_mul_two_pi]
    rw [if_pos he, hs, hv]
    constructor
    · rw [zero_mul]; positivity
    · positivity
  · rw [if_neg he]
    push Not at he
    -- `sin (t y) ≥ sin y`
    have hge : sin y ≤ sin (t * y) := by
      have h1t : (1 : ℝ) ≤ t := by exact_mod_cast Nat.one_le_iff_ne_zero.mpr he.1
      have hy2 : y ≤ π / 2 := by
        rw [hy]; apply div_le_div_of_nonneg_left hpi.le (by norm_num); push_cast; linarith
      by_cases hh : (t : ℝ) * y ≤ π / 2
      · exact sin_le_sin_of_le_of_le_pi_div_two (by linarith) hh (by nlinarith)
      · rw [← sin_pi_sub (t * y)]
        push Not at hh
        refine sin_le_sin_of_le_of_le_pi_div_two (by linarith) (by linarith) ?_
        have : ((t + 1 : ℕ) : ℝ) ≤ (2 * M : ℕ) := by exact_mod_cast (by omega : t + 1 ≤ 2 * M)
        have := mul_le_mul_of_nonneg_right this hy0.le
        rw [htop] at this
        push_cast at this
        linarith
    have key : 1 / (2 * (M : ℝ) + 1) ≤ π / 8 * sin y := by
      have hy2 : y ≤ π / 2 := by
        rw [hy]; apply div_le_div_of_nonneg_left hpi.le (by norm_num); push_cast; linarith
      have hp4 : π < 3.15 := pi_lt_d2
      have hp5 : 3.14 < π := pi_gt_d2
      have h8 : 8 ≤ π * ((π + y) * (1 - y ^ 2 / 6)) := by
        have h1 : 2.55 ≤ (π + y) * (1 - y ^ 2 / 6) := by
          have hq : 0 ≤ 1 - y ^ 2 / 6 := by nlinarith
          have h3 : (3.14 + y) * (1 - y ^ 2 / 6) ≤ (π + y) * (1 - y ^ 2 / 6) := by
            apply mul_le_mul_of_nonneg_right _ hq; linarith
          have hy3 : y ≤ 1.575 := by linarith
          refine le_trans ?_ h3
          nlinarith [mul_nonneg hy0.le (sub_nonneg.mpr hy3), mul_nonneg (mul_nonneg hy0.le hy0.le) (sub_nonneg.mpr hy3)]
        nlinarith
      have e : 1 / (2 * (M : ℝ) + 1) = y / (π + y) := by
        rw [← htop]; push_cast; field_simp
      rw [e, div_le_iff₀ (by linarith)]
      have h3 := Real.sin_ge_sub_cube hy0.le
      have h4 : y * 8 ≤ y * (π * ((π + y) * (1 - y ^ 2 / 6))) := mul_le_mul_of_nonneg_left h8 hy0.le
      have h5 : (π * (π + y)) * (y - y ^ 3 / 6) ≤ (π * (π + y)) * sin y :=
        mul_le_mul_of_nonneg_left h3 (by positivity)
      nlinarith
    have hs0 : 0 ≤ sin y := by
      apply sin_nonneg_of_nonneg_of_le_pi hy0.le
      rw [← htop]
      have : (1 : ℝ) ≤ (2 * M : ℕ) := by push_cast; linarith
      nlinarith
    have hlow : 3 / 4 * (π / 2 * sin (t * y)) ≤ S M (t * y) := by nlinarith
    have hNpos : (0 : ℝ) < (2 * M : ℕ) := by push_cast; linarith
    constructor
    · have : sin (t * y) * y = 4 / 3 * (2 / (2 * M : ℕ) * (3 / 4 * (π / 2 * sin (t * y)))) := by
        rw [hy]; field_simp
      rw [this, one_mul]
      have h2 : (0 : ℝ) ≤ 2 / (2 * M : ℕ) := by positivity
      have := mul_le_mul_of_nonneg_left hlow h2
      linarith
    · have h0 : 0 ≤ S M (t * y) := le_trans (by nlinarith [mul_nonneg hpi.le (hs0.trans hge)]) hlow
      rw [one_mul]
      positivity

end Sleplet.ClenshawCurtis
