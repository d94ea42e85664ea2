import Mathlib.Probability.HasLawExists
import Mathlib.Probability.Independence.Integration
import Mathlib.Probability.Moments.Variance
import Verif.Lemmas.NoisePower
import Verif.Spec.StandardNormals

/-!
Means and mean squares of linear combinations of standard normals.
-/
namespace Sleplet.Noise

open MeasureTheory ProbabilityTheory Spec Complex

theorem standardNormals_exist : ∃ (Ω : Type) (_ : MeasurableSpace Ω) (P : Measure Ω) (ξ : ℕ → Ω → ℝ), StandardNormals P ξ := by
  obtain ⟨Ω, m, P, X, h1, h2, h3, -⟩ := exists_iid ℕ (gaussianReal 0 1)
  exact ⟨Ω, m, P, X, h1, h2, h3⟩

variable {Ω : Type} [MeasurableSpace Ω] {P : Measure Ω} {ξ : ℕ → Ω → ℝ}

theorem memLp (h : StandardNormals P ξ) (k : ℕ) : MemLp (ξ k) 2 P := by
  have := (memLp_id_gaussianReal' (μ := 0) (v := 1) 2 (by simp))
  rw [← (h.law k).map_eq] at this
  exact this.comp_of_map (h.measurable k).aemeasurable

theorem isProbability (h : StandardNormals P ξ) : IsProbabilityMeasure P := (h.law 0).isProbabilityMeasure

theorem mean (h : StandardNormals P ξ) (k : ℕ) : ∫ ω, ξ k ω ∂P = 0 := by
  have := (h.law k).integral_eq
  rw [this, integral_id_gaussianReal]

theorem cov (h : StandardNormals P ξ) (i j : ℕ) : ∫ ω, ξ i ω * ξ j ω ∂P = if i = j then 1 else 0 := by
  have hp := isProbability h
  split_ifs with hij
  · subst hij
    have h1 := (h.law i).variance_eq
    rw [variance_id_gaussianReal, variance_of_integral_eq_zero (h.measurable i).aemeasurable (mean h i)] at h1
    simpa [sq] using h1
  · rw [(h.indep.indepFun hij).integral_fun_mul_eq_mul_integral (h.measurable i).aestronglyMeasurable
      (h.measurable j).aestronglyMeasurable, mean h, zero_mul]

theorem second_real (h : StandardNormals P ξ) (n : ℕ) (a : ℕ → ℝ) :
    Integrable (fun ω => (∑ k ∈ Finset.range n, a k * ξ k ω) ^ 2) P ∧
    ∫ ω, (∑ k ∈ Finset.range n, a k * ξ k ω) ^ 2 ∂P = ∑ k ∈ Finset.range n, a k ^ 2 := by
  have hint : ∀ i j, Integrable (fun ω => a i * a j * (ξ i ω * ξ j ω)) P := fun i j =>
    ((memLp h i).integrable_mul (memLp h j)).const_mul _
  have hexp : (fun ω => (∑ k ∈ Finset.range n, a k * ξ k ω) ^ 2) =
      fun ω => ∑ i ∈ Finset.range n, ∑ j ∈ Finset.range n, a i * a j * (ξ i ω * ξ j ω) := by
    funext ω
    rw [sq, Finset.sum_mul_sum]
    exact Finset.sum_congr rfl fun i _ => Finset.sum_congr rfl fun j _ => by ring
  rw [hexp]
  refine ⟨integrable_finset_sum _ fun i _ => integrable_finset_sum _ fun j _ => hint i j, ?_⟩
  rw [integral_finset_sum _ fun i _ => integrable_finset_sum _ fun j _ => hint i j]
  refine Finset.sum_congr rfl fun i hi => ?_
  rw [integral_finset_sum _ fun j _ => hint i j]
  simp only [integral_const_mul, cov h]
  simp [sq]
  intro hc
  simp at hi
  omega

theorem second (h : StandardNormals P ξ) (n : ℕ) (c : ℕ → ℂ) :
    ∫ ω, ‖∑ k ∈ Finset.range n, c k * (ξ k ω : ℂ)‖ ^ 2 ∂P = ∑ k ∈ Finset.range n, ‖c k‖ ^ 2 := by
  have hexp : (fun ω => ‖∑ k ∈ Finset.range n, c k * (ξ k ω : ℂ)‖ ^ 2) =
      fun ω => (∑ k ∈ Finset.range n, (c k).re * ξ k ω) ^ 2 + (∑ k ∈ Finset.range n, (c k).im * ξ k ω) ^ 2 := by
    funext ω
    rw [← Complex.normSq_eq_norm_sq, Complex.normSq_apply]
    simp [Complex.re_sum, Complex.im_sum, sq]
  rw [hexp, integral_add (second_real h n _).1 (second_real h n _).1, (second_real h n _).2, (second_real h n _).2,
    ← Finset.sum_add_distrib]
  refine Finset.sum_congr rfl fun k _ => ?_
  rw [← Complex.normSq_eq_norm_sq, Complex.normSq_apply]
  ring

theorem first (h : StandardNormals P ξ) (n : ℕ) (c : ℕ → ℂ) :
    ∫ ω, ∑ k ∈ Finset.range n, c k * (ξ k ω : ℂ) ∂P = 0 := by
  have hp := isProbability h
  have hint : ∀ k, Integrable (fun ω => c k * (ξ k ω : ℂ)) P := fun k =>
    (((memLp h k).integrable (by norm_num)).ofReal).const_mul _
  rw [integral_finset_sum _ fun k _ => hint k]
  refine Finset.sum_eq_zero fun k _ => ?_
  rw [integral_const_mul, show (fun ω => (ξ k ω : ℂ)) = fun ω => ((ξ k ω : ℝ) : ℂ) from rfl, integral_complex_ofReal, mean h]
  simp

/-- the weight of draw `t` of a degree in `∑_m b_m n_m`. -/
noncomputable def weight (sigma : ℝ) (b : ℤ → ℂ) (t : ℕ) : ℂ :=
  if t = 0 then sigma * b 0
  else if t % 2 = 1 then (sigma : ℂ) / (Real.sqrt 2 : ℂ) * (b ((t + 1) / 2 : ℕ) + (-1) ^ ((t + 1) / 2) * b (-((t + 1) / 2 : ℕ)))
  else (sigma : ℂ) / (Real.sqrt 2 : ℂ) * I * (b (t / 2 : ℕ) - (-1) ^ (t / 2) * b (-(t / 2 : ℕ)))

theorem weight_odd (sigma : ℝ) (b : ℤ → ℂ) (j : ℕ) : weight sigma b (2 * j + 1) =
    (sigma : ℂ) / (Real.sqrt 2 : ℂ) * (b ((j + 1 : ℕ) : ℤ) + (-1) ^ (j + 1) * b (-((j + 1 : ℕ) : ℤ))) := by
  unfold weight
  rw [if_neg (by omega), if_pos (by omega), show (2 * j + 1 + 1) / 2 = j + 1 by omega]

theorem weight_even (sigma : ℝ) (b : ℤ → ℂ) (j : ℕ) : weight sigma b (2 * j + 2) =
    (sigma : ℂ) / (Real.sqrt 2 : ℂ) * I * (b ((j + 1 : ℕ) : ℤ) - (-1) ^ (j + 1) * b (-((j + 1 : ℕ) : ℤ))) := by
  unfold weight
  rw [if_neg (by omega), if_neg (by omega), show (2 * j + 2) / 2 = j + 1 by omega]

theorem degree_linear (g : ℕ → ℝ) (sigma : ℝ) (p l : ℕ) (b : ℤ → ℂ) :
    ∑ t ∈ Finset.range (2 * l + 1), coeff g sigma p ((t : ℤ) - l) * b ((t : ℤ) - l) =
      ∑ t ∈ Finset.range (2 * l + 1), weight sigma b t * (g (p + t) : ℂ) := by
  rw [sum_orders (fun m => coeff g sigma p m * b m), sum_range_two_mul_add_one (fun t => weight sigma b t * (g (p + t) : ℂ))]
  congr 1
  · simp [coeff, weight]; ring
  · refine Finset.sum_congr rfl fun j _ => ?_
    rw [weight_odd, weight_even, coeff_neg]
    have hc : coeff g sigma p ((j + 1 : ℕ) : ℤ) = drawn g sigma p (j + 1) := by
      unfold coeff
      rw [if_neg (by omega), if_pos (by omega), Int.toNat_natCast]
    rw [hc, drawn, zpow_natCast]
    simp only [map_mul, map_div₀, map_add, conj_ofReal, conj_I]
    rw [show p + (2 * (j + 1) - 1) = p + (2 * j + 1) by omega, show p + 2 * (j + 1) = p + (2 * j + 2) by omega]
    ring

theorem degree_power (sigma : ℝ) (l : ℕ) (b : ℤ → ℂ) :
    ∑ t ∈ Finset.range (2 * l + 1), ‖weight sigma b t‖ ^ 2 = sigma ^ 2 * ∑ t ∈ Finset.range (2 * l + 1), ‖b ((t : ℤ) - l)‖ ^ 2 := by
  rw [sum_orders (fun m => ‖b m‖ ^ 2), sum_range_two_mul_add_one (fun t => ‖weight sigma b t‖ ^ 2), mul_add, Finset.mul_sum]
  congr 1
  · simp [weight, mul_pow]
  · refine Finset.sum_congr rfl fun j _ => ?_
    rw [weight_odd, weight_even]
    set x := b ((j + 1 : ℕ) : ℤ)
    set y := (-1) ^ (j + 1) * b (-((j + 1 : ℕ) : ℤ)) with hy
    have hyn : ‖b (-((j + 1 : ℕ) : ℤ))‖ = ‖y‖ := by simp [hy]
    have hpar : ‖x + y‖ ^ 2 + ‖x - y‖ ^ 2 = 2 * (‖x‖ ^ 2 + ‖y‖ ^ 2) := by
      simp only [← Complex.normSq_eq_norm_sq, Complex.normSq_apply, add_re, add_im, sub_re, sub_im]
      ring
    have h2 : ‖(Real.sqrt 2 : ℂ)‖ ^ 2 = 2 := by
      rw [← Complex.normSq_eq_norm_sq, Complex.normSq_ofReal, Real.mul_self_sqrt (by norm_num)]
    have hs : ‖(sigma : ℂ)‖ ^ 2 = sigma ^ 2 := by simp
    rw [hyn, norm_mul, norm_mul, norm_mul, norm_div, norm_I, mul_one, mul_pow, mul_pow, div_pow, h2, hs, ← mul_add, hpar]
    ring

/-- a linear functional of harmonic noise is a combination of the values drawn with the same power. -/
theorem noise_linear (L : ℕ) (sigma : ℝ) (B : ℕ → ℂ) : ∃ c : ℕ → ℂ,
    (∀ g : ℕ → ℝ, ∀ nlm : List ℂ, (∀ (l : ℕ) (m : ℤ), l < L → |m| ≤ l → nlm.getD (elm2ind l m) 0 = coeff g sigma (l ^ 2) m) →
      ∑ i ∈ Finset.range (L ^ 2), nlm.getD i 0 * B i = ∑ k ∈ Finset.range (L ^ 2), c k * (g k : ℂ)) ∧
    ∑ k ∈ Finset.range (L ^ 2), ‖c k‖ ^ 2 = sigma ^ 2 * ∑ i ∈ Finset.range (L ^ 2), ‖B i‖ ^ 2 := by
  let b : ℕ → ℤ → ℂ := fun l m => B (elm2ind l m)
  let c : ℕ → ℂ := fun k => weight sigma (b (Nat.sqrt k)) (k - Nat.sqrt k ^ 2)
  have hc : ∀ l t, t < 2 * l + 1 → c (l ^ 2 + t) = weight sigma (b l) t := by
    intro l t ht
    have : Nat.sqrt (l ^ 2 + t) = l := by
      rw [sq, Nat.sqrt_add_eq l (by omega)]
    simp only [c, this, Nat.add_sub_cancel_left]
  have hb : ∀ l t : ℕ, b l ((t : ℤ) - l) = B (l ^ 2 + t) := fun l t => by simp only [b, elm2ind_block]
  refine ⟨c, fun g nlm hv => ?_, ?_⟩
  · rw [sum_sq_blocks, sum_sq_blocks]
    refine Finset.sum_congr rfl fun l hl => ?_
    rw [Finset.mem_range] at hl
    have h1 : ∑ t ∈ Finset.range (2 * l + 1), c (l ^ 2 + t) * (g (l ^ 2 + t) : ℂ) =
        ∑ t ∈ Finset.range (2 * l + 1), weight sigma (b l) t * (g (l ^ 2 + t) : ℂ) :=
      Finset.sum_congr rfl fun t ht => by rw [hc l t (by simpa using ht)]
    rw [h1, ← degree_linear]
    refine Finset.sum_congr rfl fun t ht => ?_
    rw [Finset.mem_range] at ht
    rw [hb, ← hv l _ hl (by rw [abs_le]; omega), elm2ind_block]
  · rw [sum_sq_blocks, sum_sq_blocks, Finset.mul_sum]
    refine Finset.sum_congr rfl fun l hl => ?_
    rw [Finset.sum_congr rfl fun t ht => by rw [hc l t (by simpa using ht)], degree_power]
    simp only [hb]

end Sleplet.Noise
