import Verif.Lemmas.RandomSignals
import Verif.Model.Experiments

/-!
The variance of samples of linear functionals of standard normals, on average; values that almost surely differ.
-/
namespace Sleplet.Experiments

open MeasureTheory ProbabilityTheory Spec Complex Noise

theorem sum_norm_sub (xs : List ℂ) (c : ℂ) :
    (xs.map fun x => ‖x - c‖ ^ 2).sum =
      (xs.map fun x => ‖x‖ ^ 2).sum - 2 * (xs.sum * (starRingEnd ℂ) c).re + xs.length * ‖c‖ ^ 2 := by
  induction xs with
  | nil => simp
  | cons a xs ih =>
    simp only [List.map_cons, List.sum_cons, ih, List.length_cons]
    have : ‖a - c‖ ^ 2 = ‖a‖ ^ 2 - 2 * (a * (starRingEnd ℂ) c).re + ‖c‖ ^ 2 := by
      rw [← normSq_eq_norm_sq, ← normSq_eq_norm_sq, ← normSq_eq_norm_sq, normSq_sub]
      ring
    rw [this, add_mul, add_re]
    push_cast
    ring

/-- the variance is the mean square minus the square of the mean. -/
theorem var_eq (xs : List ℂ) (h : xs ≠ []) : var xs = (xs.map fun x => ‖x‖ ^ 2).sum / xs.length - ‖mean xs‖ ^ 2 := by
  have hl : (xs.length : ℝ) ≠ 0 := by
    rw [Nat.cast_ne_zero]
    exact fun h0 => h (List.length_eq_zero_iff.1 h0)
  have hm : xs.sum = xs.length * mean xs := by
    unfold mean
    have : (xs.length : ℂ) ≠ 0 := by exact_mod_cast hl
    field_simp
  unfold var
  rw [sum_norm_sub, hm, mul_assoc, mul_conj, normSq_eq_norm_sq]
  have : ((xs.length : ℂ) * ((‖mean xs‖ ^ 2 : ℝ) : ℂ)).re = xs.length * ‖mean xs‖ ^ 2 := by
    rw [← ofReal_natCast, ← ofReal_mul, ofReal_re]
  rw [this]
  field_simp
  ring

theorem var_nonneg (xs : List ℂ) : 0 ≤ var xs := by
  unfold var
  apply div_nonneg _ (Nat.cast_nonneg _)
  apply List.sum_nonneg
  intro x hx
  obtain ⟨y, -, rfl⟩ := List.mem_map.1 hx
  positivity

/-- values without variance are all the same. -/
theorem eq_of_var_zero (xs : List ℂ) (h : var xs = 0) {a b : ℂ} (ha : a ∈ xs) (hb : b ∈ xs) : a = b := by
  have key : ∀ c ∈ xs, c = mean xs := by
    intro c hc
    have hl : (xs.length : ℝ) ≠ 0 := by
      rw [Nat.cast_ne_zero]
      intro h0
      rw [List.length_eq_zero_iff.1 h0] at hc
      simp at hc
    unfold var at h
    have h1 := (div_eq_zero_iff.1 h).resolve_right hl
    have h2 : ‖c - mean xs‖ ^ 2 ≤ (xs.map fun x => ‖x - mean xs‖ ^ 2).sum := by
      apply List.single_le_sum
      · intro y hy
        obtain ⟨z, -, rfl⟩ := List.mem_map.1 hy
        positivity
      · exact List.mem_map.2 ⟨c, hc, rfl⟩
    rw [h1] at h2
    have h3 : ‖c - mean xs‖ = 0 := by nlinarith [norm_nonneg (c - mean xs)]
    exact sub_eq_zero.1 (norm_eq_zero.1 h3)
  rw [key a ha, key b hb]

theorem var_zeros {α : Type} (xs : List α) : var (xs.map fun _ => 0) = 0 := by
  simp [var, mean]

variable {Ω : Type} [MeasurableSpace Ω] {P : Measure Ω} {ξ : ℕ → Ω → ℝ}

theorem integrable_power (h : StandardNormals P ξ) (n : ℕ) (c : ℕ → ℂ) :
    Integrable (fun ω => ‖∑ k ∈ Finset.range n, c k * (ξ k ω : ℂ)‖ ^ 2) P := by
  have hexp : (fun ω => ‖∑ k ∈ Finset.range n, c k * (ξ k ω : ℂ)‖ ^ 2) =
      fun ω => (∑ k ∈ Finset.range n, (c k).re * ξ k ω) ^ 2 + (∑ k ∈ Finset.range n, (c k).im * ξ k ω) ^ 2 := by
    funext ω
    rw [← Complex.normSq_eq_norm_sq, Complex.normSq_apply]
    simp [Complex.re_sum, Complex.im_sum, sq]
  rw [hexp]
  exact (second_real h n _).1.add (second_real h n _).1

theorem list_integral {α : Type} (l : List α) (f : α → Ω → ℝ) (hf : ∀ a ∈ l, Integrable (f a) P) :
    Integrable (fun ω => (l.map fun a => f a ω).sum) P ∧ ∫ ω, (l.map fun a => f a ω).sum ∂P = (l.map fun a => ∫ ω, f a ω ∂P).sum := by
  induction l with
  | nil => simp
  | cons a l ih =>
    obtain ⟨i1, i2⟩ := ih fun b hb => hf b (by simp [hb])
    simp only [List.map_cons, List.sum_cons]
    refine ⟨(hf a (by simp)).add i1, ?_⟩
    rw [integral_add (hf a (by simp)) i1, i2]

theorem sum_functionals {α : Type} (l : List α) (n : ℕ) (c : α → ℕ → ℂ) (x : ℕ → ℂ) :
    (l.map fun i => ∑ k ∈ Finset.range n, c i k * x k).sum = ∑ k ∈ Finset.range n, (l.map fun i => c i k).sum * x k := by
  induction l with
  | nil => simp
  | cons a l ih =>
    simp only [List.map_cons, List.sum_cons, ih, add_mul, Finset.sum_add_distrib]

/-- the sample variance of linear functionals on average. -/
theorem integral_var (h : StandardNormals P ξ) {α : Type} (l : List α) (hl : l ≠ []) (n : ℕ) (c : α → ℕ → ℂ) :
    Integrable (fun ω => var (l.map fun i => ∑ k ∈ Finset.range n, c i k * (ξ k ω : ℂ))) P ∧
    ∫ ω, var (l.map fun i => ∑ k ∈ Finset.range n, c i k * (ξ k ω : ℂ)) ∂P =
      (l.map fun i => ∑ k ∈ Finset.range n, ‖c i k‖ ^ 2).sum / l.length -
        ∑ k ∈ Finset.range n, ‖(l.map fun i => c i k).sum / l.length‖ ^ 2 := by
  have e : (fun ω => var (l.map fun i => ∑ k ∈ Finset.range n, c i k * (ξ k ω : ℂ))) = fun ω =>
      (l.map fun i => ‖∑ k ∈ Finset.range n, c i k * (ξ k ω : ℂ)‖ ^ 2).sum / l.length -
        ‖∑ k ∈ Finset.range n, ((l.map fun i => c i k).sum / l.length) * (ξ k ω : ℂ)‖ ^ 2 := by
    funext ω
    rw [var_eq _ (by simpa using hl), List.map_map, List.length_map]
    congr 3
    unfold mean
    rw [sum_functionals, List.length_map, Finset.sum_div]
    refine Finset.sum_congr rfl fun k _ => ?_
    ring
  rw [e]
  obtain ⟨h1, h2⟩ := list_integral (P := P) l (fun i ω => ‖∑ k ∈ Finset.range n, c i k * (ξ k ω : ℂ)‖ ^ 2)
    fun i _ => integrable_power h n (c i)
  refine ⟨(h1.div_const _).sub (integrable_power h n _), ?_⟩
  rw [integral_sub (h1.div_const _) (integrable_power h n _), integral_div, h2, second h]
  simp only [second h]

/-! ### Almost surely -/

theorem ae_ne_zero (h : StandardNormals P ξ) : ∀ᵐ ω ∂P, ∀ k, ξ k ω ≠ 0 := by
  rw [ae_all_iff]
  intro k
  have := nullSingletonClass_gaussianReal (μ := 0) (v := 1) one_ne_zero
  have h0 : (gaussianReal 0 1) {(0 : ℝ)} = 0 := measure_singleton 0
  rw [← (h.law k).map_eq, Measure.map_apply (h.measurable k) (measurableSet_singleton 0)] at h0
  rw [ae_iff]
  convert h0 using 2
  ext ω
  simp

theorem ae_ne (h : StandardNormals P ξ) : ∀ᵐ ω ∂P, ∀ i j, i ≠ j → ξ i ω ≠ ξ j ω := by
  rw [ae_all_iff]
  intro i
  rw [ae_all_iff]
  intro j
  by_cases hij : i = j
  · simp [hij]
  · have hneg : P.map (fun ω => -ξ j ω) = gaussianReal (-0) 1 := (gaussianReal_neg (h.law j)).map_eq
    have hind : IndepFun (ξ i) (fun ω => -ξ j ω) P := (h.indep.indepFun hij).comp measurable_id measurable_neg
    have hsum := gaussianReal_add_gaussianReal_of_indepFun hind (h.law i).map_eq hneg
    have hv : (1 + 1 : NNReal) ≠ 0 := by norm_num
    have := nullSingletonClass_gaussianReal (μ := 0 + -0) hv
    have h0 : (gaussianReal (0 + -0) (1 + 1)) {(0 : ℝ)} = 0 := measure_singleton 0
    rw [← hsum] at h0
    change (P.map (ξ i + -ξ j)) {0} = 0 at h0
    rw [Measure.map_apply ((h.measurable i).add (h.measurable j).neg) (measurableSet_singleton 0)] at h0
    rw [ae_iff]
    convert h0 using 2
    ext ω
    simp [hij, add_neg_eq_zero]

end Sleplet.Experiments
