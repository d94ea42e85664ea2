import Verif.Lemmas.WhiteNoise
import Verif.Lemmas.SphHarm
import Verif.Spec.Synthesis

/-!
Covariances of linear combinations of standard normals.
-/
namespace Sleplet.Noise

open MeasureTheory ProbabilityTheory Spec Complex

variable {Ω : Type} [MeasurableSpace Ω] {P : Measure Ω} {ξ : ℕ → Ω → ℝ}

theorem product (h : StandardNormals P ξ) (n : ℕ) (c d : ℕ → ℂ) :
    ∫ ω, (∑ k ∈ Finset.range n, c k * (ξ k ω : ℂ)) * (∑ k ∈ Finset.range n, d k * (ξ k ω : ℂ)) ∂P =
      ∑ k ∈ Finset.range n, c k * d k := by
  have hint : ∀ i j, Integrable (fun ω => c i * d j * ((ξ i ω * ξ j ω : ℝ) : ℂ)) P := fun i j =>
    (((memLp h i).integrable_mul (memLp h j)).ofReal).const_mul _
  have hexp : (fun ω => (∑ k ∈ Finset.range n, c k * (ξ k ω : ℂ)) * (∑ k ∈ Finset.range n, d k * (ξ k ω : ℂ))) =
      fun ω => ∑ i ∈ Finset.range n, ∑ j ∈ Finset.range n, c i * d j * ((ξ i ω * ξ j ω : ℝ) : ℂ) := by
    funext ω
    rw [Finset.sum_mul_sum]
    exact Finset.sum_congr rfl fun i _ => Finset.sum_congr rfl fun j _ => by push_cast; ring
  rw [hexp, integral_finset_sum _ fun i _ => integrable_finset_sum _ fun j _ => hint i j]
  refine Finset.sum_congr rfl fun i hi => ?_
  rw [integral_finset_sum _ fun j _ => hint i j]
  have : ∀ j, ∫ ω, c i * d j * ((ξ i ω * ξ j ω : ℝ) : ℂ) ∂P = c i * d j * (if i = j then 1 else 0) := by
    intro j
    rw [integral_const_mul, integral_complex_ofReal, cov h]
    split_ifs <;> simp
  simp only [this]
  rw [Finset.sum_eq_single_of_mem i hi]
  · simp
  · intro j _ hj
    simp [Ne.symm hj]

theorem covariance (h : StandardNormals P ξ) (n : ℕ) (c d : ℕ → ℂ) :
    ∫ ω, (∑ k ∈ Finset.range n, c k * (ξ k ω : ℂ)) * (starRingEnd ℂ) (∑ k ∈ Finset.range n, d k * (ξ k ω : ℂ)) ∂P =
      ∑ k ∈ Finset.range n, c k * (starRingEnd ℂ) (d k) := by
  rw [← product h]
  simp only [map_sum, map_mul, conj_ofReal]

/-! ### Signals with independent real and imaginary parts -/

/-- the weights of the values drawn in `∑ B_i f_i`, when `f_i = s (ξ_{k+i} + i ξ_{k+n+i})`. -/
noncomputable def signalWeight (k0 n : ℕ) (s : ℂ) (B : ℕ → ℂ) (k : ℕ) : ℂ :=
  if k < k0 then 0 else if k < k0 + n then s * B (k - k0) else if k < k0 + n + n then s * I * B (k - (k0 + n)) else 0

theorem sum_signalWeight (k0 n M : ℕ) (hM : k0 + n + n ≤ M) (s : ℂ) (B F : ℕ → ℂ) :
    ∑ k ∈ Finset.range M, signalWeight k0 n s B k * F k =
      ∑ i ∈ Finset.range n, s * B i * (F (k0 + i) + I * F (k0 + n + i)) := by
  obtain ⟨r, rfl⟩ : ∃ r, M = k0 + n + n + r := ⟨M - (k0 + n + n), by omega⟩
  rw [Finset.sum_range_add, Finset.sum_range_add, Finset.sum_range_add]
  have h0 : ∑ k ∈ Finset.range k0, signalWeight k0 n s B k * F k = 0 := by
    refine Finset.sum_eq_zero fun k hk => ?_
    rw [Finset.mem_range] at hk
    simp [signalWeight, hk]
  have h3 : ∑ k ∈ Finset.range r, signalWeight k0 n s B (k0 + n + n + k) * F (k0 + n + n + k) = 0 := by
    refine Finset.sum_eq_zero fun k _ => ?_
    rw [signalWeight, if_neg (by omega), if_neg (by omega), if_neg (by omega), zero_mul]
  rw [h0, h3, zero_add, add_zero, ← Finset.sum_add_distrib]
  refine Finset.sum_congr rfl fun i hi => ?_
  rw [Finset.mem_range] at hi
  rw [signalWeight, if_neg (by omega), if_pos (by omega), signalWeight, if_neg (by omega), if_neg (by omega), if_pos (by omega)]
  simp only [Nat.add_sub_cancel_left]
  ring

theorem signalWeight_first {k0 n i : ℕ} (hi : i < n) (s : ℂ) (B : ℕ → ℂ) : signalWeight k0 n s B (k0 + i) = s * B i := by
  rw [signalWeight, if_neg (by omega), if_pos (by omega), Nat.add_sub_cancel_left]

theorem signalWeight_second {k0 n i : ℕ} (hi : i < n) (s : ℂ) (B : ℕ → ℂ) : signalWeight k0 n s B (k0 + n + i) = s * I * B i := by
  rw [signalWeight, if_neg (by omega), if_neg (by omega), if_pos (by omega), Nat.add_sub_cancel_left]

theorem signalWeight_outside {k0 n k : ℕ} (hk : k < k0 ∨ k0 + n + n ≤ k) (s : ℂ) (B : ℕ → ℂ) : signalWeight k0 n s B k = 0 := by
  unfold signalWeight
  rcases hk with hk | hk
  · rw [if_pos hk]
  · rw [if_neg (by omega), if_neg (by omega), if_neg (by omega)]

theorem signal_inner (k0 n M : ℕ) (hM : k0 + n + n ≤ M) (s : ℝ) (B B' : ℕ → ℂ) :
    ∑ k ∈ Finset.range M, signalWeight k0 n s B k * (starRingEnd ℂ) (signalWeight k0 n s B' k) =
      2 * s ^ 2 * ∑ i ∈ Finset.range n, B i * (starRingEnd ℂ) (B' i) := by
  rw [sum_signalWeight k0 n M hM, Finset.mul_sum]
  refine Finset.sum_congr rfl fun i hi => ?_
  rw [Finset.mem_range] at hi
  rw [signalWeight_first hi, signalWeight_second hi]
  simp only [map_mul, conj_ofReal, conj_I]
  linear_combination (-(s : ℂ) * B i * s * (starRingEnd ℂ) (B' i)) * I_mul_I

theorem signal_pseudo (k0 n M : ℕ) (hM : k0 + n + n ≤ M) (s : ℝ) (B B' : ℕ → ℂ) :
    ∑ k ∈ Finset.range M, signalWeight k0 n s B k * signalWeight k0 n s B' k = 0 := by
  rw [sum_signalWeight k0 n M hM]
  refine Finset.sum_eq_zero fun i hi => ?_
  rw [Finset.mem_range] at hi
  rw [signalWeight_first hi, signalWeight_second hi]
  linear_combination ((s : ℂ) * B i * s * B' i) * I_mul_I

theorem signal_disjoint (k0 k1 n M : ℕ) (h : k0 + n + n ≤ k1) (hM : k1 + n + n ≤ M) (s : ℝ) (B B' : ℕ → ℂ) :
    ∑ k ∈ Finset.range M, signalWeight k0 n s B k * (starRingEnd ℂ) (signalWeight k1 n s B' k) = 0 := by
  rw [sum_signalWeight k0 n M (by omega)]
  refine Finset.sum_eq_zero fun i hi => ?_
  rw [Finset.mem_range] at hi
  rw [signalWeight_outside (Or.inl (by omega)), signalWeight_outside (Or.inl (by omega))]
  simp

/-! ### Signals of a given spectrum -/

theorem degree_inner (sigma : ℝ) (l : ℕ) (b b' : ℤ → ℂ) :
    ∑ t ∈ Finset.range (2 * l + 1), weight sigma b t * (starRingEnd ℂ) (weight sigma b' t) =
      sigma ^ 2 * ∑ t ∈ Finset.range (2 * l + 1), b ((t : ℤ) - l) * (starRingEnd ℂ) (b' ((t : ℤ) - l)) := by
  rw [sum_orders (fun m => b m * (starRingEnd ℂ) (b' m)),
    sum_range_two_mul_add_one (fun t => weight sigma b t * (starRingEnd ℂ) (weight sigma b' t)), mul_add, Finset.mul_sum]
  congr 1
  · simp [weight]; ring
  · refine Finset.sum_congr rfl fun j _ => ?_
    rw [weight_odd, weight_even, weight_odd, weight_even]
    have h2 : (Real.sqrt 2 : ℂ) * (Real.sqrt 2 : ℂ) = 2 := by
      rw [← ofReal_mul, Real.mul_self_sqrt (by norm_num)]
      norm_num
    have h0 : (Real.sqrt 2 : ℂ) ≠ 0 := by
      intro h0
      rw [h0] at h2
      norm_num at h2
    have h1 : ((-1 : ℂ) ^ (j + 1)) * (-1) ^ (j + 1) = 1 := by rw [← mul_pow]; simp
    have hd : (sigma : ℂ) / (Real.sqrt 2 : ℂ) * ((sigma : ℂ) / (Real.sqrt 2 : ℂ)) = sigma ^ 2 / 2 := by
      rw [div_mul_div_comm, h2]; ring
    simp only [map_mul, map_div₀, map_add, map_sub, map_pow, map_neg, map_one, conj_ofReal, conj_I]
    set x := b ((j + 1 : ℕ) : ℤ)
    set y := b (-((j + 1 : ℕ) : ℤ))
    set x' := (starRingEnd ℂ) (b' ((j + 1 : ℕ) : ℤ))
    set y' := (starRingEnd ℂ) (b' (-((j + 1 : ℕ) : ℤ)))
    set e := (-1 : ℂ) ^ (j + 1)
    set r := (sigma : ℂ) / (Real.sqrt 2 : ℂ)
    linear_combination (2 * (x * x' + e * e * (y * y'))) * hd - (r * r * (x - e * y) * (x' - e * y')) * I_mul_I +
      (sigma ^ 2 * (y * y')) * h1

/-- the weights of the values drawn in `∑ B_i f_i`, for coefficients of degree `l` drawn with standard deviation `sigma l`. -/
noncomputable def spectrumWeight (sigma : ℕ → ℝ) (B : ℕ → ℂ) (k : ℕ) : ℂ :=
  weight (sigma (Nat.sqrt k)) (fun m => B (elm2ind (Nat.sqrt k) m)) (k - Nat.sqrt k ^ 2)

theorem spectrumWeight_block (sigma : ℕ → ℝ) (B : ℕ → ℂ) {l t : ℕ} (ht : t < 2 * l + 1) :
    spectrumWeight sigma B (l ^ 2 + t) = weight (sigma l) (fun m => B (elm2ind l m)) t := by
  have : Nat.sqrt (l ^ 2 + t) = l := by
    rw [sq, Nat.sqrt_add_eq l (by omega)]
  simp only [spectrumWeight, this, Nat.add_sub_cancel_left]

theorem spectrum_linear (L : ℕ) (sigma : ℕ → ℝ) (B : ℕ → ℂ) (g : ℕ → ℝ) (off : ℕ) (nlm : List ℂ)
    (hoff : ∀ l < L, sigma l ≠ 0 → off ≤ l ^ 2)
    (hv : ∀ (l : ℕ) (m : ℤ), l < L → |m| ≤ l → nlm.getD (elm2ind l m) 0 = coeff g (sigma l) (l ^ 2 - off) m) :
    ∑ i ∈ Finset.range (L ^ 2), nlm.getD i 0 * B i =
      ∑ k ∈ Finset.range (L ^ 2), spectrumWeight sigma B k * (g (k - off) : ℂ) := by
  rw [sum_sq_blocks, sum_sq_blocks]
  refine Finset.sum_congr rfl fun l hl => ?_
  rw [Finset.mem_range] at hl
  have h1 : ∀ t ∈ Finset.range (2 * l + 1), nlm.getD (l ^ 2 + t) 0 * B (l ^ 2 + t) =
      coeff g (sigma l) (l ^ 2 - off) ((t : ℤ) - l) * B (elm2ind l ((t : ℤ) - l)) := by
    intro t ht
    rw [Finset.mem_range] at ht
    rw [← hv l _ hl (by rw [abs_le]; omega), elm2ind_block]
  rw [Finset.sum_congr rfl h1, degree_linear g (sigma l) (l ^ 2 - off) l (fun m => B (elm2ind l m))]
  refine Finset.sum_congr rfl fun t ht => ?_
  rw [Finset.mem_range] at ht
  rw [spectrumWeight_block sigma B ht]
  by_cases h0 : sigma l = 0
  · simp [weight, h0]
  · rw [Nat.sub_add_comm (hoff l hl h0)]

theorem spectrum_inner (L : ℕ) (sigma : ℕ → ℝ) (B B' : ℕ → ℂ) :
    ∑ k ∈ Finset.range (L ^ 2), spectrumWeight sigma B k * (starRingEnd ℂ) (spectrumWeight sigma B' k) =
      ∑ l ∈ Finset.range L, (sigma l : ℂ) ^ 2 *
        ∑ t ∈ Finset.range (2 * l + 1), B (l ^ 2 + t) * (starRingEnd ℂ) (B' (l ^ 2 + t)) := by
  rw [sum_sq_blocks]
  refine Finset.sum_congr rfl fun l _ => ?_
  have := degree_inner (sigma l) l (fun m => B (elm2ind l m)) (fun m => B' (elm2ind l m))
  simp only [elm2ind_block] at this
  rw [← this]
  refine Finset.sum_congr rfl fun t ht => ?_
  rw [Finset.mem_range] at ht
  rw [spectrumWeight_block sigma B ht, spectrumWeight_block sigma B' ht]

/-- the addition theorem over the indices of a degree. -/
theorem sum_norm_harmonics (l : ℕ) (th ph : ℝ) :
    ∑ t ∈ Finset.range (2 * l + 1), ‖sphHarm l ((t : ℤ) - l) th ph‖ ^ 2 = (2 * l + 1) / (4 * Real.pi) := by
  rw [← Gaunt.sum_norm_sphHarm l th ph]
  refine Finset.sum_nbij' (fun t => (t : ℤ) - l) (fun m => (m + l).toNat) ?_ ?_ ?_ ?_ ?_
  · intro t ht
    rw [Finset.mem_range] at ht
    rw [Finset.mem_Icc]
    omega
  · intro m hm
    rw [Finset.mem_Icc] at hm
    rw [Finset.mem_range]
    omega
  · intro t ht; simp
  · intro m hm
    rw [Finset.mem_Icc] at hm
    omega
  · intro t _; rfl

/-- the harmonic of index `i`. -/
noncomputable def harm (i : ℕ) (th ph : ℝ) : ℂ := sphHarm (Nat.sqrt i) ((i : ℤ) - (Nat.sqrt i) ^ 2 - Nat.sqrt i) th ph

theorem harm_block {l t : ℕ} (ht : t < 2 * l + 1) (th ph : ℝ) : harm (l ^ 2 + t) th ph = sphHarm l ((t : ℤ) - l) th ph := by
  have : Nat.sqrt (l ^ 2 + t) = l := by
    rw [sq, Nat.sqrt_add_eq l (by omega)]
  unfold harm
  rw [this]
  congr 1
  push_cast
  ring

theorem sum_norm_harm (l : ℕ) (th ph : ℝ) :
    ∑ t ∈ Finset.range (2 * l + 1), ‖harm (l ^ 2 + t) th ph‖ ^ 2 = (2 * l + 1) / (4 * Real.pi) := by
  rw [← sum_norm_harmonics l th ph]
  exact Finset.sum_congr rfl fun t ht => by rw [harm_block (by simpa using ht)]

theorem synthesis_eq (L : ℕ) (c : List ℂ) (th ph : ℝ) :
    synthesis L c th ph = ∑ i ∈ Finset.range (L ^ 2), c.getD i 0 * harm i th ph := by
  rw [sum_sq_blocks]
  unfold synthesis
  refine Finset.sum_congr rfl fun l _ => ?_
  refine Finset.sum_nbij' (fun m => (m + l).toNat) (fun t => (t : ℤ) - l) ?_ ?_ ?_ ?_ ?_
  · intro m hm
    rw [Finset.mem_Icc] at hm
    rw [Finset.mem_range]
    omega
  · intro t ht
    rw [Finset.mem_range] at ht
    rw [Finset.mem_Icc]
    omega
  · intro m hm
    rw [Finset.mem_Icc] at hm
    omega
  · intro t ht; simp
  · intro m hm
    rw [Finset.mem_Icc] at hm
    rw [harm_block (by omega), show (((m + l).toNat : ℕ) : ℤ) - l = m by omega]
    congr 2
    have : ((l : ℤ) ^ 2 + l + m) = ((l ^ 2 + (m + l).toNat : ℕ) : ℤ) := by
      push_cast
      rw [Int.toNat_of_nonneg (by omega)]
      ring
    rw [this, Int.toNat_natCast]

end Sleplet.Noise
