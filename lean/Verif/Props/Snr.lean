import Verif.Props.Noise

/-!
C31 (noise level and SNR).
-/
namespace Sleplet.Props

open Complex Noise

theorem signalPower_nonneg (s : List ℂ) : 0 ≤ signalPower s := by
  unfold signalPower
  apply List.sum_nonneg
  intro x hx
  obtain ⟨y, _, rfl⟩ := List.mem_map.1 hx
  positivity

theorem signalPower_smul (c : ℂ) (s : List ℂ) : signalPower (s.map (c * ·)) = ‖c‖ ^ 2 * signalPower s := by
  unfold signalPower
  induction s with
  | nil => simp
  | cons x s ih =>
    simp only [List.map_cons, List.sum_cons] at ih ⊢
    rw [ih, Complex.norm_mul]
    ring

theorem sigma_sq (signal : List ℂ) (snr : ℝ) (d : Option ℕ) :
    computeSigmaNoise signal snr d ^ 2 =
      (10 : ℝ) ^ (-snr / 10) * signalPower signal / ((d.getD signal.length : ℕ) : ℝ) := by
  unfold computeSigmaNoise
  rw [Real.sq_sqrt]
  exact div_nonneg (mul_nonneg (Real.rpow_nonneg (by norm_num) _) (signalPower_nonneg _)) (Nat.cast_nonneg _)

/-- C31. If the power of the noise is `K σ²`, where `σ` is the standard deviation computed for the signal and the requested
SNR and `K` the number of coefficients it was computed with, the SNR is the requested one. -/
theorem C31_requested_snr (signal noise : List ℂ) (snr : ℝ) (d : Option ℕ) (hs : signalPower signal ≠ 0)
    (hK : d.getD signal.length ≠ 0)
    (hn : signalPower noise = (d.getD signal.length : ℕ) * computeSigmaNoise signal snr d ^ 2) :
    computeSnr signal noise = snr := by
  have hK' : ((d.getD signal.length : ℕ) : ℝ) ≠ 0 := by exact_mod_cast hK
  unfold computeSnr
  rw [hn, sigma_sq, mul_div_cancel₀ _ hK']
  have h10 : (0 : ℝ) < (10 : ℝ) ^ (-snr / 10) := Real.rpow_pos_of_pos (by norm_num) _
  rw [show signalPower signal / ((10 : ℝ) ^ (-snr / 10) * signalPower signal) = ((10 : ℝ) ^ (-snr / 10))⁻¹ by
    field_simp, ← Real.rpow_neg (by norm_num), Real.logb_rpow (by norm_num) (by norm_num)]
  ring

/-- C31. The SNR actually obtained with harmonic noise for a signal of `L²` coefficients: the requested one less ten times
the logarithm of the mean square of the `L²` values drawn (whose expectation is 1). -/
theorem C31_obtained_snr (normals : ℕ → ℕ → ℝ) (L : ℕ) (signal : List ℂ) (snr : ℝ) (w : World) (hL : 0 < L)
    (hlen : signal.length = L ^ 2) (hs : signalPower signal ≠ 0)
    (hg : ∑ k ∈ Finset.range (L ^ 2), normals 30 k ^ 2 ≠ 0) :
    ∃ nlm w', createNoise normals L signal snr w = .ok (nlm, w') ∧
      computeSnr signal nlm = snr - 10 * Real.logb 10 ((∑ k ∈ Finset.range (L ^ 2), normals 30 k ^ 2) / (L : ℝ) ^ 2) := by
  obtain ⟨nlm, h, hp⟩ := noise_power normals L signal snr w
  refine ⟨nlm, _, h, ?_⟩
  have h10 : (0 : ℝ) < (10 : ℝ) ^ (-snr / 10) := Real.rpow_pos_of_pos (by norm_num) _
  have hL' : (L : ℝ) ≠ 0 := by exact_mod_cast hL.ne'
  set G := ∑ k ∈ Finset.range (L ^ 2), normals 30 k ^ 2 with hG
  unfold computeSnr
  rw [hp, sigma_sq, Option.getD_none, hlen]
  push_cast
  rw [show signalPower signal / ((10 : ℝ) ^ (-snr / 10) * signalPower signal / (L : ℝ) ^ 2 * G) =
      ((10 : ℝ) ^ (-snr / 10))⁻¹ * (G / (L : ℝ) ^ 2)⁻¹ by field_simp,
    Real.logb_mul (inv_ne_zero h10.ne') (inv_ne_zero (div_ne_zero hg (pow_ne_zero _ hL'))), Real.logb_inv, Real.logb_inv,
    Real.logb_rpow (by norm_num) (by norm_num)]
  ring

/-- C31. Scaling signal and noise together leaves the SNR, scaling the noise by `c` changes it by `-20 log₁₀ |c|`. -/
theorem C31_scaling (signal noise : List ℂ) (c : ℂ) (hc : c ≠ 0) (hs : signalPower signal ≠ 0) (hn : signalPower noise ≠ 0) :
    computeSnr (signal.map (c * ·)) (noise.map (c * ·)) = computeSnr signal noise ∧
    computeSnr signal (noise.map (c * ·)) = computeSnr signal noise - 20 * Real.logb 10 ‖c‖ := by
  have hc' : ‖c‖ ≠ 0 := norm_ne_zero_iff.2 hc
  unfold computeSnr
  rw [signalPower_smul, signalPower_smul]
  constructor
  · rw [mul_div_mul_left _ _ (pow_ne_zero 2 hc')]
  · rw [show signalPower signal / (‖c‖ ^ 2 * signalPower noise) = signalPower signal / signalPower noise * (‖c‖ ^ 2)⁻¹ by
      field_simp, Real.logb_mul (div_ne_zero hs hn) (inv_ne_zero (pow_ne_zero 2 hc')), Real.logb_inv, Real.logb_pow]
    push_cast
    ring

/-- a signal of four coefficients for bandlimit 2 has power 9. -/
example : signalPower ([1, 2, 0, 2] : List ℂ) = 9 ∧ ([1, 2, 0, 2] : List ℂ).length = 2 ^ 2 := by
  constructor
  · simp [signalPower]
    norm_num
  · simp

end Sleplet.Props
