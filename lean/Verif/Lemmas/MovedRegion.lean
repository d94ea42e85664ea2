import Verif.Lemmas.Peaks
import Verif.Lemmas.RegionEnergy

/-! The energy of a bandlimited field in the part by which two regions differ. -/
namespace Sleplet

open Complex Sleplet.Spec Sleplet.Gaunt

theorem peak_le {L : ℕ} {f : ℝ → ℝ → ℂ} (hf : f ∈ bandlimited L) (th ph : ℝ) :
    ‖f th ph‖ ^ 2 ≤ L ^ 2 / (4 * Real.pi) * (sphereInner f f).re := by
  obtain ⟨a, rfl⟩ := (mem_bandlimited_iff L f).1 hf
  have h1 : (sphereInner (comb a) (comb a)).re = ∑ i, ‖a i‖ ^ 2 := by
    rw [inner_comb, Complex.re_sum]
    refine Finset.sum_congr rfl fun i _ => ?_
    rw [Complex.mul_conj, Complex.ofReal_re, Complex.normSq_eq_norm_sq]
  have := Peaks.cauchy a fun i => harm i th ph
  rw [Peaks.sum_harm] at this
  rw [h1, mul_comm]
  exact this

theorem abs_surfaceEnergy_le {f : ℝ → ℝ → ℂ} {M : ℝ} (hM : ∀ th ph, ‖f th ph‖ ^ 2 ≤ M) {t0 t1 : ℝ} (h0 : t0 ∈ Set.Icc 0 Real.pi)
    (h1 : t1 ∈ Set.Icc 0 Real.pi) (p0 p1 : ℝ) :
    |surfaceEnergy t0 t1 p0 p1 f| ≤ M * (|Real.cos t0 - Real.cos t1| * |p1 - p0|) := by
  have hM0 : 0 ≤ M := (sq_nonneg _).trans (hM 0 0)
  have hin : ∀ ph, ‖∫ th in t0..t1, ‖f th ph‖ ^ 2 * Real.sin th‖ ≤ M * |Real.cos t0 - Real.cos t1| := by
    intro ph
    have hb := intervalIntegral.norm_integral_le_abs_of_norm_le (μ := MeasureTheory.volume) (a := t0) (b := t1)
      (f := fun th => ‖f th ph‖ ^ 2 * Real.sin th) (g := fun th => M * Real.sin th) ?_ ?_
    · refine hb.trans (le_of_eq ?_)
      rw [intervalIntegral.integral_const_mul, integral_sin, abs_mul, abs_of_nonneg hM0]
    · refine (MeasureTheory.ae_restrict_iff' measurableSet_uIoc).2 (Filter.Eventually.of_forall fun th hth => ?_)
      have hs : 0 ≤ Real.sin th := by
        have := Set.uIoc_subset_uIcc hth
        have hI := Set.uIcc_subset_Icc h0 h1 this
        exact Real.sin_nonneg_of_nonneg_of_le_pi hI.1 hI.2
      rw [Real.norm_eq_abs, abs_of_nonneg (mul_nonneg (sq_nonneg _) hs)]
      exact mul_le_mul_of_nonneg_right (hM th ph) hs
    · exact (Continuous.intervalIntegrable (by fun_prop) _ _)
  have := intervalIntegral.norm_integral_le_of_norm_le_const (a := p0) (b := p1)
    (f := fun ph => ∫ th in t0..t1, ‖f th ph‖ ^ 2 * Real.sin th) fun ph _ => hin ph
  rw [Real.norm_eq_abs, mul_assoc] at this
  exact this

theorem surfaceEnergy_add_latitude (t0 t1 t2 p0 p1 : ℝ) {f : ℝ → ℝ → ℂ} (hf : Continuous fun x : ℝ × ℝ => f x.1 x.2) :
    surfaceEnergy t0 t1 p0 p1 f + surfaceEnergy t1 t2 p0 p1 f = surfaceEnergy t0 t2 p0 p1 f := by
  unfold surfaceEnergy
  rw [← intervalIntegral.integral_add ((continuous_energy hf _ _).intervalIntegrable _ _) ((continuous_energy hf _ _).intervalIntegrable _ _)]
  refine intervalIntegral.integral_congr fun ph _ => ?_
  have hc : Continuous fun th => ‖f th ph‖ ^ 2 * Real.sin th := by
    have : Continuous fun th => f th ph := hf.comp (by fun_prop : Continuous fun th : ℝ => (th, ph))
    fun_prop
  exact intervalIntegral.integral_add_adjacent_intervals (hc.intervalIntegrable _ _) (hc.intervalIntegrable _ _)

/-- the area that the boundary of a region limited in latitude and longitude sweeps when the bounds move one after the other. -/
noncomputable def swept (B B' : LatLon.Bounds) : ℝ :=
  (|Real.cos B.tmin - Real.cos B'.tmin| + |Real.cos B.tmax - Real.cos B'.tmax|) * |B.pmax - B.pmin| +
    (|B.pmin - B'.pmin| + |B.pmax - B'.pmax|) * |Real.cos B'.tmin - Real.cos B'.tmax|

theorem moved_box {L : ℕ} {f : ℝ → ℝ → ℂ} (hf : f ∈ bandlimited L) (B B' : LatLon.Bounds)
    (h0 : B.tmin ∈ Set.Icc 0 Real.pi) (h1 : B.tmax ∈ Set.Icc 0 Real.pi) (h0' : B'.tmin ∈ Set.Icc 0 Real.pi) (h1' : B'.tmax ∈ Set.Icc 0 Real.pi) :
    |surfaceEnergy B'.tmin B'.tmax B'.pmin B'.pmax f - surfaceEnergy B.tmin B.tmax B.pmin B.pmax f| ≤
      L ^ 2 / (4 * Real.pi) * swept B B' * (sphereInner f f).re := by
  have hc := continuous_bandlimited hf
  have hM := fun th ph => peak_le hf th ph
  set M := L ^ 2 / (4 * Real.pi) * (sphereInner f f).re with hMd
  have a1 := surfaceEnergy_add_longitude B'.tmin B'.tmax B'.pmin B.pmin B.pmax hc
  have a2 := surfaceEnergy_add_longitude B'.tmin B'.tmax B'.pmin B.pmax B'.pmax hc
  have a3 := surfaceEnergy_add_latitude B'.tmin B.tmin B.tmax B.pmin B.pmax hc
  have a4 := surfaceEnergy_add_latitude B'.tmin B.tmax B'.tmax B.pmin B.pmax hc
  have b1 := abs_surfaceEnergy_le hM h0' h1' B'.pmin B.pmin
  have b2 := abs_surfaceEnergy_le hM h0' h1' B.pmax B'.pmax
  have b3 := abs_surfaceEnergy_le hM h0' h0 B.pmin B.pmax
  have b4 := abs_surfaceEnergy_le hM h1 h1' B.pmin B.pmax
  rw [abs_sub_comm B'.pmax B.pmax] at b2
  rw [abs_sub_comm (Real.cos B'.tmin)] at b3
  have e : L ^ 2 / (4 * Real.pi) * swept B B' * (sphereInner f f).re = M * swept B B' := by rw [hMd]; ring
  rw [e, swept]
  rw [abs_le] at b1 b2 b3 b4 ⊢
  constructor <;> nlinarith

theorem moved_cap {L : ℕ} {f : ℝ → ℝ → ℂ} (hf : f ∈ bandlimited L) (gap : Bool) {t t' : ℝ} (h0 : t ∈ Set.Icc 0 Real.pi)
    (h0' : t' ∈ Set.Icc 0 Real.pi) :
    |capEnergy gap t' f - capEnergy gap t f| ≤ (if gap then 2 else 1) * (L ^ 2 / 2 * |Real.cos t - Real.cos t'|) * (sphereInner f f).re := by
  have hc := continuous_bandlimited hf
  have hM := fun th ph => peak_le hf th ph
  set M := L ^ 2 / (4 * Real.pi) * (sphereInner f f).re with hMd
  have hpi := Real.pi_pos
  have h2 : L ^ 2 / 2 * |Real.cos t - Real.cos t'| * (sphereInner f f).re = M * (|Real.cos t - Real.cos t'| * (2 * Real.pi)) := by
    rw [hMd]
    field_simp
    ring
  have a1 := surfaceEnergy_add_latitude 0 t t' 0 (2 * Real.pi) hc
  have b1 := abs_surfaceEnergy_le hM h0 h0' 0 (2 * Real.pi)
  rw [sub_zero, abs_of_pos (by linarith : 0 < 2 * Real.pi)] at b1
  cases gap with
  | false =>
    simp only [capEnergy, Bool.false_eq_true, if_false, add_zero, one_mul]
    rw [h2, ← a1, add_sub_cancel_left]
    exact b1
  | true =>
    have a2 := surfaceEnergy_add_latitude (Real.pi - t') (Real.pi - t) Real.pi 0 (2 * Real.pi) hc
    have b2 := abs_surfaceEnergy_le hM (t0 := Real.pi - t') (t1 := Real.pi - t) ⟨by linarith [h0'.2], by linarith [h0'.1]⟩
      ⟨by linarith [h0.2], by linarith [h0.1]⟩ 0 (2 * Real.pi)
    rw [sub_zero, abs_of_pos (by linarith : 0 < 2 * Real.pi), Real.cos_pi_sub, Real.cos_pi_sub, neg_sub_neg] at b2
    simp only [capEnergy, if_true]
    rw [mul_assoc, h2]
    rw [abs_le] at b1 b2 ⊢
    constructor <;> linarith

theorem moved_mask {L : ℕ} {f : ℝ → ℝ → ℂ} (hf : f ∈ bandlimited L) {X : Type} [Fintype X] (m m' : X → Bool) (weight : X → ℝ)
    (hw : ∀ x, 0 ≤ weight x) (th ph : X → ℝ) :
    |(∑ x with m' x, ‖f (th x) (ph x)‖ ^ 2 * weight x) - ∑ x with m x, ‖f (th x) (ph x)‖ ^ 2 * weight x| ≤
      L ^ 2 / (4 * Real.pi) * (∑ x with m x ≠ m' x, weight x) * (sphereInner f f).re := by
  rw [Finset.sum_filter, Finset.sum_filter, Finset.sum_filter, ← Finset.sum_sub_distrib]
  refine (Finset.abs_sum_le_sum_abs _ _).trans ?_
  rw [Finset.mul_sum, Finset.sum_mul]
  refine Finset.sum_le_sum fun x _ => ?_
  have h := mul_le_mul_of_nonneg_right (peak_le hf (th x) (ph x)) (hw x)
  have h0 : 0 ≤ ‖f (th x) (ph x)‖ ^ 2 * weight x := mul_nonneg (sq_nonneg _) (hw x)
  cases m x <;> cases m' x <;> simp [-norm_pow, abs_mul, abs_of_nonneg (hw x)] <;> linarith

end Sleplet
