import Mathlib.Analysis.Calculus.ContDiff.Deriv
import Mathlib.Analysis.Calculus.Deriv.MeanValue
import Mathlib.MeasureTheory.Integral.IntervalIntegral.FundThmCalculus
import Verif.Lemmas.Tiling
import Verif.Spec.Falloff

/-!
C94: the curves of the wavelets of S2LET, and that they are smooth.
-/
namespace Sleplet.Props

open Spec Tiling

variable {B : ℕ}

private theorem inside (hB : 2 ≤ B) {u : ℝ} (h1 : 1 / (B : ℝ) < u) (h2 : u < 1) : 0 < 1 - (2 * B / (B - 1) * (u - 1 / B) - 1 : ℝ) ^ 2 := by
  have hb : (1 : ℝ) < B := by exact_mod_cast hB
  have hb' : (0 : ℝ) < B - 1 := by linarith
  have e1 : 2 * B / (B - 1) * (u - 1 / B) = 2 * (B * u - 1) / (B - 1 : ℝ) := by field_simp
  have p1 : 0 < 2 * (B * u - 1) / (B - 1 : ℝ) := by
    have : 1 < B * u := by rw [div_lt_iff₀ (by linarith)] at h1; linarith
    have : 0 < B * u - 1 := by linarith
    positivity
  have p2 : 2 * (B * u - 1) / (B - 1 : ℝ) < 2 := by
    rw [div_lt_iff₀ hb']
    nlinarith
  rw [e1]
  nlinarith

private theorem density_eq (hB : 2 ≤ B) {u : ℝ} (h1 : 1 / (B : ℝ) < u) (h2 : u < 1) : density B u = falloffDensity B u := by
  unfold density bump schwartz falloffDensity expNegInvGlue
  rw [if_neg (not_le.2 (inside hB h1 h2)), ← Real.exp_nat_mul]
  congr 2
  push_cast
  rw [div_eq_mul_inv]
  ring

private theorem outside (hB : 2 ≤ B) {u : ℝ} (h : u ≤ 1 / (B : ℝ) ∨ 1 ≤ u) : density B u = 0 := by
  have hb : (1 : ℝ) < B := by exact_mod_cast hB
  have hb' : (0 : ℝ) < B - 1 := by linarith
  have e1 : 2 * B / (B - 1) * (u - 1 / B) = 2 * (B * u - 1) / (B - 1 : ℝ) := by field_simp
  unfold density bump schwartz
  rw [expNegInvGlue.zero_of_nonpos, zero_pow two_ne_zero, zero_div]
  rw [e1]
  rcases h with h | h
  · have : 2 * (B * u - 1) / (B - 1 : ℝ) ≤ 0 := by
      have : B * u ≤ 1 := by rw [le_div_iff₀ (by linarith)] at h; linarith
      exact div_nonpos_of_nonpos_of_nonneg (by linarith) hb'.le
    nlinarith
  · have : 2 ≤ 2 * (B * u - 1) / (B - 1 : ℝ) := by
      rw [le_div_iff₀ hb']
      nlinarith
    nlinarith

private theorem density_smooth (hB : 2 ≤ B) : ContDiff ℝ (⊤ : ℕ∞) (density B) := by
  have hb : (1 : ℝ) < B := by exact_mod_cast hB
  rw [contDiff_iff_contDiffAt]
  intro u
  by_cases hu : 0 < u
  · unfold density bump schwartz
    refine ContDiffAt.div (ContDiffAt.pow ?_ 2) contDiffAt_id hu.ne'
    exact expNegInvGlue.contDiff.contDiffAt.comp u (by fun_prop)
  · have h0 : (0 : ℝ) < 1 / B := by positivity
    have : density B =ᶠ[nhds u] fun _ => 0 := by
      filter_upwards [Iio_mem_nhds (show u < 1 / (B : ℝ) by linarith)] with v hv
      exact outside hB (Or.inl (le_of_lt hv))
    exact contDiffAt_const.congr_of_eventuallyEq this

private theorem falloff_eq (hB : 2 ≤ B) (t : ℝ) : falloff B t = step B t := by
  have hb : (1 : ℝ) < B := by exact_mod_cast hB
  have hq : 1 / (B : ℝ) < 1 := by rw [div_lt_one (by linarith)]; exact hb
  have hint : ∀ a b : ℝ, IntervalIntegrable (density B) MeasureTheory.volume a b := fun a b =>
    (density_smooth hB).continuous.intervalIntegrable a b
  have hD : ∫ u in (1 / (B : ℝ))..1, falloffDensity B u = ∫ u in (1 / (B : ℝ))..1, density B u :=
    intervalIntegral.integral_congr_Ioo_of_le hq.le fun u hu => (density_eq hB hu.1 hu.2).symm
  unfold falloff
  split_ifs with h1 h2
  · rw [← step_left hB]
    unfold step
    congr 1
    rw [← intervalIntegral.integral_add_adjacent_intervals (hint t (1 / B)) (hint (1 / B) 1)]
    have : ∫ u in t..(1 / (B : ℝ)), density B u = ∫ u in t..(1 / (B : ℝ)), (0 : ℝ) := by
      refine intervalIntegral.integral_congr fun u hu => ?_
      rw [Set.uIcc_of_le h1] at hu
      exact outside hB (Or.inl hu.2)
    rw [this, intervalIntegral.integral_zero, zero_add]
  · unfold step
    rw [intervalIntegral.integral_congr (g := fun _ => 0)]
    · simp
    · intro u hu
      rw [Set.uIcc_of_ge h2] at hu
      exact outside hB (Or.inr hu.1)
  · unfold step
    rw [hD]
    congr 1
    exact intervalIntegral.integral_congr_Ioo_of_le (not_le.1 h2).le fun u hu => (density_eq hB ((not_le.1 h1).trans hu.1) hu.2).symm

private theorem phi2_eq (hB : 2 ≤ B) (j l : ℕ) : phi2 B j l = falloff B (l / (B : ℝ) ^ j) := by
  have hb : (1 : ℝ) < B := by exact_mod_cast hB
  have hp : (0 : ℝ) < (B : ℝ) ^ j := by positivity
  have hq : 1 / (B : ℝ) < 1 := by rw [div_lt_one (by linarith)]; exact hb
  unfold phi2
  split_ifs with h1 h2
  · unfold falloff
    rw [if_pos]
    rw [div_le_div_iff₀ hp (by linarith)]
    rw [lt_div_iff₀ (by linarith)] at h1
    linarith
  · unfold falloff
    have : 1 < (l : ℝ) / (B : ℝ) ^ j := by rw [lt_div_iff₀ hp]; linarith
    rw [if_neg (by linarith), if_pos this.le]
  · exact (falloff_eq hB _).symm

/-- C94. The values of the generating functions: the square of the scaling function at degree `l` is the falloff at `l / B^j_min`, and that of
scale `j` is the falloff at `l / B^(j+1)` less that at `l / B^j`. -/
theorem C94_values (B xlim jMin : ℕ) (hB : 2 ≤ B) :
    (∃ k, (createKappas xlim B jMin)[0]? = some k ∧ ∀ l < xlim, 0 ≤ k.getD l 0 ∧ k.getD l 0 ^ 2 = falloff B (l / (B : ℝ) ^ jMin)) ∧
    ∀ j, jMin ≤ j → j ≤ jMax B xlim → ∃ k, (createKappas xlim B jMin)[j - jMin + 1]? = some k ∧
      ∀ l < xlim, 0 ≤ k.getD l 0 ∧ k.getD l 0 ^ 2 = falloff B (l / (B : ℝ) ^ (j + 1)) - falloff B (l / (B : ℝ) ^ j) := by
  refine ⟨⟨_, rfl, fun l hl => ?_⟩, fun j hj hJ => ⟨kappa B xlim j, ?_, fun l hl => ?_⟩⟩
  · have : (kappa0 B xlim jMin).getD l 0 = Real.sqrt (phi2 B jMin l) := by simp [kappa0, List.getD_eq_getElem?_getD, hl]
    rw [this, Real.sq_sqrt (phi2_mem hB _ _).1, phi2_eq hB]
    exact ⟨Real.sqrt_nonneg _, rfl⟩
  · simp only [createKappas, List.getElem?_cons_succ, wavelets, List.getElem?_map,
      List.getElem?_range (show j - jMin < jMax B xlim + 1 - jMin by omega), Option.map_some]
    rw [show jMin + (j - jMin) = j by omega]
  · have : (kappa B xlim j).getD l 0 = Real.sqrt (phi2 B (j + 1) l - phi2 B j l) := by simp [kappa, List.getD_eq_getElem?_getD, hl]
    rw [this, Real.sq_sqrt (by linarith [phi2_mono hB j l]), phi2_eq hB, phi2_eq hB]
    exact ⟨Real.sqrt_nonneg _, rfl⟩

/-- C94. The curve is infinitely differentiable everywhere, also where it leaves 1 and where it reaches 0, never increases, and strictly decreases
in between. -/
theorem C94_smooth (B : ℕ) (hB : 2 ≤ B) :
    ContDiff ℝ (⊤ : ℕ∞) (falloff B) ∧ Antitone (falloff B) ∧ StrictAntiOn (falloff B) (Set.Icc (1 / (B : ℝ)) 1) ∧
      (∀ t ≤ 1 / (B : ℝ), falloff B t = 1) ∧ ∀ t, 1 ≤ t → falloff B t = 0 := by
  have hb : (1 : ℝ) < B := by exact_mod_cast hB
  have hq : 1 / (B : ℝ) < 1 := by rw [div_lt_one (by linarith)]; exact hb
  have hq0 : 0 < 1 / (B : ℝ) := by positivity
  have hc := (density_smooth hB).continuous
  set C := ∫ u in (1 / (B : ℝ))..1, density B u with hC
  have hCpos : 0 < C := by
    refine intervalIntegral.intervalIntegral_pos_of_pos_on (hc.intervalIntegrable _ _) (fun x hx => ?_) hq
    have := bump_pos hB hx.1 hx.2
    have : 0 < x := hq0.trans hx.1
    unfold density
    positivity
  have hd : ∀ t, HasDerivAt (falloff B) (-density B t / C) t := by
    intro t
    rw [show falloff B = step B from funext (falloff_eq hB)]
    unfold step
    exact (intervalIntegral.integral_hasDerivAt_left (hc.intervalIntegrable _ _) (hc.stronglyMeasurableAtFilter _ _) hc.continuousAt).div_const C
  have hdiff : Differentiable ℝ (falloff B) := fun t => (hd t).differentiableAt
  have hderiv : deriv (falloff B) = fun t => -density B t / C := funext fun t => (hd t).deriv
  refine ⟨?_, ?_, ?_, ?_, ?_⟩
  · rw [contDiff_infty_iff_deriv]
    refine ⟨hdiff, ?_⟩
    rw [hderiv]
    exact (density_smooth hB).neg.div_const C
  · refine antitone_of_deriv_nonpos hdiff fun t => ?_
    rw [hderiv]
    have : 0 ≤ density B t := by
      by_cases h : t ≤ 1 / (B : ℝ) ∨ 1 ≤ t
      · rw [outside hB h]
      · push Not at h
        have : 0 < t := hq0.trans h.1
        unfold density
        positivity
    exact div_nonpos_of_nonpos_of_nonneg (by linarith) hCpos.le
  · refine strictAntiOn_of_deriv_neg (convex_Icc _ _) hdiff.continuous.continuousOn fun t ht => ?_
    rw [interior_Icc] at ht
    rw [hderiv]
    have := bump_pos hB ht.1 ht.2
    have h0 : 0 < t := hq0.trans ht.1
    have : 0 < density B t := by unfold density; positivity
    exact div_neg_of_neg_of_pos (by linarith) hCpos
  · intro t ht
    unfold falloff
    rw [if_pos ht]
  · intro t ht
    unfold falloff
    rw [if_neg (by linarith), if_pos ht]

/-- halfway down for `B = 2`: the squares of the scaling function of scale 2 and the wavelet of scale 2 at degree 3, of the falloff at 3/4. -/
example : ∃ k k', (createKappas 8 2 2)[0]? = some k ∧ (createKappas 8 2 2)[1]? = some k' ∧
    k.getD 3 0 ^ 2 = falloff 2 (3 / 4) ∧ k'.getD 3 0 ^ 2 = 1 - falloff 2 (3 / 4) := by
  obtain ⟨⟨k, h1, h2⟩, h3⟩ := C94_values 2 8 2 le_rfl
  obtain ⟨k', h4, h5⟩ := h3 2 le_rfl (Nat.le_of_lt ((Nat.lt_clog_iff_pow_lt (by norm_num)).2 (by norm_num)))
  refine ⟨k, k', h1, h4, ?_, ?_⟩
  · rw [(h2 3 (by norm_num)).2]
    norm_num
  · rw [(h5 3 (by norm_num)).2, (C94_smooth 2 le_rfl).2.2.2.1 _ (by norm_num)]
    norm_num

end Sleplet.Props
