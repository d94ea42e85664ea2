import Verif.Lemmas.SphHarm
import Verif.Lemmas.Concentration
import Verif.Lemmas.Pairs

/-!
Linear algebra and energies for integrals over polar caps.
-/
namespace Sleplet.Gaunt

open Complex Sleplet.Spec Sleplet.LatLon intervalIntegral

variable {n : ℕ}

theorem cap_synth (Y : Fin n → ℝ → ℝ → ℂ) (hY : ∀ i, Continuous fun x : ℝ × ℝ => Y i x.1 x.2) (a b : Fin n → ℂ)
    (gap : Bool) (t : ℝ) :
    capIntegral gap t (fun th ph => (∑ i, a i * Y i th ph) * (starRingEnd ℂ) (∑ i, b i * Y i th ph)) =
      ∑ r, (starRingEnd ℂ) (b r) * ∑ c, capIntegral gap t (fun th ph => Y c th ph * (starRingEnd ℂ) (Y r th ph)) * a c := by
  unfold capIntegral
  rw [surface_synth Y hY, surface_synth Y hY]
  cases gap
  · simp
  · simp only [if_true]
    rw [← Finset.sum_add_distrib]
    refine Finset.sum_congr rfl fun r _ => ?_
    rw [← mul_add, ← Finset.sum_add_distrib]
    congr 1
    exact Finset.sum_congr rfl fun c _ => by ring

theorem conj_cap (gap : Bool) (t : ℝ) (f g : ℝ → ℝ → ℂ) :
    (starRingEnd ℂ) (capIntegral gap t fun th ph => f th ph * (starRingEnd ℂ) (g th ph)) =
      capIntegral gap t fun th ph => g th ph * (starRingEnd ℂ) (f th ph) := by
  unfold capIntegral
  rw [map_add, conj_surface]
  cases gap
  · simp
  · simp only [if_true]; rw [conj_surface]

/-- energy on the cap or caps. -/
noncomputable def capEnergy (gap : Bool) (t : ℝ) (f : ℝ → ℝ → ℂ) : ℝ :=
  surfaceEnergy 0 t 0 (2 * Real.pi) f + if gap then surfaceEnergy (Real.pi - t) Real.pi 0 (2 * Real.pi) f else 0

theorem cap_self (gap : Bool) (t : ℝ) (f : ℝ → ℝ → ℂ) :
    capIntegral gap t (fun th ph => f th ph * (starRingEnd ℂ) (f th ph)) = (capEnergy gap t f : ℂ) := by
  unfold capIntegral capEnergy
  rw [surface_self]
  cases gap
  · simp
  · simp only [if_true]; rw [surface_self]; push_cast; rfl

theorem capEnergy_nonneg {t : ℝ} (h0 : 0 ≤ t) (h1 : t ≤ Real.pi) (gap : Bool) (f : ℝ → ℝ → ℂ) : 0 ≤ capEnergy gap t f := by
  have hpi : 0 ≤ 2 * Real.pi := by have := Real.pi_pos; linarith
  have a := surfaceEnergy_nonneg le_rfl h0 h1 hpi f
  have b := surfaceEnergy_nonneg (t0 := Real.pi - t) (t1 := Real.pi) (by linarith) (by linarith) le_rfl hpi f
  unfold capEnergy
  cases gap
  · simpa using a
  · simp only [if_true]; linarith

theorem surfaceEnergy_add {f : ℝ → ℝ → ℂ} (hf : Continuous fun x : ℝ × ℝ => f x.1 x.2) (a b c p0 p1 : ℝ) :
    surfaceEnergy a b p0 p1 f + surfaceEnergy b c p0 p1 f = surfaceEnergy a c p0 p1 f := by
  unfold surfaceEnergy
  rw [← integral_add ((continuous_energy hf _ _).intervalIntegrable _ _) ((continuous_energy hf _ _).intervalIntegrable _ _)]
  congr 1
  funext ph
  have : Continuous fun th : ℝ => ‖f th ph‖ ^ 2 * Real.sin th := by
    have : Continuous fun th : ℝ => f th ph := hf.comp (f := fun th : ℝ => (th, ph)) (by fun_prop)
    fun_prop
  exact integral_add_adjacent_intervals (this.intervalIntegrable _ _) (this.intervalIntegrable _ _)

theorem capEnergy_le {t : ℝ} (h0 : 0 ≤ t) (h1 : t ≤ Real.pi) (gap : Bool) (hg : gap = true → t ≤ Real.pi / 2)
    {f : ℝ → ℝ → ℂ} (hf : Continuous fun x : ℝ × ℝ => f x.1 x.2) :
    capEnergy gap t f ≤ surfaceEnergy 0 Real.pi 0 (2 * Real.pi) f := by
  have hpi : 0 ≤ 2 * Real.pi := by have := Real.pi_pos; linarith
  unfold capEnergy
  cases gap
  · simp only [Bool.false_eq_true, if_false, add_zero]
    exact surfaceEnergy_mono le_rfl h0 h1 hpi le_rfl le_rfl hf
  · have hg := hg rfl
    simp only [if_true]
    have e1 := surfaceEnergy_add hf 0 t Real.pi 0 (2 * Real.pi)
    have e2 := surfaceEnergy_add hf t (Real.pi - t) Real.pi 0 (2 * Real.pi)
    have e3 := surfaceEnergy_nonneg (t0 := t) (t1 := Real.pi - t) h0 (by linarith) (by linarith) hpi f
    linarith

/-- the energies of all harmonics below a bandlimit add up to a multiple of the area. -/
theorem sum_capEnergy (L : ℕ) (hn : n = L ^ 2) (gap : Bool) (t : ℝ) :
    ∑ i : Fin n, capEnergy gap t (sphHarm (ind2elm i).1 (ind2elm i).2) =
      L ^ 2 / (4 * Real.pi) * ((if gap then 2 else 1) * (2 * Real.pi * (1 - Real.cos t))) := by
  let Y : Fin n → ℝ → ℝ → ℂ := fun i => sphHarm (ind2elm i).1 (ind2elm i).2
  have hYc : ∀ i, Continuous fun x : ℝ × ℝ => Y i x.1 x.2 := fun i => continuous_sphHarm (ind2elm_abs_le _)
  have hsum : ∀ th ph : ℝ, ∑ i, Y i th ph * (starRingEnd ℂ) (Y i th ph) = ((L ^ 2 / (4 * Real.pi) : ℝ) : ℂ) := by
    intro th ph
    have h1 : ∑ i : Fin n, ‖Y i th ph‖ ^ 2 = (L : ℝ) ^ 2 / (4 * Real.pi) := by
      rw [Fin.sum_univ_eq_sum_range (fun i : ℕ => ‖sphHarm (ind2elm i).1 (ind2elm i).2 th ph‖ ^ 2) n, hn,
        sum_pairs L fun l m => ‖sphHarm l m th ph‖ ^ 2]
      rw [Finset.sum_congr rfl fun l hl => sum_norm_sphHarm l th ph, ← Finset.sum_div, sum_odd]
    rw [← h1]
    push_cast
    exact Finset.sum_congr rfl fun i _ => by rw [mul_conj, normSq_eq_norm_sq]; push_cast; rfl
  have key : ∀ t0 t1 : ℝ, ∑ i, surfaceEnergy t0 t1 0 (2 * Real.pi) (Y i) =
      L ^ 2 / (4 * Real.pi) * (2 * Real.pi * (Real.cos t0 - Real.cos t1)) := by
    intro t0 t1
    have hc := surface_sum (Finset.univ : Finset (Fin n)) (fun _ => 1) (fun i th ph => Y i th ph * (starRingEnd ℂ) (Y i th ph))
      (fun i => (hYc i).mul (continuous_conj.comp (hYc i))) t0 t1 0 (2 * Real.pi)
    simp only [one_mul, hsum, surface_self] at hc
    have hl : surface t0 t1 0 (2 * Real.pi) (fun _ _ => ((L ^ 2 / (4 * Real.pi) : ℝ) : ℂ)) =
        ((L ^ 2 / (4 * Real.pi) * (2 * Real.pi * (Real.cos t0 - Real.cos t1)) : ℝ) : ℂ) := by
      simp only [surface]
      rw [intervalIntegral.integral_const, intervalIntegral.integral_const_mul, intervalIntegral.integral_ofReal,
        integral_sin]
      simp only [real_smul]
      push_cast
      ring
    rw [hl] at hc
    have : L ^ 2 / (4 * Real.pi) * (2 * Real.pi * (Real.cos t0 - Real.cos t1)) =
        ∑ i, surfaceEnergy t0 t1 0 (2 * Real.pi) (Y i) := by exact_mod_cast hc
    exact this.symm
  unfold capEnergy
  rw [Finset.sum_add_distrib, key]
  cases gap
  · simp
  · simp only [if_true]
    rw [key, Real.cos_pi_sub, Real.cos_pi, Real.cos_zero]
    ring

end Sleplet.Gaunt
