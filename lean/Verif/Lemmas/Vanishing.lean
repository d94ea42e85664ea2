import Mathlib.Analysis.Analytic.IsolatedZeros
import Mathlib.Analysis.Calculus.Deriv.Polynomial
import Mathlib.Analysis.Complex.CauchyIntegral
import Mathlib.Analysis.SpecialFunctions.Trigonometric.Deriv
import Verif.Lemmas.RegionEnergy

/-! A bandlimited field without energy in a rectangle of latitudes and longitudes has no energy at all. -/
namespace Sleplet.Gaunt

open Complex Sleplet.Spec Sleplet.LatLon intervalIntegral Polynomial

/-- an entire function that vanishes on an interval of the real line vanishes. -/
theorem entire_zero {F : ℂ → ℂ} (hF : Differentiable ℂ F) {a b : ℝ} (hab : a < b) (h : ∀ x ∈ Set.Ioo a b, F (x : ℝ) = 0) (z : ℂ) : F z = 0 := by
  obtain ⟨x0, h0⟩ := exists_between hab
  have hA : AnalyticOnNhd ℂ F Set.univ := fun z _ => hF.analyticAt z
  refine hA.eqOn_zero_of_preconnected_of_frequently_eq_zero isPreconnected_univ (Set.mem_univ (x0 : ℂ)) ?_ (Set.mem_univ z)
  have h1 : ∃ᶠ x in nhdsWithin x0 {x0}ᶜ, F (x : ℝ) = 0 := by
    refine Filter.Eventually.frequently ?_
    exact Filter.Eventually.filter_mono nhdsWithin_le_nhds (Filter.eventually_of_mem (Ioo_mem_nhds h0.1 h0.2) h)
  have h2 : Filter.Tendsto (fun x : ℝ => (x : ℂ)) (nhdsWithin x0 {x0}ᶜ) (nhdsWithin (x0 : ℂ) {(x0 : ℂ)}ᶜ) := by
    refine tendsto_nhdsWithin_of_tendsto_nhds_of_eventually_within _ ?_ ?_
    · exact (continuous_ofReal.tendsto x0).mono_left nhdsWithin_le_nhds
    · filter_upwards [self_mem_nhdsWithin] with x hx
      intro h
      exact hx (ofReal_injective h)
  exact h2.frequently h1

/-- the part of a harmonic that depends on the colatitude, for complex arguments. -/
noncomputable def thetaC (l : ℕ) (m : ℤ) (z : ℂ) : ℂ :=
  (((if m < 0 then (-1) ^ m.natAbs else 1) * (nrm l m.natAbs * ((-1) ^ m.natAbs / (2 ^ l * (l.factorial : ℝ)))) : ℝ) : ℂ) *
    (sin z ^ m.natAbs * ((dq l (l + m.natAbs)).map ofRealHom).eval (cos z))

theorem differentiable_thetaC (l : ℕ) (m : ℤ) : Differentiable ℂ (thetaC l m) := by
  refine Differentiable.const_mul (Differentiable.mul (differentiable_sin.pow _) ?_) _
  exact (Polynomial.differentiable _).comp differentiable_cos

theorem thetaC_real {l : ℕ} {m : ℤ} (h : |m| ≤ l) {th : ℝ} (h0 : 0 ≤ th) (h1 : th ≤ Real.pi) : thetaC l m th = (thetaPart l m th : ℂ) := by
  rw [thetaPart_int h]
  unfold thetaC thetaPart
  rw [assocLegendre_nat, ← Real.sin_eq_sqrt_one_sub_cos_sq h0 h1, ← ofReal_cos, ← ofReal_sin]
  have : ((dq l (l + m.natAbs)).map ofRealHom).eval ((Real.cos th : ℝ) : ℂ) = (((dq l (l + m.natAbs)).eval (Real.cos th) : ℝ) : ℂ) :=
    Polynomial.eval_map_apply (f := ofRealHom) (p := dq l (l + m.natAbs)) (Real.cos th)
  rw [this]
  push_cast
  ring

/-- a bandlimited field that vanishes on an open rectangle vanishes. -/
theorem bandlimited_zero {L : ℕ} {f : ℝ → ℝ → ℂ} (hf : f ∈ bandlimited L) {t0 t1 p0 p1 : ℝ} (h0 : 0 ≤ t0) (ht : t0 < t1) (h1 : t1 ≤ Real.pi)
    (hp : p0 < p1) (h : ∀ th ∈ Set.Ioo t0 t1, ∀ ph ∈ Set.Ioo p0 p1, f th ph = 0) (th : ℝ) (hth0 : 0 ≤ th) (hth1 : th ≤ Real.pi) (ph : ℝ) :
    f th ph = 0 := by
  obtain ⟨a, rfl⟩ := (mem_bandlimited_iff L f).1 hf
  have hall : ∀ th ∈ Set.Ioo t0 t1, ∀ ph : ℝ, comb a th ph = 0 := by
    intro th hth ph
    have hd : Differentiable ℂ fun z : ℂ => ∑ i : Fin (L ^ 2), a i * ((thetaPart (ind2elm i).1 (ind2elm i).2 th : ℂ) * exp (I * (ind2elm i).2 * z)) := by
      fun_prop
    exact entire_zero hd hp (fun x hx => h th hth x hx) (ph : ℂ)
  have hd : Differentiable ℂ fun z : ℂ => ∑ i : Fin (L ^ 2), a i * (thetaC (ind2elm i).1 (ind2elm i).2 z * exp (I * (ind2elm i).2 * ph)) := by
    refine Differentiable.fun_sum fun i _ => ?_
    exact ((differentiable_thetaC _ _).mul_const _).const_mul _
  have key : ∀ x : ℝ, 0 ≤ x → x ≤ Real.pi →
      ∑ i : Fin (L ^ 2), a i * (thetaC (ind2elm i).1 (ind2elm i).2 x * exp (I * (ind2elm i).2 * ph)) = comb a x ph := by
    intro x hx0 hx1
    refine Finset.sum_congr rfl fun i _ => ?_
    rw [thetaC_real (ind2elm_abs_le i) hx0 hx1]
    rfl
  rw [← key th hth0 hth1]
  refine entire_zero hd ht (fun x hx => ?_) (th : ℂ)
  rw [key x (h0.trans hx.1.le) (hx.2.le.trans h1)]
  exact hall x hx ph

/-- so a bandlimited field with some energy has some in every rectangle. -/
theorem surfaceEnergy_pos {L : ℕ} {f : ℝ → ℝ → ℂ} (hf : f ∈ bandlimited L) (hne : 0 < (sphereInner f f).re) {t0 t1 p0 p1 : ℝ}
    (h0 : 0 ≤ t0) (ht : t0 < t1) (h1 : t1 ≤ Real.pi) (hp : p0 < p1) : 0 < surfaceEnergy t0 t1 p0 p1 f := by
  have hc := continuous_bandlimited hf
  have hth : ∀ ph, Continuous fun th : ℝ => ‖f th ph‖ ^ 2 * Real.sin th := by
    intro ph
    have : Continuous fun th : ℝ => f th ph := hc.comp (f := fun th : ℝ => (th, ph)) (by fun_prop)
    fun_prop
  have hs : ∀ ph : ℝ, ∀ th ∈ Set.Ioc t0 t1, 0 ≤ ‖f th ph‖ ^ 2 * Real.sin th := fun ph th hth =>
    mul_nonneg (by positivity) (Real.sin_nonneg_of_nonneg_of_le_pi (h0.trans hth.1.le) (hth.2.trans h1))
  by_cases hz : ∀ th ∈ Set.Ioo t0 t1, ∀ ph ∈ Set.Ioo p0 p1, f th ph = 0
  · exfalso
    have hall := bandlimited_zero hf h0 ht h1 hp hz
    rw [sphereInner_self] at hne
    have : surfaceEnergy 0 Real.pi 0 (2 * Real.pi) f = 0 := by
      unfold surfaceEnergy
      rw [integral_congr (g := fun _ => (0 : ℝ)) fun ph _ => ?_]
      · simp
      · dsimp only
        rw [integral_congr (g := fun _ => (0 : ℝ)) fun th hth => ?_]
        · simp
        · rw [Set.uIcc_of_le Real.pi_pos.le] at hth
          dsimp only
          rw [hall th hth.1 hth.2]
          simp
    rw [this] at hne
    exact lt_irrefl _ hne
  · push Not at hz
    obtain ⟨th, hth', ph, hph, hfne⟩ := hz
    refine integral_pos hp (continuous_energy hc _ _).continuousOn
      (fun x _ => integral_nonneg_of_ae_restrict ht.le ?_) ⟨ph, ⟨hph.1.le, hph.2.le⟩, ?_⟩
    · rw [Filter.EventuallyLE, MeasureTheory.ae_restrict_iff' measurableSet_Icc]
      exact Filter.Eventually.of_forall fun y hy =>
        mul_nonneg (by positivity) (Real.sin_nonneg_of_nonneg_of_le_pi (h0.trans hy.1) (hy.2.trans h1))
    · refine integral_pos ht (hth ph).continuousOn (hs ph) ⟨th, ⟨hth'.1.le, hth'.2.le⟩, ?_⟩
      have : 0 < ‖f th ph‖ := norm_pos_iff.2 hfne
      have : 0 < Real.sin th := Real.sin_pos_of_pos_of_lt_pi (h0.trans_lt hth'.1) (hth'.2.trans_le h1)
      positivity

/-- and more in the greater of two nested rectangles. -/
theorem surfaceEnergy_lt {L : ℕ} {f : ℝ → ℝ → ℂ} (hf : f ∈ bandlimited L) (hne : 0 < (sphereInner f f).re) {t0 t1 t2 t3 p0 p1 p2 p3 : ℝ}
    (h2 : 0 ≤ t2) (h0 : t2 ≤ t0) (h01 : t0 ≤ t1) (h1 : t1 ≤ t3) (h3 : t3 ≤ Real.pi) (hp : p0 ≤ p1) (h4 : p2 ≤ p0) (h5 : p1 ≤ p3)
    (ht : t2 < t3) (hp' : p2 < p3) (h : t2 < t0 ∨ t1 < t3 ∨ p2 < p0 ∨ p1 < p3) :
    surfaceEnergy t0 t1 p0 p1 f < surfaceEnergy t2 t3 p2 p3 f := by
  have hc := continuous_bandlimited hf
  rcases eq_or_lt_of_le h01 with rfl | h01'
  · have : surfaceEnergy t0 t0 p0 p1 f = 0 := by simp [surfaceEnergy]
    rw [this]
    exact surfaceEnergy_pos hf hne h2 ht h3 hp'
  rcases eq_or_lt_of_le hp with rfl | hp1
  · have : surfaceEnergy t0 t1 p0 p0 f = 0 := by simp [surfaceEnergy]
    rw [this]
    exact surfaceEnergy_pos hf hne h2 ht h3 hp'
  rcases h with h | h | h | h
  · have a := surfaceEnergy_pos hf hne h2 h (by linarith) hp1
    have b := surfaceEnergy_add hc t2 t0 t1 p0 p1
    have c := surfaceEnergy_le (t0 := t2) (t1 := t1) h2 le_rfl (by linarith) h1 h3 hp h4 h5 hc
    linarith
  · have a := surfaceEnergy_pos hf hne (by linarith) h h3 hp1
    have b := surfaceEnergy_add hc t0 t1 t3 p0 p1
    have c := surfaceEnergy_le (t0 := t0) (t1 := t3) h2 h0 (by linarith) le_rfl h3 hp h4 h5 hc
    linarith
  · have a := surfaceEnergy_pos hf hne (by linarith) h01' (by linarith) h
    have b := surfaceEnergy_add_longitude t0 t1 p2 p0 p1 hc
    have c := surfaceEnergy_le (p0 := p2) (p1 := p1) h2 h0 h01 h1 h3 (by linarith) le_rfl h5 hc
    linarith
  · have a := surfaceEnergy_pos hf hne (by linarith) h01' (by linarith) h
    have b := surfaceEnergy_add_longitude t0 t1 p0 p1 p3 hc
    have c := surfaceEnergy_le (p0 := p0) (p1 := p3) h2 h0 h01 h1 h3 (by linarith) h4 le_rfl hc
    linarith

end Sleplet.Gaunt
