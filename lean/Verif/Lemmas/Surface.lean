import Mathlib.MeasureTheory.Integral.DominatedConvergence
import Verif.Lemmas.LimitLatLon
import Verif.Lemmas.Concentration
import Verif.Spec.Surface

namespace Sleplet.Spec

open Complex intervalIntegral LatLon

variable {Δ : ℕ → ℤ → ℤ → ℝ}

theorem continuous_harmonic (Δ : ℕ → ℤ → ℤ → ℝ) (l : ℕ) (m : ℤ) :
    Continuous fun x : ℝ × ℝ => harmonic Δ l m x.1 x.2 := by
  unfold harmonic
  fun_prop

theorem conj_neg_I_zpow (q : ℤ) : (starRingEnd ℂ) ((-I) ^ q) = (-I) ^ (-q) := by
  rw [map_zpow₀, zpow_neg, ← inv_zpow]
  congr 1
  simp

theorem harmonic_mul_conj (Δ : ℕ → ℤ → ℤ → ℝ) (l p : ℕ) (m q : ℤ) (th ph : ℝ) :
    harmonic Δ l m th ph * (starRingEnd ℂ) (harmonic Δ p q th ph) =
      factor l p m q * ∑ mp ∈ Finset.Icc (-(l : ℤ)) l, ∑ qp ∈ Finset.Icc (-(p : ℤ)) p,
        ((Δ l mp m * Δ l mp 0 : ℝ) : ℂ) * ((Δ p qp q * Δ p qp 0 : ℝ) : ℂ) *
          (exp (I * ((mp - qp : ℤ) : ℂ) * th) * exp (I * ((m - q : ℤ) : ℂ) * ph)) := by
  have hpos : (0 : ℝ) < 4 * Real.pi := by positivity
  have h1 : Real.sqrt ((2 * l + 1) * (2 * p + 1)) / (4 * Real.pi)
      = Real.sqrt ((2 * l + 1) / (4 * Real.pi)) * Real.sqrt ((2 * p + 1) / (4 * Real.pi)) := by
    rw [← Real.sqrt_mul (by positivity), div_mul_div_comm, ← sq, Real.sqrt_div (by positivity), Real.sqrt_sq hpos.le]
  have h2 : (-I) ^ (m - q) = (-I) ^ m * (-I) ^ (-q) := by
    rw [sub_eq_add_neg, zpow_add₀ (by simp)]
  have h3 : ∀ a b : ℤ, ∀ t : ℝ, exp (I * ((a - b : ℤ) : ℂ) * t) = exp (I * a * t) * (starRingEnd ℂ) (exp (I * b * t)) := by
    intro a b t
    rw [← Complex.exp_conj, ← Complex.exp_add]
    congr 1
    simp
    ring
  unfold harmonic factor
  rw [h1, h2]
  simp only [map_mul, map_sum, conj_neg_I_zpow, conj_ofReal, h3, ofReal_mul]
  rw [show ∀ a b c d a' b' c' d' : ℂ, a * b * c * d * (a' * b' * c' * d') = a * a' * (b * b') * ((c * c') * (d * d'))
    from by intros; ring]
  congr 1
  rw [Finset.sum_mul_sum, Finset.sum_mul]
  refine Finset.sum_congr rfl fun mp _ => ?_
  rw [Finset.sum_mul]
  exact Finset.sum_congr rfl fun qp _ => by ring

theorem surface_harmonics (B : Bounds) (l p : ℕ) (m q : ℤ) :
    surface B.tmin B.tmax B.pmin B.pmax (fun th ph => harmonic Δ l m th ph * (starRingEnd ℂ) (harmonic Δ p q th ph)) =
      factor l p m q * ∑ mp ∈ Finset.Icc (-(l : ℤ)) l, ∑ qp ∈ Finset.Icc (-(p : ℤ)) p,
        ((Δ l mp m * Δ l mp 0 : ℝ) : ℂ) * ((Δ p qp q * Δ p qp 0 : ℝ) : ℂ) * (thetaInt B (mp - qp) * phiInt B (m - q)) := by
  have hin : ∀ ph : ℝ, (∫ th in B.tmin..B.tmax,
      harmonic Δ l m th ph * (starRingEnd ℂ) (harmonic Δ p q th ph) * Real.sin th) =
      exp (I * ((m - q : ℤ) : ℂ) * ph) * (factor l p m q * ∑ mp ∈ Finset.Icc (-(l : ℤ)) l, ∑ qp ∈ Finset.Icc (-(p : ℤ)) p,
        ((Δ l mp m * Δ l mp 0 : ℝ) : ℂ) * ((Δ p qp q * Δ p qp 0 : ℝ) : ℂ) * thetaInt B (mp - qp)) := by
    intro ph
    have : ∀ th : ℝ, harmonic Δ l m th ph * (starRingEnd ℂ) (harmonic Δ p q th ph) * Real.sin th =
        (exp (I * ((m - q : ℤ) : ℂ) * ph) * factor l p m q) *
          ∑ mp ∈ Finset.Icc (-(l : ℤ)) l, ∑ qp ∈ Finset.Icc (-(p : ℤ)) p,
          ((Δ l mp m * Δ l mp 0 : ℝ) : ℂ) * ((Δ p qp q * Δ p qp 0 : ℝ) : ℂ) *
            (exp (I * ((mp - qp : ℤ) : ℂ) * th) * Real.sin th) := by
      intro th
      rw [harmonic_mul_conj]
      simp only [Finset.mul_sum, Finset.sum_mul]
      exact Finset.sum_congr rfl fun _ _ => Finset.sum_congr rfl fun _ _ => by ring
    simp only [this]
    rw [integral_const_mul, mul_assoc]
    congr 2
    rw [integral_finset_sum fun mp _ => Continuous.intervalIntegrable (by fun_prop) _ _]
    refine Finset.sum_congr rfl fun mp _ => ?_
    rw [integral_finset_sum fun qp _ => Continuous.intervalIntegrable (by fun_prop) _ _]
    refine Finset.sum_congr rfl fun qp _ => ?_
    rw [integral_const_mul]
    rfl
  unfold surface
  simp only [hin]
  rw [integral_mul_const]
  change phiInt B (m - q) * _ = _
  simp only [Finset.mul_sum]
  exact Finset.sum_congr rfl fun _ _ => Finset.sum_congr rfl fun _ _ => by ring

/-! ### surface integrals of combinations -/

theorem continuous_inner {f : ℝ → ℝ → ℂ} (hf : Continuous fun x : ℝ × ℝ => f x.1 x.2) (t0 t1 : ℝ) :
    Continuous fun ph : ℝ => ∫ th in t0..t1, f th ph * Real.sin th := by
  refine continuous_parametric_intervalIntegral_of_continuous' (f := fun ph th => f th ph * Real.sin th) ?_ t0 t1
  have : Continuous fun x : ℝ × ℝ => f x.2 x.1 := hf.comp continuous_swap
  exact this.mul (by fun_prop)

theorem surface_sum {ι : Type} (s : Finset ι) (c : ι → ℂ) (f : ι → ℝ → ℝ → ℂ)
    (hf : ∀ i, Continuous fun x : ℝ × ℝ => f i x.1 x.2) (t0 t1 p0 p1 : ℝ) :
    surface t0 t1 p0 p1 (fun th ph => ∑ i ∈ s, c i * f i th ph) = ∑ i ∈ s, c i * surface t0 t1 p0 p1 (f i) := by
  have hth : ∀ i ph, Continuous fun th : ℝ => c i * f i th ph * (Real.sin th : ℂ) := by
    intro i ph
    have : Continuous fun th : ℝ => f i th ph := (hf i).comp (f := fun th : ℝ => (th, ph)) (by fun_prop)
    fun_prop
  unfold surface
  simp only [Finset.sum_mul]
  have h1 : ∀ ph : ℝ, (∫ th in t0..t1, ∑ i ∈ s, c i * f i th ph * (Real.sin th : ℂ)) =
      ∑ i ∈ s, c i * ∫ th in t0..t1, f i th ph * (Real.sin th : ℂ) := by
    intro ph
    rw [integral_finset_sum fun i _ => (hth i ph).intervalIntegrable _ _]
    refine Finset.sum_congr rfl fun i _ => ?_
    rw [← integral_const_mul]
    congr 1
    funext th
    ring
  simp only [h1]
  rw [integral_finset_sum fun i _ => (((continuous_inner (hf i) t0 t1).const_mul (c i)).intervalIntegrable _ _)]
  exact Finset.sum_congr rfl fun i _ => integral_const_mul _ _

variable {n : ℕ}

theorem surface_synth (Y : Fin n → ℝ → ℝ → ℂ) (hY : ∀ i, Continuous fun x : ℝ × ℝ => Y i x.1 x.2) (a b : Fin n → ℂ)
    (t0 t1 p0 p1 : ℝ) :
    surface t0 t1 p0 p1 (fun th ph => (∑ i, a i * Y i th ph) * (starRingEnd ℂ) (∑ i, b i * Y i th ph)) =
      ∑ r, (starRingEnd ℂ) (b r) * ∑ c, surface t0 t1 p0 p1 (fun th ph => Y c th ph * (starRingEnd ℂ) (Y r th ph)) * a c := by
  have h : ∀ th ph, (∑ i, a i * Y i th ph) * (starRingEnd ℂ) (∑ i, b i * Y i th ph) =
      ∑ k : Fin n × Fin n, ((starRingEnd ℂ) (b k.1) * a k.2) * (Y k.2 th ph * (starRingEnd ℂ) (Y k.1 th ph)) := by
    intro th ph
    rw [map_sum, Finset.sum_mul_sum, Finset.sum_comm, Fintype.sum_prod_type]
    exact Finset.sum_congr rfl fun r _ => Finset.sum_congr rfl fun c _ => by rw [map_mul]; ring
  simp only [h]
  rw [surface_sum Finset.univ (fun k : Fin n × Fin n => (starRingEnd ℂ) (b k.1) * a k.2)
    (fun k th ph => Y k.2 th ph * (starRingEnd ℂ) (Y k.1 th ph)), Fintype.sum_prod_type]
  · refine Finset.sum_congr rfl fun r _ => ?_
    rw [Finset.mul_sum]
    exact Finset.sum_congr rfl fun c _ => by ring
  · intro k
    exact (hY k.2).mul (continuous_conj.comp (hY k.1))

/-- energy of a field on the region. -/
noncomputable def surfaceEnergy (t0 t1 p0 p1 : ℝ) (f : ℝ → ℝ → ℂ) : ℝ :=
  ∫ ph in p0..p1, ∫ th in t0..t1, ‖f th ph‖ ^ 2 * Real.sin th

theorem surface_self (t0 t1 p0 p1 : ℝ) (f : ℝ → ℝ → ℂ) :
    surface t0 t1 p0 p1 (fun th ph => f th ph * (starRingEnd ℂ) (f th ph)) = (surfaceEnergy t0 t1 p0 p1 f : ℂ) := by
  unfold surface surfaceEnergy
  rw [← integral_ofReal]
  congr 1
  funext ph
  rw [← integral_ofReal]
  congr 1
  funext th
  dsimp only
  rw [mul_conj, normSq_eq_norm_sq]
  push_cast
  rfl

theorem conj_surface (t0 t1 p0 p1 : ℝ) (f g : ℝ → ℝ → ℂ) :
    (starRingEnd ℂ) (surface t0 t1 p0 p1 fun th ph => f th ph * (starRingEnd ℂ) (g th ph)) =
      surface t0 t1 p0 p1 fun th ph => g th ph * (starRingEnd ℂ) (f th ph) := by
  unfold surface
  rw [conj_integral]
  congr 1
  funext ph
  rw [conj_integral]
  congr 1
  funext th
  simp only [map_mul, conj_conj, conj_ofReal]
  ring

theorem continuous_energy {f : ℝ → ℝ → ℂ} (hf : Continuous fun x : ℝ × ℝ => f x.1 x.2) (t0 t1 : ℝ) :
    Continuous fun ph : ℝ => ∫ th in t0..t1, ‖f th ph‖ ^ 2 * Real.sin th := by
  refine continuous_parametric_intervalIntegral_of_continuous' (f := fun ph th => ‖f th ph‖ ^ 2 * Real.sin th) ?_ t0 t1
  have : Continuous fun x : ℝ × ℝ => f x.2 x.1 := hf.comp continuous_swap
  exact (this.norm.pow 2).mul (by fun_prop)

theorem surfaceEnergy_nonneg {t0 t1 p0 p1 : ℝ} (h0 : 0 ≤ t0) (h1 : t0 ≤ t1) (h2 : t1 ≤ Real.pi) (h3 : p0 ≤ p1)
    (f : ℝ → ℝ → ℂ) : 0 ≤ surfaceEnergy t0 t1 p0 p1 f := by
  refine integral_nonneg h3 fun ph _ => integral_nonneg h1 fun th hth => ?_
  exact mul_nonneg (by positivity) (Real.sin_nonneg_of_nonneg_of_le_pi (h0.trans hth.1) (hth.2.trans h2))

theorem surfaceEnergy_mono {t0 t1 p0 p1 p2 p3 : ℝ} (h0 : 0 ≤ t0) (h1 : t0 ≤ t1) (h2 : t1 ≤ Real.pi) (h3 : p0 ≤ p1)
    (h4 : p2 ≤ p0) (h5 : p1 ≤ p3) {f : ℝ → ℝ → ℂ} (hf : Continuous fun x : ℝ × ℝ => f x.1 x.2) :
    surfaceEnergy t0 t1 p0 p1 f ≤ surfaceEnergy 0 Real.pi p2 p3 f := by
  have hth : ∀ ph, Continuous fun th : ℝ => ‖f th ph‖ ^ 2 * Real.sin th := by
    intro ph
    have : Continuous fun th : ℝ => f th ph := hf.comp (f := fun th : ℝ => (th, ph)) (by fun_prop)
    fun_prop
  have hs : ∀ ph : ℝ, ∀ th ∈ Set.Icc (0 : ℝ) Real.pi, 0 ≤ ‖f th ph‖ ^ 2 * Real.sin th := fun ph th hth =>
    mul_nonneg (by positivity) (Real.sin_nonneg_of_nonneg_of_le_pi hth.1 hth.2)
  calc surfaceEnergy t0 t1 p0 p1 f ≤ surfaceEnergy 0 Real.pi p0 p1 f := by
        refine integral_mono_on h3 ((continuous_energy hf _ _).intervalIntegrable _ _)
          ((continuous_energy hf _ _).intervalIntegrable _ _) fun ph _ => ?_
        refine integral_mono_interval h0 h1 h2 ?_ ((hth ph).intervalIntegrable _ _)
        rw [Filter.EventuallyLE, MeasureTheory.ae_restrict_iff' measurableSet_Ioc]
        exact Filter.Eventually.of_forall fun th hth => hs ph th ⟨hth.1.le, hth.2⟩
    _ ≤ _ := by
        refine integral_mono_interval h4 h3 h5 ?_ ((continuous_energy hf _ _).intervalIntegrable _ _)
        exact Filter.Eventually.of_forall fun ph => integral_nonneg Real.pi_pos.le (hs ph)

end Sleplet.Spec
