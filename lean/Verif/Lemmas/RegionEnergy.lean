import Mathlib.MeasureTheory.Integral.IntervalIntegral.Periodic
import Verif.Lemmas.CompareConcentration
import Verif.Lemmas.Convolution

/-! Energies of bandlimited fields in related regions, and symmetries of the sphere acting on them. -/
namespace Sleplet.Gaunt

open Complex Sleplet.Spec Sleplet.LatLon intervalIntegral

/-- a sum of spherical harmonics. -/
noncomputable def comb {n : ℕ} (a : Fin n → ℂ) (th ph : ℝ) : ℂ := ∑ i : Fin n, a i * harm i th ph

theorem mem_bandlimited_iff (L : ℕ) (f : ℝ → ℝ → ℂ) : f ∈ bandlimited L ↔ ∃ a : Fin (L ^ 2) → ℂ, f = comb a := by
  constructor
  · rintro ⟨c, rfl⟩
    exact ⟨fun i => c.getD i 0, by funext th ph; exact synthesis_eq L c th ph⟩
  · rintro ⟨a, rfl⟩
    refine ⟨List.ofFn a, ?_⟩
    funext th ph
    rw [synthesis_eq]
    refine Finset.sum_congr rfl fun i _ => ?_
    simp only [List.getD_eq_getElem?_getD, List.getElem?_ofFn, i.2, dif_pos, Option.getD_some]

theorem inner_comb {n : ℕ} (a b : Fin n → ℂ) : sphereInner (comb a) (comb b) = ∑ i, a i * (starRingEnd ℂ) (b i) := inner_sums a b

theorem continuous_bandlimited {L : ℕ} {f : ℝ → ℝ → ℂ} (hf : f ∈ bandlimited L) : Continuous fun x : ℝ × ℝ => f x.1 x.2 := by
  obtain ⟨a, rfl⟩ := (mem_bandlimited_iff L f).1 hf
  exact continuous_finsetSum _ fun i _ => continuous_const.mul (continuous_harm i)

theorem comb_sum {n m : ℕ} (a : Fin m → ℂ) (b : Fin m → Fin n → ℂ) : ∑ j, a j • comb (b j) = comb fun i => ∑ j, a j * b j i := by
  funext th ph
  simp only [Finset.sum_apply, Pi.smul_apply, smul_eq_mul, comb, Finset.mul_sum, Finset.sum_mul]
  rw [Finset.sum_comm]
  exact Finset.sum_congr rfl fun i _ => Finset.sum_congr rfl fun j _ => by ring

theorem linearOn_bandlimited (L : ℕ) : LinearOn (bandlimited L) sphereInner where
  mem := by
    intro m a u hu
    choose b hb using fun i => (mem_bandlimited_iff L (u i)).1 (hu i)
    rw [mem_bandlimited_iff]
    refine ⟨fun i => ∑ j, a j * b j i, ?_⟩
    simp only [hb]
    exact comb_sum a b
  lin := by
    intro m a u g hu hg
    choose b hb using fun i => (mem_bandlimited_iff L (u i)).1 (hu i)
    obtain ⟨c, rfl⟩ := (mem_bandlimited_iff L g).1 hg
    simp only [hb]
    rw [comb_sum, inner_comb]
    simp only [inner_comb, Finset.mul_sum, Finset.sum_mul]
    rw [Finset.sum_comm]
    exact Finset.sum_congr rfl fun i _ => Finset.sum_congr rfl fun j _ => by ring

theorem bandlimited_mono {L L' : ℕ} (h : L ≤ L') : bandlimited L ⊆ bandlimited L' := by
  intro f hf
  obtain ⟨a, rfl⟩ := (mem_bandlimited_iff L f).1 hf
  rw [mem_bandlimited_iff]
  have h2 : L ^ 2 ≤ L' ^ 2 := Nat.pow_le_pow_left h 2
  let b : ℕ → ℂ := fun i => if hi : i < L ^ 2 then a ⟨i, hi⟩ else 0
  refine ⟨fun i => b i, ?_⟩
  funext th ph
  unfold comb
  rw [Fin.sum_univ_eq_sum_range (fun i => b i * harm i th ph) (L' ^ 2)]
  have h1 : ∑ i : Fin (L ^ 2), a i * harm i th ph = ∑ i : Fin (L ^ 2), b i * harm i th ph :=
    Finset.sum_congr rfl fun i _ => by simp only [b, i.2, dif_pos]
  rw [h1, Fin.sum_univ_eq_sum_range (fun i => b i * harm i th ph) (L ^ 2)]
  refine Finset.sum_subset (Finset.range_mono h2) fun i _ hi => ?_
  rw [Finset.mem_range] at hi
  simp only [b, hi, dif_neg, not_false_eq_true, zero_mul]

/-- a map taking each harmonic to a multiple of it by a number of modulus one takes bandlimited fields to bandlimited fields of the
same energy. -/
theorem diagonal_map {L : ℕ} (T : (ℝ → ℝ → ℂ) →ₗ[ℂ] (ℝ → ℝ → ℂ)) (u : ℕ → ℂ) (hu : ∀ i, ‖u i‖ = 1)
    (hT : ∀ i, T (harm i) = u i • harm i) (f : ℝ → ℝ → ℂ) (hf : f ∈ bandlimited L) :
    T f ∈ bandlimited L ∧ (sphereInner (T f) (T f)).re = (sphereInner f f).re := by
  obtain ⟨a, rfl⟩ := (mem_bandlimited_iff L f).1 hf
  have h1 : T (comb a) = comb fun i => u i * a i := by
    have : comb a = ∑ i, a i • harm i := by
      funext th ph
      simp [comb, Finset.sum_apply]
    rw [this, map_sum]
    simp only [map_smul, hT]
    funext th ph
    simp only [comb, Finset.sum_apply, Pi.smul_apply, smul_eq_mul]
    exact Finset.sum_congr rfl fun i _ => by ring
  refine ⟨(mem_bandlimited_iff L _).2 ⟨_, h1⟩, ?_⟩
  rw [h1, inner_comb, inner_comb]
  congr 1
  refine Finset.sum_congr rfl fun i _ => ?_
  rw [mul_conj, mul_conj, normSq_mul, normSq_eq_norm_sq (u i), hu]
  simp

/-- a turn about the axis. -/
def turn (δ : ℝ) : (ℝ → ℝ → ℂ) →ₗ[ℂ] (ℝ → ℝ → ℂ) where
  toFun f th ph := f th (ph + δ)
  map_add' _ _ := rfl
  map_smul' _ _ := rfl

theorem turn_harm (δ : ℝ) (i : ℕ) : turn δ (harm i) = exp (((ind2elm i).2 * δ : ℝ) * I) • harm i := by
  funext th ph
  simp only [turn, LinearMap.coe_mk, AddHom.coe_mk, Pi.smul_apply, smul_eq_mul, harm]
  rw [sphHarm_eq, sphHarm_eq, mul_left_comm, ← Complex.exp_add]
  congr 2
  push_cast
  ring

theorem turn_spec {L : ℕ} (δ : ℝ) (f : ℝ → ℝ → ℂ) (hf : f ∈ bandlimited L) :
    turn δ f ∈ bandlimited L ∧ (sphereInner (turn δ f) (turn δ f)).re = (sphereInner f f).re :=
  diagonal_map (turn δ) (fun i => exp (((ind2elm i).2 * δ : ℝ) * I)) (fun _ => norm_exp_ofReal_mul_I _) (turn_harm δ) f hf

theorem surfaceEnergy_turn (t0 t1 p0 p1 δ : ℝ) (f : ℝ → ℝ → ℂ) :
    surfaceEnergy t0 t1 p0 p1 (turn δ f) = surfaceEnergy t0 t1 (p0 + δ) (p1 + δ) f :=
  integral_comp_add_right (fun ph => ∫ th in t0..t1, ‖f th ph‖ ^ 2 * Real.sin th) δ

/-- the reflection in the equator. -/
noncomputable def mirror : (ℝ → ℝ → ℂ) →ₗ[ℂ] (ℝ → ℝ → ℂ) where
  toFun f th ph := f (Real.pi - th) ph
  map_add' _ _ := rfl
  map_smul' _ _ := rfl

theorem thetaPart_mirror {l : ℕ} {m : ℤ} (h : |m| ≤ l) (th : ℝ) :
    thetaPart l m (Real.pi - th) = (-1) ^ (l + m.natAbs) * thetaPart l m th := by
  have hn : ∀ k : ℕ, thetaPart l (k : ℤ) (Real.pi - th) = (-1) ^ (l + k) * thetaPart l (k : ℤ) th := by
    intro k
    unfold thetaPart
    rw [Real.cos_pi_sub, assocLegendre_nat, assocLegendre_nat]
    have h1 := congrArg (fun p => p.eval (Real.cos th)) (dq_comp_neg l (l + k))
    simp only [Polynomial.eval_comp, Polynomial.eval_neg, Polynomial.eval_X, Polynomial.eval_mul, Polynomial.eval_pow, Polynomial.eval_one] at h1
    rw [h1, neg_sq]
    ring
  rw [thetaPart_int h, thetaPart_int h, hn]
  ring

theorem mirror_harm (i : ℕ) : mirror (harm i) = ((-1) ^ ((ind2elm i).1 + (ind2elm i).2.natAbs) : ℂ) • harm i := by
  funext th ph
  simp only [mirror, LinearMap.coe_mk, AddHom.coe_mk, Pi.smul_apply, smul_eq_mul, harm]
  rw [sphHarm_eq, sphHarm_eq, thetaPart_mirror (ind2elm_abs_le i)]
  push_cast
  ring

theorem mirror_spec {L : ℕ} (f : ℝ → ℝ → ℂ) (hf : f ∈ bandlimited L) :
    mirror f ∈ bandlimited L ∧ (sphereInner (mirror f) (mirror f)).re = (sphereInner f f).re :=
  diagonal_map mirror (fun i => (-1) ^ ((ind2elm i).1 + (ind2elm i).2.natAbs)) (fun i => by simp) mirror_harm f hf

theorem surfaceEnergy_mirror (t0 t1 p0 p1 : ℝ) (f : ℝ → ℝ → ℂ) :
    surfaceEnergy t0 t1 p0 p1 (mirror f) = surfaceEnergy (Real.pi - t1) (Real.pi - t0) p0 p1 f := by
  unfold surfaceEnergy
  congr 1
  funext ph
  rw [← integral_comp_sub_left (fun th => ‖f th ph‖ ^ 2 * Real.sin th) Real.pi]
  congr 1
  funext th
  rw [Real.sin_pi_sub]
  rfl

theorem surfaceEnergy_le {t0 t1 t2 t3 p0 p1 p2 p3 : ℝ} (h2 : 0 ≤ t2) (h0 : t2 ≤ t0) (h01 : t0 ≤ t1) (h1 : t1 ≤ t3) (h3 : t3 ≤ Real.pi)
    (hp : p0 ≤ p1) (h4 : p2 ≤ p0) (h5 : p1 ≤ p3) {f : ℝ → ℝ → ℂ} (hf : Continuous fun x : ℝ × ℝ => f x.1 x.2) :
    surfaceEnergy t0 t1 p0 p1 f ≤ surfaceEnergy t2 t3 p2 p3 f := by
  have hth : ∀ ph, Continuous fun th : ℝ => ‖f th ph‖ ^ 2 * Real.sin th := by
    intro ph
    have : Continuous fun th : ℝ => f th ph := hf.comp (f := fun th : ℝ => (th, ph)) (by fun_prop)
    fun_prop
  have hs : ∀ ph : ℝ, ∀ th ∈ Set.Icc t2 t3, 0 ≤ ‖f th ph‖ ^ 2 * Real.sin th := fun ph th hth =>
    mul_nonneg (by positivity) (Real.sin_nonneg_of_nonneg_of_le_pi (h2.trans hth.1) (hth.2.trans h3))
  calc surfaceEnergy t0 t1 p0 p1 f ≤ surfaceEnergy t2 t3 p0 p1 f := by
        refine integral_mono_on hp ((continuous_energy hf _ _).intervalIntegrable _ _)
          ((continuous_energy hf _ _).intervalIntegrable _ _) fun ph _ => ?_
        refine integral_mono_interval h0 h01 h1 ?_ ((hth ph).intervalIntegrable _ _)
        rw [Filter.EventuallyLE, MeasureTheory.ae_restrict_iff' measurableSet_Ioc]
        exact Filter.Eventually.of_forall fun th hth => hs ph th ⟨hth.1.le, hth.2⟩
    _ ≤ _ := by
        refine integral_mono_interval h4 hp h5 ?_ ((continuous_energy hf _ _).intervalIntegrable _ _)
        exact Filter.Eventually.of_forall fun ph => integral_nonneg (h0.trans (h01.trans h1)) (hs ph)

theorem surfaceEnergy_add_longitude (t0 t1 p0 p1 p2 : ℝ) {f : ℝ → ℝ → ℂ} (hf : Continuous fun x : ℝ × ℝ => f x.1 x.2) :
    surfaceEnergy t0 t1 p0 p1 f + surfaceEnergy t0 t1 p1 p2 f = surfaceEnergy t0 t1 p0 p2 f :=
  integral_add_adjacent_intervals ((continuous_energy hf _ _).intervalIntegrable _ _) ((continuous_energy hf _ _).intervalIntegrable _ _)

/-- the energy over the sphere. -/
theorem sphereInner_self (f : ℝ → ℝ → ℂ) : (sphereInner f f).re = surfaceEnergy 0 Real.pi 0 (2 * Real.pi) f := by
  unfold sphereInner
  rw [surface_self, ofReal_re]

theorem comb_periodic {L : ℕ} {f : ℝ → ℝ → ℂ} (hf : f ∈ bandlimited L) (th ph : ℝ) : f th (ph + 2 * Real.pi) = f th ph := by
  obtain ⟨a, rfl⟩ := (mem_bandlimited_iff L f).1 hf
  refine Finset.sum_congr rfl fun i _ => ?_
  congr 1
  unfold harm
  rw [sphHarm_eq, sphHarm_eq]
  congr 1
  rw [Complex.exp_eq_exp_iff_exists_int]
  exact ⟨(ind2elm i).2, by push_cast; ring⟩

/-- all the way round, from any longitude. -/
theorem surfaceEnergy_round {L : ℕ} {f : ℝ → ℝ → ℂ} (hf : f ∈ bandlimited L) (t0 t1 p : ℝ) :
    surfaceEnergy t0 t1 p (p + 2 * Real.pi) f = surfaceEnergy t0 t1 0 (2 * Real.pi) f := by
  have : Function.Periodic (fun ph : ℝ => ∫ th in t0..t1, ‖f th ph‖ ^ 2 * Real.sin th) (2 * Real.pi) := by
    intro ph
    dsimp only
    simp only [comb_periodic hf]
  have := this.intervalIntegral_add_eq p 0
  rw [zero_add] at this
  exact this

end Sleplet.Gaunt
