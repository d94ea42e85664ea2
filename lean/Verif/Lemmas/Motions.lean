import Verif.Lemmas.RegionEnergy
import Verif.Lemmas.Symmetry
import Verif.Props.ConcentrationGrid

/-! Complex conjugation and reflections of longitudes on bandlimited fields. -/
namespace Sleplet.Gaunt

open Complex Sleplet.Spec Sleplet.LatLon intervalIntegral

/-- the conjugate field. -/
noncomputable def bar (f : ℝ → ℝ → ℂ) (th ph : ℝ) : ℂ := (starRingEnd ℂ) (f th ph)

/-- the field with reflected longitudes. -/
def flip (c : ℝ) (f : ℝ → ℝ → ℂ) (th ph : ℝ) : ℂ := f th (c - ph)

theorem harm_bandlimited {L i : ℕ} (hi : i < L ^ 2) : harm i ∈ bandlimited L := by
  refine (mem_bandlimited_iff L _).2 ⟨fun j => if j.val = i then 1 else 0, ?_⟩
  funext th ph
  unfold comb
  rw [Finset.sum_eq_single ⟨i, hi⟩]
  · simp
  · intro j _ hj
    simp only [mul_eq_zero, ite_eq_right_iff, one_ne_zero, imp_false]
    exact Or.inl fun h => hj (Fin.ext h)
  · intro h; exact absurd (Finset.mem_univ _) h

theorem smul_bandlimited {L : ℕ} {f : ℝ → ℝ → ℂ} (hf : f ∈ bandlimited L) (a : ℂ) : a • f ∈ bandlimited L := by
  simpa using (linearOn_bandlimited L).mem (fun _ : Fin 1 => a) (fun _ => f) fun _ => hf

theorem bar_harm_mem {L i : ℕ} (hi : i < L ^ 2) : bar (harm i) ∈ bandlimited L := by
  have ha := ind2elm_abs_le i
  have hl : (ind2elm i).1 < L := ind2elm_fst_lt hi
  obtain ⟨j, hj, hji⟩ : ∃ j, j < L ^ 2 ∧ ind2elm j = ((ind2elm i).1, -(ind2elm i).2) := by
    refine ⟨elm2ind (ind2elm i).1 (-(ind2elm i).2), ?_, ?_⟩
    · exact (elm2ind_lt_sq (by simpa using ha) L).2 hl
    · exact ind2elm_elm2ind (by simpa using ha)
  have : bar (harm i) = ((-1 : ℂ) ^ (ind2elm i).2) • harm j := by
    funext th ph
    simp only [bar, Pi.smul_apply, smul_eq_mul, harm, hji]
    rw [Props.sphHarm_neg ha, ← mul_assoc, ← mul_zpow]
    simp
  rw [this]
  exact smul_bandlimited (harm_bandlimited hj) _

theorem bar_mem {L : ℕ} {f : ℝ → ℝ → ℂ} (hf : f ∈ bandlimited L) : bar f ∈ bandlimited L := by
  obtain ⟨a, rfl⟩ := (mem_bandlimited_iff L f).1 hf
  have : bar (comb a) = ∑ i, (starRingEnd ℂ) (a i) • bar (harm i) := by
    funext th ph
    simp [bar, comb, Finset.sum_apply]
  rw [this]
  exact (linearOn_bandlimited L).mem _ _ fun i => bar_harm_mem i.2

theorem flip_mem {L : ℕ} {f : ℝ → ℝ → ℂ} (c : ℝ) (hf : f ∈ bandlimited L) : flip c f ∈ bandlimited L := by
  obtain ⟨a, rfl⟩ := (mem_bandlimited_iff L f).1 hf
  have : flip c (comb a) = bar (turn (-c) (comb fun i => (starRingEnd ℂ) (a i))) := by
    funext th ph
    simp only [bar, flip, comb, turn, LinearMap.coe_mk, AddHom.coe_mk, map_sum, map_mul, conj_conj]
    refine Finset.sum_congr rfl fun i _ => ?_
    congr 1
    rw [harm, harm, sphHarm_eq, sphHarm_eq, map_mul, conj_ofReal, ← exp_conj]
    congr 2
    simp only [map_mul, conj_I, conj_ofReal]
    push_cast
    simp
    ring
  rw [this]
  exact bar_mem (turn_spec _ _ ((mem_bandlimited_iff L _).2 ⟨_, rfl⟩)).1

theorem surfaceEnergy_bar (t0 t1 p0 p1 : ℝ) (f : ℝ → ℝ → ℂ) : surfaceEnergy t0 t1 p0 p1 (bar f) = surfaceEnergy t0 t1 p0 p1 f := by
  simp only [surfaceEnergy, bar, RCLike.norm_conj]

theorem surfaceEnergy_flip (t0 t1 p0 p1 c : ℝ) (f : ℝ → ℝ → ℂ) :
    surfaceEnergy t0 t1 p0 p1 (flip c f) = surfaceEnergy t0 t1 (c - p1) (c - p0) f :=
  integral_comp_sub_left (fun ph => ∫ th in t0..t1, ‖f th ph‖ ^ 2 * Real.sin th) c

theorem surfaceEnergy_whole {L : ℕ} {f : ℝ → ℝ → ℂ} (hf : f ∈ bandlimited L) (t0 t1 p p' : ℝ) :
    surfaceEnergy t0 t1 p (p + 2 * Real.pi) f = surfaceEnergy t0 t1 p' (p' + 2 * Real.pi) f := by
  rw [surfaceEnergy_round hf, surfaceEnergy_round hf]

theorem bar_spec {L : ℕ} (f : ℝ → ℝ → ℂ) (hf : f ∈ bandlimited L) :
    bar f ∈ bandlimited L ∧ (sphereInner (bar f) (bar f)).re = (sphereInner f f).re :=
  ⟨bar_mem hf, by rw [sphereInner_self, sphereInner_self, surfaceEnergy_bar]⟩

theorem flip_spec {L : ℕ} (c : ℝ) (f : ℝ → ℝ → ℂ) (hf : f ∈ bandlimited L) :
    flip c f ∈ bandlimited L ∧ (sphereInner (flip c f) (flip c f)).re = (sphereInner f f).re := by
  refine ⟨flip_mem c hf, ?_⟩
  rw [sphereInner_self, sphereInner_self, surfaceEnergy_flip]
  have := surfaceEnergy_whole hf 0 Real.pi (c - 2 * Real.pi) 0
  rw [zero_add] at this
  rw [← this]
  congr 1
  ring

theorem flip_lin (c : ℝ) {m : ℕ} (a : Fin m → ℂ) (u : Fin m → ℝ → ℝ → ℂ) : flip c (∑ i, a i • u i) = ∑ i, a i • flip c (u i) := by
  funext th ph
  simp [flip, Finset.sum_apply]

theorem bar_lin {m : ℕ} (a : Fin m → ℂ) (u : Fin m → ℝ → ℝ → ℂ) : bar (∑ i, a i • u i) = ∑ i, (starRingEnd ℂ) (a i) • bar (u i) := by
  funext th ph
  simp [bar, Finset.sum_apply]

theorem bar_symmetry {L : ℕ} {R : (ℝ → ℝ → ℂ) → ℝ} (hR : ∀ f ∈ bandlimited L, R (bar f) = R f) :
    Symmetry (bandlimited L) sphereInner R bar (starRingEnd ℂ) where
  mem f hf := (bar_spec f hf).1
  energy f hf := (bar_spec f hf).2
  region := hR
  lin := bar_lin
  inv := conj_conj
  norm _ := RCLike.norm_conj _

theorem flip_symmetry {L : ℕ} {R : (ℝ → ℝ → ℂ) → ℝ} (c : ℝ) (hR : ∀ f ∈ bandlimited L, R (flip c f) = R f) :
    Symmetry (bandlimited L) sphereInner R (flip c) id where
  mem f hf := (flip_spec c f hf).1
  energy f hf := (flip_spec c f hf).2
  region := hR
  lin := flip_lin c
  inv _ := rfl
  norm _ := rfl

theorem linear_symmetry {L : ℕ} {R : (ℝ → ℝ → ℂ) → ℝ} (T : (ℝ → ℝ → ℂ) →ₗ[ℂ] (ℝ → ℝ → ℂ))
    (hT : ∀ f ∈ bandlimited L, T f ∈ bandlimited L ∧ (sphereInner (T f) (T f)).re = (sphereInner f f).re)
    (hR : ∀ f ∈ bandlimited L, R (T f) = R f) : Symmetry (bandlimited L) sphereInner R T id where
  mem f hf := (hT f hf).1
  energy f hf := (hT f hf).2
  region := hR
  lin a u := by rw [map_sum]; simp
  inv _ := rfl
  norm _ := rfl

end Sleplet.Gaunt
