import Verif.Lemmas.CompareConcentration
import Verif.Lemmas.RegionEnergy
import Verif.Lemmas.CapEnergy

/-!
The numbers of a concentration problem add up to the energies in the region of the fields of any orthonormal basis.
-/
namespace Sleplet

open Spec

section
variable {𝕜 X : Type*} [RCLike 𝕜] [AddCommGroup X] [Module 𝕜 X] {V : Set X} {inner : X → X → 𝕜} {R : X → ℝ} {n : ℕ} {s : Fin n → X}
  {e : Fin n → ℝ}

theorem Spec.BestConcentrated.sum_numbers (h : BestConcentrated V inner R s e) {m : ℕ} (u : Fin m → X) (hu : ∀ i, u i ∈ V)
    (hP : ∀ f ∈ V, ∑ i, ‖inner (u i) f‖ ^ 2 = RCLike.re (inner f f)) : ∑ p, e p = ∑ i, R (u i) := by
  have h1 : ∀ p, e p = ∑ i, e p * ‖inner (u i) (s p)‖ ^ 2 := by
    intro p
    rw [← Finset.mul_sum, hP _ (h.mem p), h.orthonormal, if_pos rfl, RCLike.one_re, mul_one]
  rw [Finset.sum_congr rfl fun p _ => h1 p, Finset.sum_comm]
  exact Finset.sum_congr rfl fun i _ => (h.energyIn _ (hu i)).symm

end

namespace Gaunt

open Complex

theorem sum_norm_harm (L : ℕ) (th ph : ℝ) : ∑ i : Fin (L ^ 2), ‖harm i th ph‖ ^ 2 = (L : ℝ) ^ 2 / (4 * Real.pi) := by
  have := Fin.sum_univ_eq_sum_range (fun i : ℕ => ‖sphHarm (ind2elm i).1 (ind2elm i).2 th ph‖ ^ 2) (L ^ 2)
  refine this.trans ?_
  rw [sum_pairs L fun l m => ‖sphHarm l m th ph‖ ^ 2]
  rw [Finset.sum_congr rfl fun l hl => sum_norm_sphHarm l th ph, ← Finset.sum_div, sum_odd]

theorem sum_surfaceEnergy (L : ℕ) (t0 t1 p0 p1 : ℝ) :
    ∑ i : Fin (L ^ 2), surfaceEnergy t0 t1 p0 p1 (harm i) = L ^ 2 / (4 * Real.pi) * ((p1 - p0) * (Real.cos t0 - Real.cos t1)) := by
  have hYc : ∀ i : Fin (L ^ 2), Continuous fun x : ℝ × ℝ => harm i x.1 x.2 := fun i => continuous_harm i
  have hsum : ∀ th ph : ℝ, ∑ i : Fin (L ^ 2), harm i th ph * (starRingEnd ℂ) (harm i th ph) = ((L ^ 2 / (4 * Real.pi) : ℝ) : ℂ) := by
    intro th ph
    rw [← sum_norm_harm L th ph]
    push_cast
    exact Finset.sum_congr rfl fun i _ => by rw [mul_conj, normSq_eq_norm_sq]; push_cast; rfl
  have hc := surface_sum (Finset.univ : Finset (Fin (L ^ 2))) (fun _ => 1)
    (fun i th ph => harm i th ph * (starRingEnd ℂ) (harm i th ph)) (fun i => (hYc i).mul (continuous_conj.comp (hYc i))) t0 t1 p0 p1
  simp only [one_mul, hsum, surface_self] at hc
  have hl : surface t0 t1 p0 p1 (fun _ _ => ((L ^ 2 / (4 * Real.pi) : ℝ) : ℂ)) =
      ((L ^ 2 / (4 * Real.pi) * ((p1 - p0) * (Real.cos t0 - Real.cos t1)) : ℝ) : ℂ) := by
    simp only [surface]
    rw [intervalIntegral.integral_const, intervalIntegral.integral_const_mul, intervalIntegral.integral_ofReal,
      integral_sin]
    simp only [real_smul]
    push_cast
    ring
  rw [hl] at hc
  have : L ^ 2 / (4 * Real.pi) * ((p1 - p0) * (Real.cos t0 - Real.cos t1)) =
      ∑ i : Fin (L ^ 2), surfaceEnergy t0 t1 p0 p1 (harm i) := by exact_mod_cast hc
  exact this.symm

/-- the harmonic of an index as a combination. -/
theorem harm_mem {L : ℕ} (i : Fin (L ^ 2)) : harm i ∈ bandlimited L := by
  rw [mem_bandlimited_iff]
  refine ⟨fun j => if j = i then 1 else 0, ?_⟩
  funext th ph
  simp [comb]

theorem parseval_harm {L : ℕ} {f : ℝ → ℝ → ℂ} (hf : f ∈ bandlimited L) :
    ∑ i : Fin (L ^ 2), ‖sphereInner (harm i) f‖ ^ 2 = (sphereInner f f).re := by
  obtain ⟨a, rfl⟩ := (mem_bandlimited_iff L f).1 hf
  have h1 : ∀ i : Fin (L ^ 2), harm i = comb fun j : Fin (L ^ 2) => if j = i then (1 : ℂ) else 0 := by
    intro i
    funext th ph
    simp [comb]
  have h2 : ∀ i : Fin (L ^ 2), sphereInner (harm i) (comb a) = (starRingEnd ℂ) (a i) := by
    intro i
    rw [h1 i, inner_comb]
    simp
  simp only [h2, RCLike.norm_conj]
  rw [inner_comb, re_sum]
  exact Finset.sum_congr rfl fun i _ => by rw [mul_conj, ofReal_re, normSq_eq_norm_sq]

end Gaunt
end Sleplet
