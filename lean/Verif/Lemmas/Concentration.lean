import Mathlib.LinearAlgebra.Matrix.NonsingularInverse
import Mathlib.LinearAlgebra.Matrix.ConjTranspose
import Mathlib.Analysis.Complex.Norm
import Verif.Spec.Concentration
import Verif.Spec.Eigen

/-!
Linear algebra of concentration problems, independent of the code model.
-/
namespace Sleplet.Spec

open Complex

variable {n : ℕ} {Pix : Type} [Fintype Pix]

/-- the field with coefficients `c` in the basis fields `Y`. -/
noncomputable def synth (Y : Fin n → Pix → ℂ) (c : Fin n → ℂ) : Pix → ℂ := fun x => ∑ i, c i * Y i x

/-- energy inside the mask. -/
noncomputable def energy (w mask : Pix → ℝ) (f : Pix → ℂ) : ℝ := ∑ x, ‖f x‖ ^ 2 * w x * mask x

theorem regionInner_self (w mask : Pix → ℝ) (f : Pix → ℂ) : regionInner w mask f f = (energy w mask f : ℂ) := by
  unfold regionInner energy
  push_cast
  refine Finset.sum_congr rfl fun x _ => ?_
  rw [mul_conj, normSq_eq_norm_sq]
  push_cast
  ring

theorem regionInner_synth (w mask : Pix → ℝ) (Y : Fin n → Pix → ℂ) (a b : Fin n → ℂ) :
    regionInner w mask (synth Y a) (synth Y b) = ∑ r, (starRingEnd ℂ) (b r) * ∑ c, regionInner w mask (Y c) (Y r) * a c := by
  unfold regionInner synth
  calc ∑ x, (∑ c, a c * Y c x) * (starRingEnd ℂ) (∑ r, b r * Y r x) * (w x : ℂ) * (mask x : ℂ)
      = ∑ x, ∑ r, ∑ c, (starRingEnd ℂ) (b r) * ((Y c x * (starRingEnd ℂ) (Y r x) * (w x : ℂ) * (mask x : ℂ)) * a c) := by
        refine Finset.sum_congr rfl fun x _ => ?_
        rw [map_sum, Finset.sum_mul_sum, Finset.sum_comm, Finset.sum_mul, Finset.sum_mul]
        refine Finset.sum_congr rfl fun r _ => ?_
        rw [Finset.sum_mul, Finset.sum_mul]
        exact Finset.sum_congr rfl fun c _ => by rw [map_mul]; ring
    _ = _ := by
        rw [Finset.sum_comm]
        refine Finset.sum_congr rfl fun r _ => ?_
        rw [Finset.sum_comm, Finset.mul_sum]
        refine Finset.sum_congr rfl fun c _ => ?_
        rw [Finset.sum_mul, Finset.mul_sum]

theorem conj_regionInner (w mask : Pix → ℝ) (f g : Pix → ℂ) :
    (starRingEnd ℂ) (regionInner w mask f g) = regionInner w mask g f := by
  unfold regionInner
  rw [map_sum]
  refine Finset.sum_congr rfl fun x _ => ?_
  simp only [map_mul, conj_conj, conj_ofReal]
  ring

/-- eigenvectors of the concentration matrix synthesise fields that are orthogonal over the region, with the eigenvalue
as squared norm. -/
theorem regionInner_eigen (w mask : Pix → ℝ) (Y : Fin n → Pix → ℂ) (D : Fin n → Fin n → ℂ) (e : Fin n → ℝ)
    (S : Fin n → Fin n → ℂ) (hD : ∀ a b, D a b = regionInner w mask (Y a) (Y b))
    (heig : ∀ p r, ∑ c, (starRingEnd ℂ) (D r c) * S p c = e p * S p r) (horth : OrthonormalRows S) (p q : Fin n) :
    regionInner w mask (synth Y (S p)) (synth Y (S q)) = if p = q then (e p : ℂ) else 0 := by
  rw [regionInner_synth]
  have : ∀ r, ∑ c, regionInner w mask (Y c) (Y r) * S p c = e p * S p r := by
    intro r
    rw [← heig p r]
    refine Finset.sum_congr rfl fun c _ => ?_
    rw [hD, conj_regionInner]
  simp only [this]
  calc ∑ r, (starRingEnd ℂ) (S q r) * (e p * S p r) = e p * ∑ r, S p r * (starRingEnd ℂ) (S q r) := by
        rw [Finset.mul_sum]; exact Finset.sum_congr rfl fun r _ => by ring
    _ = _ := by rw [horth]; split <;> simp

/-- with basis fields orthonormal on the whole grid, synthesis preserves inner products. -/
theorem wholeInner_synth (w : Pix → ℝ) (Y : Fin n → Pix → ℂ)
    (hY : ∀ a b, regionInner w (fun _ => 1) (Y a) (Y b) = if a = b then 1 else 0) (a b : Fin n → ℂ) :
    regionInner w (fun _ => 1) (synth Y a) (synth Y b) = ∑ r, a r * (starRingEnd ℂ) (b r) := by
  rw [regionInner_synth]
  refine Finset.sum_congr rfl fun r _ => ?_
  simp only [hY]
  simp [mul_comm]

theorem sum_eigenvalues (D : Fin n → Fin n → ℂ) (e : Fin n → ℝ) (S : Fin n → Fin n → ℂ)
    (heig : ∀ p r, ∑ c, (starRingEnd ℂ) (D r c) * S p c = e p * S p r) (horth : OrthonormalRows S) :
    ((∑ p, e p : ℝ) : ℂ) = ∑ r, (starRingEnd ℂ) (D r r) := by
  -- columns are orthonormal as well
  have hcol : ∀ r c, ∑ p, (starRingEnd ℂ) (S p r) * S p c = if r = c then 1 else 0 := by
    have h1 : (Matrix.of S) * (Matrix.of S).conjTranspose = 1 := by
      ext p q
      rw [Matrix.mul_apply, Matrix.one_apply]
      exact horth p q
    have h2 := mul_eq_one_comm.1 h1
    intro r c
    have := congrFun (congrFun h2 r) c
    rw [Matrix.mul_apply, Matrix.one_apply] at this
    exact this
  have he : ∀ p, (e p : ℂ) = ∑ r, (starRingEnd ℂ) (S p r) * ∑ c, (starRingEnd ℂ) (D r c) * S p c := by
    intro p
    simp only [heig]
    calc (e p : ℂ) = e p * ∑ r, S p r * (starRingEnd ℂ) (S p r) := by rw [horth]; simp
      _ = _ := by rw [Finset.mul_sum]; exact Finset.sum_congr rfl fun r _ => by ring
  push_cast
  simp only [he]
  calc ∑ p, ∑ r, (starRingEnd ℂ) (S p r) * ∑ c, (starRingEnd ℂ) (D r c) * S p c
      = ∑ r, ∑ c, (starRingEnd ℂ) (D r c) * ∑ p, (starRingEnd ℂ) (S p r) * S p c := by
        rw [Finset.sum_comm]
        refine Finset.sum_congr rfl fun r _ => ?_
        simp only [Finset.mul_sum]
        rw [Finset.sum_comm]
        exact Finset.sum_congr rfl fun c _ => Finset.sum_congr rfl fun p _ => by ring
    _ = _ := by
        refine Finset.sum_congr rfl fun r _ => ?_
        simp [hcol]

theorem energy_nonneg {w mask : Pix → ℝ} (hw : ∀ x, 0 ≤ w x) (hm : ∀ x, 0 ≤ mask x) (f : Pix → ℂ) : 0 ≤ energy w mask f :=
  Finset.sum_nonneg fun x _ => mul_nonneg (mul_nonneg (by positivity) (hw x)) (hm x)

theorem energy_mono {w m m' : Pix → ℝ} (hw : ∀ x, 0 ≤ w x) (hm : ∀ x, m x ≤ m' x) (f : Pix → ℂ) :
    energy w m f ≤ energy w m' f :=
  Finset.sum_le_sum fun x _ => mul_le_mul_of_nonneg_left (hm x) (mul_nonneg (by positivity) (hw x))

end Sleplet.Spec
