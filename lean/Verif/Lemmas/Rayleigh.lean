import Mathlib.Analysis.InnerProductSpace.PiL2
import Mathlib.Analysis.InnerProductSpace.Spectrum
import Mathlib.Analysis.Matrix.Spectrum

/-!
A lower bound for a symmetric operator from its eigenvalues.
-/
namespace Sleplet

open scoped InnerProductSpace

theorem rayleigh_ge {E : Type*} [NormedAddCommGroup E] [InnerProductSpace ℝ E] [FiniteDimensional ℝ E] (T : E →ₗ[ℝ] E)
    (hT : T.IsSymmetric) (K : Submodule ℝ E) (hK : ∀ x ∈ K, T x ∈ K) (μ : ℝ)
    (h : ∀ x ∈ K, x ≠ 0 → ∀ l : ℝ, T x = l • x → μ ≤ l) (x : E) (hx : x ∈ K) : μ * ‖x‖ ^ 2 ≤ ⟪x, T x⟫_ℝ := by
  have hS : (T.restrict hK).IsSymmetric := hT.restrict_invariant hK
  set b := hS.eigenvectorBasis rfl with hb
  set y : K := ⟨x, hx⟩ with hy
  have h1 : ∀ i, μ ≤ hS.eigenvalues rfl i := by
    intro i
    refine h (b i : K) (b i).2 ?_ _ ?_
    · intro h0
      have h2 : ‖b i‖ = 1 := b.orthonormal.1 i
      have h3 : b i = 0 := Subtype.ext h0
      rw [h3, norm_zero] at h2
      norm_num at h2
    · have h2 := hS.apply_eigenvectorBasis rfl i
      have h3 := congrArg (Subtype.val) h2
      exact h3
  have h2 : ⟪x, T x⟫_ℝ = ∑ i, hS.eigenvalues rfl i * ⟪b i, y⟫_ℝ ^ 2 := by
    have h3 : ⟪x, T x⟫_ℝ = ⟪y, T.restrict hK y⟫_ℝ := rfl
    rw [h3, ← b.sum_inner_mul_inner]
    refine Finset.sum_congr rfl fun i _ => ?_
    rw [← hS (b i) y, hS.apply_eigenvectorBasis rfl i]
    simp only [inner_smul_left, RCLike.ofReal_real_eq_id, id, conj_trivial]
    rw [real_inner_comm]
    ring
  have h3 : ‖x‖ ^ 2 = ∑ i, ⟪b i, y⟫_ℝ ^ 2 := by
    have h4 : ‖x‖ ^ 2 = ⟪y, y⟫_ℝ := (real_inner_self_eq_norm_sq x).symm
    rw [h4, ← b.sum_inner_mul_inner]
    refine Finset.sum_congr rfl fun i _ => ?_
    rw [real_inner_comm]
    ring
  rw [h2, h3, Finset.mul_sum]
  exact Finset.sum_le_sum fun i _ => mul_le_mul_of_nonneg_right (h1 i) (sq_nonneg _)

/-- the same for a symmetric matrix, on the functions orthogonal to given eigenvectors. -/
theorem rayleigh_matrix {n m : ℕ} (A : Fin n → Fin n → ℝ) (hA : ∀ u v, A u v = A v u) (φ : Fin m → Fin n → ℝ) (e : Fin m → ℝ)
    (hφ : ∀ i u, ∑ v, A u v * φ i v = e i * φ i u) (μ : ℝ)
    (h : ∀ x : Fin n → ℝ, x ≠ 0 → (∀ i, ∑ v, x v * φ i v = 0) → ∀ l : ℝ, (∀ u, ∑ v, A u v * x v = l * x u) → μ ≤ l)
    (x : Fin n → ℝ) (hx : ∀ i, ∑ v, x v * φ i v = 0) : μ * ∑ v, x v ^ 2 ≤ ∑ u, ∑ v, x u * A u v * x v := by
  set T := Matrix.toEuclideanLin (Matrix.of A) with hTdef
  have hT : T.IsSymmetric := by
    rw [Matrix.isSymmetric_toEuclideanLin_iff]
    ext u v
    simp [Matrix.conjTranspose_apply, hA u v]
  have hTx : ∀ (y : EuclideanSpace ℝ (Fin n)) u, (T y) u = ∑ v, A u v * y v := by
    intro y u
    rw [hTdef, Matrix.toLpLin_apply]
    simp [Matrix.mulVec, dotProduct]
  let K : Submodule ℝ (EuclideanSpace ℝ (Fin n)) :=
    { carrier := {y | ∀ i, ∑ v, y v * φ i v = 0}
      add_mem' := by
        intro a b ha hb i
        simp only [PiLp.add_apply, add_mul, Finset.sum_add_distrib, ha i, hb i, add_zero]
      zero_mem' := by intro i; simp
      smul_mem' := by
        intro c a ha i
        simp only [PiLp.smul_apply, smul_eq_mul, mul_assoc, ← Finset.mul_sum, ha i, mul_zero] }
  have hK : ∀ y ∈ K, T y ∈ K := by
    intro y hy i
    simp only [hTx, Finset.sum_mul]
    rw [Finset.sum_comm]
    have : ∀ v, ∑ u, A u v * y v * φ i u = e i * (y v * φ i v) := by
      intro v
      have h1 := hφ i v
      calc ∑ u, A u v * y v * φ i u = y v * ∑ u, A v u * φ i u := by
            rw [Finset.mul_sum]
            refine Finset.sum_congr rfl fun u _ => ?_
            rw [hA u v]; ring
        _ = _ := by rw [h1]; ring
    simp only [this, ← Finset.mul_sum]
    rw [hy i, mul_zero]
  have := rayleigh_ge T hT K hK μ (fun y hy hy0 l hl => h (fun v => y v) (fun h0 => hy0 (by ext v; exact congrFun h0 v)) hy l fun u => by
    rw [← hTx, hl]; simp) (WithLp.toLp 2 x) hx
  rw [EuclideanSpace.norm_sq_eq, PiLp.inner_apply] at this
  simp only [hTx, Real.norm_eq_abs, sq_abs] at this
  refine this.trans (le_of_eq (Finset.sum_congr rfl fun u _ => ?_))
  simp only [RCLike.inner_apply, conj_trivial, Finset.sum_mul]
  exact Finset.sum_congr rfl fun v _ => by ring

end Sleplet
