import Mathlib.Analysis.InnerProductSpace.Orthonormal
import Mathlib.Analysis.InnerProductSpace.PiL2
import Mathlib.Analysis.Complex.Norm
import Mathlib.Data.List.GetD
import Mathlib.Algebra.Order.BigOperators.Ring.Finset
import Mathlib.Tactic.LinearCombination

/-!
Bessel's inequality and Parseval's identity for functions that a quadrature finds orthonormal.
-/
namespace Sleplet.Bessel

open Complex

variable {Pix : Type} [Fintype Pix] {N : ℕ}

/-- the functions with the square root of the weight, as vectors. -/
noncomputable def vec (w : Pix → ℝ) (f : Pix → ℂ) : EuclideanSpace ℂ Pix := WithLp.toLp 2 fun x => (Real.sqrt (w x) : ℂ) * f x

theorem inner_vec {w : Pix → ℝ} (hw : ∀ x, 0 ≤ w x) (f g : Pix → ℂ) :
    inner ℂ (vec w g) (vec w f) = ∑ x, f x * (starRingEnd ℂ) (g x) * (w x : ℂ) := by
  rw [PiLp.inner_apply]
  refine Finset.sum_congr rfl fun x _ => ?_
  simp only [vec, RCLike.inner_apply, map_mul, conj_ofReal]
  have : (Real.sqrt (w x) : ℂ) * (Real.sqrt (w x) : ℂ) = (w x : ℂ) := by
    rw [← ofReal_mul, Real.mul_self_sqrt (hw x)]
  linear_combination f x * (starRingEnd ℂ) (g x) * this

theorem norm_vec {w : Pix → ℝ} (hw : ∀ x, 0 ≤ w x) (f : Pix → ℂ) : ‖vec w f‖ ^ 2 = ∑ x, w x * ‖f x‖ ^ 2 := by
  rw [EuclideanSpace.norm_sq_eq]
  refine Finset.sum_congr rfl fun x _ => ?_
  simp only [vec, norm_mul, norm_real, Real.norm_eq_abs, mul_pow, sq_abs]
  rw [Real.sq_sqrt (hw x)]

theorem orthonormal_vec {w : Pix → ℝ} (hw : ∀ x, 0 ≤ w x) {s : Fin N → Pix → ℂ}
    (h : ∀ p q : Fin N, ∑ x, s p x * (starRingEnd ℂ) (s q x) * (w x : ℂ) = if p = q then 1 else 0) :
    Orthonormal ℂ fun p => vec w (s p) := by
  classical
  rw [orthonormal_iff_ite]
  intro p q
  rw [inner_vec hw, h q p]
  simp only [eq_comm]

theorem forward_le {w : Pix → ℝ} (hw : ∀ x, 0 ≤ w x) {s : Fin N → Pix → ℂ}
    (h : ∀ p q : Fin N, ∑ x, s p x * (starRingEnd ℂ) (s q x) * (w x : ℂ) = if p = q then 1 else 0) (f : Pix → ℂ) :
    ∑ p : Fin N, ‖∑ x, f x * (starRingEnd ℂ) (s p x) * (w x : ℂ)‖ ^ 2 ≤ ∑ x, w x * ‖f x‖ ^ 2 := by
  have := (orthonormal_vec hw h).sum_inner_products_le (vec w f) (s := Finset.univ)
  rw [norm_vec hw] at this
  simpa only [inner_vec hw] using this

theorem inverse_eq {w : Pix → ℝ} (hw : ∀ x, 0 ≤ w x) {s : Fin N → Pix → ℂ}
    (h : ∀ p q : Fin N, ∑ x, s p x * (starRingEnd ℂ) (s q x) * (w x : ℂ) = if p = q then 1 else 0) (c : Fin N → ℂ) :
    ∑ x, w x * ‖∑ p, c p * s p x‖ ^ 2 = ∑ p, ‖c p‖ ^ 2 := by
  have hv : vec w (fun x => ∑ p, c p * s p x) = ∑ p, c p • vec w (s p) := by
    ext x
    simp only [vec, WithLp.ofLp_sum, WithLp.ofLp_smul, Finset.sum_apply, Pi.smul_apply, smul_eq_mul, Finset.mul_sum]
    exact Finset.sum_congr rfl fun p _ => by ring
  rw [← norm_vec hw, hv]
  have := (orthonormal_vec hw h).inner_sum c c Finset.univ
  rw [inner_self_eq_norm_sq_to_K] at this
  have h2 : ((‖∑ p, c p • vec w (s p)‖ ^ 2 : ℝ) : ℂ) = ((∑ p, ‖c p‖ ^ 2 : ℝ) : ℂ) := by
    push_cast
    refine this.trans (Finset.sum_congr rfl fun p _ => ?_)
    rw [mul_comm, mul_conj, normSq_eq_norm_sq]
    push_cast
    rfl
  exact_mod_cast h2

theorem cauchy_range (m : ℕ) (a b : ℕ → ℂ) :
    ‖∑ i ∈ Finset.range m, a i * (starRingEnd ℂ) (b i)‖ ^ 2 ≤
      (∑ i ∈ Finset.range m, ‖a i‖ ^ 2) * ∑ i ∈ Finset.range m, ‖b i‖ ^ 2 := by
  have h1 : ‖∑ i ∈ Finset.range m, a i * (starRingEnd ℂ) (b i)‖ ≤ ∑ i ∈ Finset.range m, ‖a i‖ * ‖b i‖ := by
    refine (norm_sum_le _ _).trans (le_of_eq ?_)
    exact Finset.sum_congr rfl fun i _ => by rw [norm_mul, RCLike.norm_conj]
  exact (pow_le_pow_left₀ (norm_nonneg _) h1 2).trans (Finset.sum_mul_sq_le_sq_mul_sq _ _ _)

theorem sum_zipWith {α β M : Type} [AddCommMonoid M] (f : α → β → M) (a : List α) (b : List β) (x : α) (y : β) :
    (List.zipWith f a b).sum = ∑ i ∈ Finset.range (min a.length b.length), f (a.getD i x) (b.getD i y) := by
  induction a generalizing b with
  | nil => simp
  | cons u a ih =>
    cases b with
    | nil => simp
    | cons v b =>
      rw [List.zipWith_cons_cons, List.sum_cons, ih b, List.length_cons, List.length_cons, Nat.add_min_add_right,
        Finset.sum_range_succ']
      simp [add_comm]

theorem sum_map {α M : Type} [AddCommMonoid M] (f : α → M) (a : List α) (x : α) :
    (a.map f).sum = ∑ i ∈ Finset.range a.length, f (a.getD i x) := by
  induction a with
  | nil => simp
  | cons u a ih =>
    rw [List.map_cons, List.sum_cons, ih, List.length_cons, Finset.sum_range_succ']
    simp [add_comm]

theorem getD_mem {α : Type} {a : List α} {i : ℕ} (h : i < a.length) (x : α) : a.getD i x ∈ a := by
  rw [List.getD_eq_getElem _ _ h]
  exact List.getElem_mem h

end Sleplet.Bessel
