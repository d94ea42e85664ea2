import Verif.Lemmas.Bessel
import Verif.Lemmas.CapEnergy
import Verif.Lemmas.Convolution
import Verif.Spec.Eigen
import Verif.Spec.Synthesis

/-!
The size of a bandlimited field at a point, from the energy of its coefficients.
-/
namespace Sleplet.Peaks

open Complex Sleplet.Spec Sleplet.Gaunt

/-- the squared moduli of all harmonics below a bandlimit, at any point. -/
theorem sum_harm (L : ℕ) (th ph : ℝ) : ∑ i : Fin (L ^ 2), ‖harm i th ph‖ ^ 2 = (L : ℝ) ^ 2 / (4 * Real.pi) := by
  unfold harm
  rw [Fin.sum_univ_eq_sum_range (fun i : ℕ => ‖sphHarm (ind2elm i).1 (ind2elm i).2 th ph‖ ^ 2) (L ^ 2),
    sum_pairs L fun l m => ‖sphHarm l m th ph‖ ^ 2]
  rw [Finset.sum_congr rfl fun l _ => sum_norm_sphHarm l th ph, ← Finset.sum_div, sum_odd]

variable {ι : Type} [Fintype ι] {N : ℕ}

theorem cauchy (a b : ι → ℂ) : ‖∑ i, a i * b i‖ ^ 2 ≤ (∑ i, ‖a i‖ ^ 2) * ∑ i, ‖b i‖ ^ 2 := by
  have h1 : ‖∑ i, a i * b i‖ ≤ ∑ i, ‖a i‖ * ‖b i‖ :=
    (norm_sum_le _ _).trans (le_of_eq (Finset.sum_congr rfl fun i _ => norm_mul _ _))
  exact (pow_le_pow_left₀ (norm_nonneg _) h1 2).trans (Finset.sum_mul_sq_le_sq_mul_sq _ _ _)

theorem rows_le {E : Fin N → ι → ℂ} (hE : OrthonormalRows E) (y : ι → ℂ) : ∑ p, ‖∑ i, E p i * y i‖ ^ 2 ≤ ∑ i, ‖y i‖ ^ 2 := by
  have h := Bessel.forward_le (w := fun _ : ι => 1) (fun _ => zero_le_one) (s := fun p i => (starRingEnd ℂ) (E p i))
    (fun p q => by
      rw [← ite_congr (propext (eq_comm (a := q) (b := p))) (fun _ => rfl) fun _ => rfl, ← hE q p]
      exact Finset.sum_congr rfl fun i _ => by simp [mul_comm]) y
  simpa [mul_comm] using h

theorem rows_eq [DecidableEq ι] {E : ι → ι → ℂ} (hE : OrthonormalRows E) (y : ι → ℂ) : ∑ p, ‖∑ i, E p i * y i‖ ^ 2 = ∑ i, ‖y i‖ ^ 2 := by
  let U : Matrix ι ι ℂ := fun p i => E p i
  have h1 : U * U.conjTranspose = 1 := by
    ext p q
    rw [Matrix.mul_apply, Matrix.one_apply, ← hE p q]
    rfl
  have h2 := mul_eq_one_comm.1 h1
  have h3 : ∀ i j, ∑ p, (starRingEnd ℂ) (E p i) * E p j = if i = j then 1 else 0 := by
    intro i j
    have := congrFun (congrFun h2 i) j
    rw [Matrix.mul_apply, Matrix.one_apply] at this
    exact this
  have h : ((∑ p, ‖∑ i, E p i * y i‖ ^ 2 : ℝ) : ℂ) = ((∑ i, ‖y i‖ ^ 2 : ℝ) : ℂ) := by
    push_cast
    calc ∑ p, (‖∑ i, E p i * y i‖ : ℂ) ^ 2
        = ∑ p, ∑ i, ∑ j, (starRingEnd ℂ) (y i) * y j * ((starRingEnd ℂ) (E p i) * E p j) := by
          refine Finset.sum_congr rfl fun p _ => ?_
          rw [← conj_mul', map_sum, Finset.sum_mul_sum]
          exact Finset.sum_congr rfl fun i _ => Finset.sum_congr rfl fun j _ => by rw [map_mul]; ring
      _ = ∑ i, ∑ j, (starRingEnd ℂ) (y i) * y j * ∑ p, (starRingEnd ℂ) (E p i) * E p j := by
          rw [Finset.sum_comm]
          refine Finset.sum_congr rfl fun i _ => ?_
          rw [Finset.sum_comm]
          exact Finset.sum_congr rfl fun j _ => by rw [Finset.mul_sum]
      _ = ∑ i, (‖y i‖ : ℂ) ^ 2 := by
          refine Finset.sum_congr rfl fun i _ => ?_
          simp only [h3, mul_ite, mul_one, mul_zero, Finset.sum_ite_eq, Finset.mem_univ, if_true]
          rw [conj_mul']
  exact_mod_cast h

end Sleplet.Peaks
