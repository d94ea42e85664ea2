import Mathlib.LinearAlgebra.Matrix.NonsingularInverse
import Mathlib.LinearAlgebra.Matrix.ConjTranspose
import Verif.Lemmas.BestConcentrated
import Verif.Lemmas.Convolution

/-! The concentration problem for fields on the sphere. -/
namespace Sleplet

open Spec Gaunt

/-- a sum over a diagonal form. -/
theorem diagonal_form {n : ℕ} (B : Fin n → Fin n → ℂ) (e : Fin n → ℝ) (hB : ∀ p q, B p q = if p = q then (e p : ℂ) else 0)
    (a : Fin n → ℂ) : (∑ r, (starRingEnd ℂ) (a r) * ∑ c, B c r * a c) = ((∑ p, e p * ‖a p‖ ^ 2 : ℝ) : ℂ) := by
  simp only [hB, ite_mul, zero_mul, Finset.sum_ite_eq', Finset.mem_univ, if_true]
  push_cast
  refine Finset.sum_congr rfl fun p _ => ?_
  have := Complex.mul_conj (a p)
  rw [Complex.normSq_eq_norm_sq] at this
  push_cast at this
  rw [← this]
  ring

theorem best_on_sphere {L n : ℕ} (hn : n = L ^ 2) (S : Fin n → Fin n → ℂ) (e : Fin n → ℝ) (he : Antitone e)
    (region : (ℝ → ℝ → ℂ) → ℝ) (s : Fin n → ℝ → ℝ → ℂ) (hs : s = fun p th ph => ∑ i : Fin n, S p i * harm i th ph)
    (horth : ∀ p q, sphereInner (s p) (s q) = if p = q then 1 else 0)
    (hreg : ∀ a : Fin n → ℂ, region (fun th ph => ∑ p, a p * s p th ph) = ∑ p, e p * ‖a p‖ ^ 2) :
    BestConcentrated (bandlimited L) sphereInner region s e := by
  subst hn hs
  have hrow : ∀ p q, ∑ i, S p i * (starRingEnd ℂ) (S q i) = if p = q then (1 : ℂ) else 0 := by
    intro p q
    rw [← horth p q, inner_sums]
  have hcol : ∀ r c, ∑ p, (starRingEnd ℂ) (S p r) * S p c = if r = c then (1 : ℂ) else 0 := by
    have h1 : (Matrix.of S) * (Matrix.of S).conjTranspose = 1 := by
      ext p q
      rw [Matrix.mul_apply, Matrix.one_apply]
      exact hrow p q
    have h2 := mul_eq_one_comm.1 h1
    intro r c
    have h3 := congrFun (congrFun h2 r) c
    rw [Matrix.mul_apply, Matrix.one_apply] at h3
    exact h3
  have hcomb : ∀ a : Fin (L ^ 2) → ℂ, (∑ p, a p • fun th ph => ∑ i : Fin (L ^ 2), S p i * harm i th ph) =
      fun th ph => ∑ p, a p * ∑ i : Fin (L ^ 2), S p i * harm i th ph := by
    intro a
    funext th ph
    simp [Finset.sum_apply]
  have hsyn : ∀ a : Fin (L ^ 2) → ℂ, (fun th ph => ∑ p, a p * ∑ i : Fin (L ^ 2), S p i * harm i th ph) =
      fun th ph => ∑ i : Fin (L ^ 2), (∑ p, a p * S p i) * harm i th ph := by
    intro a
    funext th ph
    simp only [Finset.mul_sum, Finset.sum_mul]
    rw [Finset.sum_comm]
    exact Finset.sum_congr rfl fun i _ => Finset.sum_congr rfl fun p _ => by ring
  refine bestConcentrated _ _ _ _ e he (fun f => ?_) (fun a b => ?_) (fun a => ?_)
  · constructor
    · rintro ⟨c, rfl⟩
      refine ⟨fun p => ∑ i : Fin (L ^ 2), c.getD i 0 * (starRingEnd ℂ) (S p i), ?_⟩
      rw [hcomb, hsyn]
      funext th ph
      rw [synthesis_eq]
      refine Finset.sum_congr rfl fun i _ => ?_
      congr 1
      simp only [Finset.sum_mul]
      rw [Finset.sum_comm]
      have : ∀ j : Fin (L ^ 2), ∑ p, c.getD j 0 * (starRingEnd ℂ) (S p j) * S p i = if j = i then c.getD j 0 else 0 := by
        intro j
        simp only [mul_assoc]
        rw [← Finset.mul_sum, hcol]
        simp
      simp only [this, Finset.sum_ite_eq', Finset.mem_univ, if_true]
    · rintro ⟨a, rfl⟩
      refine ⟨List.ofFn fun i : Fin (L ^ 2) => ∑ p, a p * S p i, ?_⟩
      rw [hcomb, hsyn]
      funext th ph
      rw [synthesis_eq]
      refine Finset.sum_congr rfl fun i _ => ?_
      simp only [List.getD_eq_getElem?_getD, List.getElem?_ofFn, i.2, dif_pos, Option.getD_some]
  · rw [hcomb, hcomb, hsyn, hsyn, inner_sums]
    simp only [map_sum, map_mul, Finset.sum_mul_sum]
    rw [Finset.sum_comm]
    refine Finset.sum_congr rfl fun p _ => ?_
    rw [Finset.sum_comm]
    have : ∀ q, ∑ i, a p * S p i * ((starRingEnd ℂ) (b q) * (starRingEnd ℂ) (S q i)) = if p = q then a p * (starRingEnd ℂ) (b q) else 0 := by
      intro q
      have h : ∀ i, a p * S p i * ((starRingEnd ℂ) (b q) * (starRingEnd ℂ) (S q i)) =
          (a p * (starRingEnd ℂ) (b q)) * (S p i * (starRingEnd ℂ) (S q i)) := fun i => by ring
      simp only [h]
      rw [← Finset.mul_sum, hrow]
      simp
    simp only [this, Finset.sum_ite_eq, Finset.mem_univ, if_true]
  · rw [hcomb]
    exact hreg a

end Sleplet
