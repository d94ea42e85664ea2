import Mathlib.Data.Complex.BigOperators
import Mathlib.LinearAlgebra.Matrix.NonsingularInverse
import Verif.Lemmas.CompareConcentration

/-! Symmetries of a concentration problem. -/
namespace Sleplet

open Spec Complex Matrix

/-- a square matrix whose action keeps a weighted sum of squares. -/
theorem matrix_of_squares {n : ℕ} (M : Matrix (Fin n) (Fin n) ℂ) (w : Fin n → ℝ)
    (h : ∀ y : Fin n → ℂ, ∑ q, w q * ‖∑ p, y p * M q p‖ ^ 2 = ∑ p, w p * ‖y p‖ ^ 2) :
    Mᴴ * diagonal (fun p => (w p : ℂ)) * M = diagonal fun p => (w p : ℂ) := by
  ext p p'
  have hent : (Mᴴ * diagonal (fun p => (w p : ℂ)) * M) p p' = ∑ q, (w q : ℂ) * ((starRingEnd ℂ) (M q p) * M q p') := by
    rw [Matrix.mul_apply]
    refine Finset.sum_congr rfl fun q _ => ?_
    rw [Matrix.mul_diagonal, conjTranspose_apply, star_def]
    ring
  rw [hent]
  have hone : ∀ p, ∑ q, w q * ‖M q p‖ ^ 2 = w p := by
    intro p
    have := h (Pi.single p 1)
    simpa [Pi.single_apply, ite_mul, apply_ite, Finset.sum_ite_eq'] using this
  rcases eq_or_ne p p' with rfl | hne
  · rw [diagonal_apply_eq]
    conv_rhs => rw [← hone p]
    push_cast
    refine Finset.sum_congr rfl fun q _ => ?_
    rw [← normSq_eq_conj_mul_self, normSq_eq_norm_sq]
    push_cast
    rfl
  · rw [diagonal_apply_ne _ hne]
    set S := ∑ q, (w q : ℂ) * ((starRingEnd ℂ) (M q p) * M q p') with hS
    have hz := h (Pi.single p 1 + Pi.single p' ((starRingEnd ℂ) S))
    have hsum : ∀ q, ∑ r, (Pi.single p 1 + Pi.single p' ((starRingEnd ℂ) S) : Fin n → ℂ) r * M q r = M q p + (starRingEnd ℂ) S * M q p' := by
      intro q
      simp [add_mul, Finset.sum_add_distrib, Pi.single_apply, ite_mul]
    have hexp : ∀ q, ‖M q p + (starRingEnd ℂ) S * M q p'‖ ^ 2 =
        ‖M q p‖ ^ 2 + ‖S‖ ^ 2 * ‖M q p'‖ ^ 2 + 2 * ((starRingEnd ℂ) S * ((starRingEnd ℂ) (M q p) * M q p')).re := by
      intro q
      rw [← normSq_eq_norm_sq, ← normSq_eq_norm_sq, ← normSq_eq_norm_sq, ← normSq_eq_norm_sq, normSq_add, normSq_mul, normSq_conj]
      congr 2
      simp only [mul_re, mul_im, conj_re, conj_im]
      ring
    have hright : ∑ r, w r * ‖(Pi.single p 1 + Pi.single p' ((starRingEnd ℂ) S) : Fin n → ℂ) r‖ ^ 2 = w p + ‖S‖ ^ 2 * w p' := by
      rw [Finset.sum_eq_add_of_mem p p' (Finset.mem_univ _) (Finset.mem_univ _) hne]
      · simp [hne, hne.symm]
        ring
      · intro r _ hr
        simp [hr.1, hr.2]
    simp only [hsum, hexp] at hz
    rw [hright] at hz
    have hleft : ∑ q, w q * (‖M q p‖ ^ 2 + ‖S‖ ^ 2 * ‖M q p'‖ ^ 2 + 2 * ((starRingEnd ℂ) S * ((starRingEnd ℂ) (M q p) * M q p')).re) =
        w p + ‖S‖ ^ 2 * w p' + 2 * ((starRingEnd ℂ) S * S).re := by
      have h3 : ((starRingEnd ℂ) S * S).re = ∑ q, w q * ((starRingEnd ℂ) S * ((starRingEnd ℂ) (M q p) * M q p')).re := by
        conv_lhs => rw [hS]
        rw [← hS, Finset.mul_sum, re_sum]
        refine Finset.sum_congr rfl fun q _ => ?_
        rw [mul_left_comm, re_ofReal_mul]
      rw [h3, ← hone p, ← hone p', Finset.mul_sum, Finset.mul_sum, ← Finset.sum_add_distrib, ← Finset.sum_add_distrib]
      exact Finset.sum_congr rfl fun q _ => by ring
    rw [hleft, ← normSq_eq_conj_mul_self, ofReal_re] at hz
    exact normSq_eq_zero.1 (by linarith)

variable {X : Type*} [AddCommGroup X] [Module ℂ X]

/-- a map of the fields, linear or conjugate-linear (`σ`), that keeps energies over the domain and in the region. -/
structure Symmetry (V : Set X) (inner : X → X → ℂ) (R : X → ℝ) (T : X → X) (σ : ℂ → ℂ) : Prop where
  mem : ∀ f ∈ V, T f ∈ V
  energy : ∀ f ∈ V, (inner (T f) (T f)).re = (inner f f).re
  region : ∀ f ∈ V, R (T f) = R f
  lin : ∀ {m : ℕ} (a : Fin m → ℂ) (u : Fin m → X), T (∑ i, a i • u i) = ∑ i, σ (a i) • T (u i)
  inv : ∀ z, σ (σ z) = z
  norm : ∀ z, ‖σ z‖ = ‖z‖

variable {V : Set X} {inner : X → X → ℂ} {R : X → ℝ} {n : ℕ} {s : Fin n → X} {e : Fin n → ℝ} {T : X → X} {σ : ℂ → ℂ}

/-- the image of a function is a sum of functions with its number, and the matrix of the map is unitary. -/
theorem Symmetry.image (hT : Symmetry V inner R T σ) (h : BestConcentrated V inner R s e) (hV : LinearOn V inner) :
    ∃ M : Matrix (Fin n) (Fin n) ℂ, M * Mᴴ = 1 ∧ Mᴴ * M = 1 ∧ (∀ q p, e q ≠ e p → M q p = 0) ∧ ∀ p, T (s p) = ∑ q, M q p • s q := by
  set M : Matrix (Fin n) (Fin n) ℂ := fun q p => inner (T (s p)) (s q) with hM
  have hcomp : ∀ y : Fin n → ℂ, (∑ p, σ (y p) • s p) ∈ V ∧ (∀ q, inner (∑ p, σ (y p) • s p) (s q) = σ (y q)) ∧
      ∀ q, inner (T (∑ p, σ (y p) • s p)) (s q) = ∑ p, y p * M q p := by
    intro y
    refine ⟨hV.mem _ _ h.mem, fun q => ?_, fun q => ?_⟩
    · rw [hV.lin _ _ _ h.mem (h.mem q), Finset.sum_eq_single q]
      · rw [h.orthonormal, if_pos rfl, mul_one]
      · intro p _ hp
        rw [h.orthonormal, if_neg hp, mul_zero]
      · intro h; exact absurd (Finset.mem_univ q) h
    · rw [hT.lin, hV.lin _ _ _ (fun p => hT.mem _ (h.mem p)) (h.mem q)]
      simp only [hT.inv, hM]
  have h1 : Mᴴ * M = 1 := by
    have := matrix_of_squares M (fun _ => 1) fun y => by
      obtain ⟨a, b, c⟩ := hcomp y
      have h2 := h.energy _ (hT.mem _ a)
      have h3 := h.energy _ a
      simp only [b, c, hT.norm] at h2 h3
      simp only [one_mul]
      rw [← h2, ← h3]
      exact hT.energy _ a
    simpa using this
  have h2 := matrix_of_squares M e fun y => by
    obtain ⟨a, b, c⟩ := hcomp y
    have h2 := h.energyIn _ (hT.mem _ a)
    have h3 := h.energyIn _ a
    simp only [b, c, hT.norm] at h2 h3
    rw [← h2, ← h3]
    exact hT.region _ a
  have h3 : M * Mᴴ = 1 := mul_eq_one_comm.1 h1
  refine ⟨M, h3, h1, fun q p hqp => ?_, fun p => h.expand _ (hT.mem _ (h.mem p))⟩
  have h4 : diagonal (fun p => (e p : ℂ)) * M = M * diagonal fun p => (e p : ℂ) := by
    conv_rhs => rw [← h2]
    rw [← Matrix.mul_assoc, ← Matrix.mul_assoc, h3, Matrix.one_mul]
  have h5 := congrFun (congrFun h4 q) p
  rw [diagonal_mul, mul_diagonal] at h5
  have h6 : ((e q : ℂ) - e p) * M q p = 0 := by rw [sub_mul, h5]; ring
  rcases mul_eq_zero.1 h6 with h7 | h7
  · exact absurd (by exact_mod_cast sub_eq_zero.1 h7) hqp
  · exact h7

/-- a function whose number is not repeated is kept up to a number of modulus one. -/
theorem Symmetry.simple (hT : Symmetry V inner R T σ) (h : BestConcentrated V inner R s e) (hV : LinearOn V inner) (p : Fin n)
    (hp : ∀ q, q ≠ p → e q ≠ e p) : ∃ c : ℂ, ‖c‖ = 1 ∧ T (s p) = c • s p := by
  obtain ⟨M, -, h1, h2, h3⟩ := hT.image h hV
  refine ⟨M p p, ?_, ?_⟩
  · have h4 := congrFun (congrFun h1 p) p
    rw [Matrix.mul_apply, Matrix.one_apply_eq, Finset.sum_eq_single p (fun q _ hq => by rw [h2 q p (hp q hq), mul_zero])
      (fun h => absurd (Finset.mem_univ p) h), conjTranspose_apply, star_def, ← normSq_eq_conj_mul_self] at h4
    have h5 : ‖M p p‖ ^ 2 = 1 := by
      rw [← normSq_eq_norm_sq]; exact_mod_cast h4
    exact (pow_eq_one_iff_of_nonneg (norm_nonneg _) two_ne_zero).1 h5
  · rw [h3, Finset.sum_eq_single p (fun q _ hq => by rw [h2 q p (hp q hq), zero_smul]) fun h => absurd (Finset.mem_univ p) h]

/-- sums of squares over functions, weighted by any function of their numbers, are kept. -/
theorem Symmetry.squares (hT : Symmetry V inner R T σ) (h : BestConcentrated V inner R s e) (hV : LinearOn V inner)
    (ev : X →ₗ[ℂ] ℂ) (g : ℝ → ℝ) : ∑ p, g (e p) * ‖ev (T (s p))‖ ^ 2 = ∑ p, g (e p) * ‖ev (s p)‖ ^ 2 := by
  obtain ⟨M, h1, -, h2, h3⟩ := hT.image h hV
  have h4 : ((∑ p, g (e p) * ‖ev (T (s p))‖ ^ 2 : ℝ) : ℂ) = ((∑ p, g (e p) * ‖ev (s p)‖ ^ 2 : ℝ) : ℂ) := by
    push_cast
    have h5 : ∀ p, (g (e p) : ℂ) * (‖ev (T (s p))‖ : ℂ) ^ 2 =
        ∑ q, ∑ r, (g (e q) : ℂ) * (ev (s q) * (starRingEnd ℂ) (ev (s r))) * (M q p * Mᴴ p r) := by
      intro p
      rw [← mul_conj', h3, map_sum, map_sum, Finset.sum_mul_sum, Finset.mul_sum]
      refine Finset.sum_congr rfl fun q _ => ?_
      rw [Finset.mul_sum]
      refine Finset.sum_congr rfl fun r _ => ?_
      by_cases hq : e q = e p
      · rw [hq, map_smul, map_smul, smul_eq_mul, smul_eq_mul, map_mul, conjTranspose_apply, star_def]
        ring
      · rw [map_smul, h2 q p hq]
        simp
    simp only [h5]
    rw [Finset.sum_comm]
    refine Finset.sum_congr rfl fun q _ => ?_
    rw [Finset.sum_comm]
    simp only [← Finset.mul_sum, ← Matrix.mul_apply, h1]
    rw [Finset.sum_eq_single q (fun r _ hr => by rw [Matrix.one_apply_ne hr.symm, mul_zero]) fun h => absurd (Finset.mem_univ q) h,
      Matrix.one_apply_eq, mul_one, mul_conj']
  exact_mod_cast h4

/-- leaving out components along functions, without parting equal numbers, and applying the map may be exchanged. -/
theorem Symmetry.project (hT : Symmetry V inner R T σ) (h : BestConcentrated V inner R s e) (hV : LinearOn V inner) (K : Finset (Fin n))
    (hK : ∀ p ∈ K, ∀ q, q ∉ K → e q ≠ e p) (f : X) (hf : f ∈ V) :
    ∑ q ∈ K, inner (T f) (s q) • s q = T (∑ p ∈ K, inner f (s p) • s p) := by
  classical
  obtain ⟨M, -, -, h2, h3⟩ := hT.image h hV
  have h0 : σ 0 = 0 := norm_eq_zero.1 (by rw [hT.norm, norm_zero])
  have hin : ∀ q, inner (T f) (s q) = ∑ p, σ (inner f (s p)) * M q p := by
    intro q
    conv_lhs => rw [h.expand f hf]
    rw [hT.lin, hV.lin _ _ _ (fun p => hT.mem _ (h.mem p)) (h.mem q)]
    refine Finset.sum_congr rfl fun p _ => ?_
    congr 1
    rw [h3 p, hV.lin _ _ _ h.mem (h.mem q), Finset.sum_eq_single q]
    · rw [h.orthonormal, if_pos rfl, mul_one]
    · intro r _ hr
      rw [h.orthonormal, if_neg hr, mul_zero]
    · intro h; exact absurd (Finset.mem_univ q) h
  have hr : ∑ p ∈ K, inner f (s p) • s p = ∑ p, (if p ∈ K then inner f (s p) else 0) • s p := by
    simp only [ite_smul, zero_smul, Finset.sum_ite_mem, Finset.univ_inter]
  rw [hr, hT.lin]
  have hl : ∑ p, σ (if p ∈ K then inner f (s p) else 0) • T (s p) = ∑ p ∈ K, σ (inner f (s p)) • T (s p) := by
    have : ∀ p, σ (if p ∈ K then inner f (s p) else 0) • T (s p) = if p ∈ K then σ (inner f (s p)) • T (s p) else 0 := by
      intro p
      split
      · rfl
      · rw [h0, zero_smul]
    simp only [this, Finset.sum_ite_mem, Finset.univ_inter]
  rw [hl]
  have hk : ∀ p ∈ K, T (s p) = ∑ q ∈ K, M q p • s q := by
    intro p hp
    rw [h3 p]
    refine (Finset.sum_subset (Finset.subset_univ K) fun q _ hq => ?_).symm
    rw [h2 q p (hK p hp q hq), zero_smul]
  have hc : ∑ p ∈ K, σ (inner f (s p)) • T (s p) = ∑ q ∈ K, ∑ p ∈ K, σ (inner f (s p)) • M q p • s q := by
    rw [Finset.sum_comm]
    refine Finset.sum_congr rfl fun p hp => ?_
    rw [hk p hp, Finset.smul_sum]
  rw [hc]
  refine Finset.sum_congr rfl fun q hq => ?_
  rw [hin, ← Finset.sum_subset (Finset.subset_univ K), Finset.sum_smul]
  · simp only [mul_smul]
  · intro p _ hp
    rw [h2 q p (hK q hq p hp).symm, mul_zero]

end Sleplet
