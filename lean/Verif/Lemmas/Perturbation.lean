import Mathlib.LinearAlgebra.Matrix.NonsingularInverse
import Mathlib.LinearAlgebra.Matrix.ConjTranspose
import Mathlib.Algebra.Order.Chebyshev
import Verif.Lemmas.BestConcentrated
import Verif.Lemmas.CompareConcentration

/-! Two concentration problems for the same fields that differ little. -/
namespace Sleplet

open Spec

section forms

variable {𝕜 : Type*} [RCLike 𝕜] {n : ℕ}

/-- orthonormal rows have orthonormal columns. -/
theorem columns_of_rows (S : Fin n → Fin n → 𝕜)
    (horth : ∀ p q, ∑ i, S p i * (starRingEnd 𝕜) (S q i) = if p = q then 1 else 0) (r c : Fin n) :
    ∑ p, (starRingEnd 𝕜) (S p r) * S p c = if r = c then (1 : 𝕜) else 0 := by
  have h1 : (Matrix.of S) * (Matrix.of S).conjTranspose = 1 := by
    ext p q
    rw [Matrix.mul_apply, Matrix.one_apply]
    exact horth p q
  have h2 := mul_eq_one_comm.1 h1
  have h3 := congrFun (congrFun h2 r) c
  rw [Matrix.mul_apply, Matrix.one_apply] at h3
  exact h3

theorem expand_rows (S : Fin n → Fin n → 𝕜)
    (horth : ∀ p q, ∑ i, S p i * (starRingEnd 𝕜) (S q i) = if p = q then 1 else 0) (a : Fin n → 𝕜) (c : Fin n) :
    a c = ∑ p, (∑ i, a i * (starRingEnd 𝕜) (S p i)) * S p c := by
  simp only [Finset.sum_mul, mul_assoc]
  rw [Finset.sum_comm]
  simp only [← Finset.mul_sum, columns_of_rows S horth, mul_ite, mul_one, mul_zero, Finset.sum_ite_eq', Finset.mem_univ, if_true]

/-- the quadratic form of a matrix, in terms of its eigenvectors. -/
theorem quad_form (D S : Fin n → Fin n → 𝕜) (e : Fin n → ℝ)
    (heig : ∀ p r, ∑ c, (starRingEnd 𝕜) (D r c) * S p c = e p * S p r)
    (horth : ∀ p q, ∑ i, S p i * (starRingEnd 𝕜) (S q i) = if p = q then 1 else 0) (a : Fin n → 𝕜) :
    ((∑ p, e p * ‖∑ i, a i * (starRingEnd 𝕜) (S p i)‖ ^ 2 : ℝ) : 𝕜) =
      ∑ r, (starRingEnd 𝕜) (a r) * ∑ c, (starRingEnd 𝕜) (D r c) * a c := by
  have hexp := expand_rows S horth a
  have hD : ∀ r, ∑ c, (starRingEnd 𝕜) (D r c) * a c = ∑ p, (∑ i, a i * (starRingEnd 𝕜) (S p i)) * (e p * S p r) := by
    intro r
    calc ∑ c, (starRingEnd 𝕜) (D r c) * a c
        = ∑ c, ∑ p, (∑ i, a i * (starRingEnd 𝕜) (S p i)) * ((starRingEnd 𝕜) (D r c) * S p c) := by
          refine Finset.sum_congr rfl fun c _ => ?_
          conv_lhs => rw [hexp c, Finset.mul_sum]
          exact Finset.sum_congr rfl fun p _ => by ring
      _ = _ := by
          rw [Finset.sum_comm]
          refine Finset.sum_congr rfl fun p _ => ?_
          rw [← Finset.mul_sum, heig p r]
  simp only [hD, Finset.mul_sum]
  rw [Finset.sum_comm]
  push_cast
  refine Finset.sum_congr rfl fun p _ => ?_
  have h1 : ∑ r, (starRingEnd 𝕜) (a r) * ((∑ i, a i * (starRingEnd 𝕜) (S p i)) * (e p * S p r)) =
      e p * ((∑ i, a i * (starRingEnd 𝕜) (S p i)) * (starRingEnd 𝕜) (∑ i, a i * (starRingEnd 𝕜) (S p i))) := by
    rw [map_sum, Finset.mul_sum, Finset.mul_sum]
    refine Finset.sum_congr rfl fun r _ => ?_
    rw [map_mul, RCLike.conj_conj]
    ring
  rw [h1, RCLike.mul_conj]

/-- quadratic forms of matrices whose entries differ by at most `ε`. -/
theorem near_forms (D D' S S' : Fin n → Fin n → 𝕜) (e e' : Fin n → ℝ)
    (heig : ∀ p r, ∑ c, (starRingEnd 𝕜) (D r c) * S p c = e p * S p r)
    (horth : ∀ p q, ∑ i, S p i * (starRingEnd 𝕜) (S q i) = if p = q then 1 else 0)
    (heig' : ∀ p r, ∑ c, (starRingEnd 𝕜) (D' r c) * S' p c = e' p * S' p r)
    (horth' : ∀ p q, ∑ i, S' p i * (starRingEnd 𝕜) (S' q i) = if p = q then 1 else 0)
    (ε : ℝ) (hε : ∀ r c, ‖D' r c - D r c‖ ≤ ε) (a : Fin n → 𝕜) :
    |∑ p, e' p * ‖∑ i, a i * (starRingEnd 𝕜) (S' p i)‖ ^ 2 - ∑ p, e p * ‖∑ i, a i * (starRingEnd 𝕜) (S p i)‖ ^ 2| ≤
      n * ε * ∑ i, ‖a i‖ ^ 2 := by
  have h1 := quad_form D S e heig horth a
  have h2 := quad_form D' S' e' heig' horth' a
  have h3 : ((∑ p, e' p * ‖∑ i, a i * (starRingEnd 𝕜) (S' p i)‖ ^ 2 - ∑ p, e p * ‖∑ i, a i * (starRingEnd 𝕜) (S p i)‖ ^ 2 : ℝ) : 𝕜) =
      ∑ r, ∑ c, (starRingEnd 𝕜) (a r) * ((starRingEnd 𝕜) (D' r c - D r c) * a c) := by
    rw [RCLike.ofReal_sub, h1, h2, ← Finset.sum_sub_distrib]
    refine Finset.sum_congr rfl fun r _ => ?_
    rw [← mul_sub, ← Finset.sum_sub_distrib, Finset.mul_sum]
    refine Finset.sum_congr rfl fun c _ => ?_
    rw [map_sub]
    ring
  rw [← RCLike.norm_ofReal (K := 𝕜), h3]
  have hcs : (∑ i, ‖a i‖) ^ 2 ≤ n * ∑ i, ‖a i‖ ^ 2 := by
    have := sq_sum_le_card_mul_sum_sq (s := (Finset.univ : Finset (Fin n))) (f := fun i => ‖a i‖)
    simpa using this
  have hb : ‖∑ r, ∑ c, (starRingEnd 𝕜) (a r) * ((starRingEnd 𝕜) (D' r c - D r c) * a c)‖ ≤ ε * (∑ i, ‖a i‖) ^ 2 := by
    rw [sq, Finset.sum_mul_sum, Finset.mul_sum]
    refine (norm_sum_le _ _).trans (Finset.sum_le_sum fun r _ => ?_)
    rw [Finset.mul_sum]
    refine (norm_sum_le _ _).trans (Finset.sum_le_sum fun c _ => ?_)
    rw [norm_mul, norm_mul, RCLike.norm_conj, RCLike.norm_conj]
    have := mul_le_mul_of_nonneg_right (hε r c) (mul_nonneg (norm_nonneg (a r)) (norm_nonneg (a c)))
    linarith
  rcases Nat.eq_zero_or_pos n with rfl | hn
  · simp
  · have h0 : 0 ≤ ε := (norm_nonneg _).trans (hε ⟨0, hn⟩ ⟨0, hn⟩)
    have := mul_le_mul_of_nonneg_left hcs h0
    linarith

/-- the energy of a vector is that of its components along orthonormal rows. -/
theorem energy_rows (S : Fin n → Fin n → 𝕜)
    (horth : ∀ p q, ∑ i, S p i * (starRingEnd 𝕜) (S q i) = if p = q then 1 else 0) (a : Fin n → 𝕜) :
    ∑ p, ‖∑ i, a i * (starRingEnd 𝕜) (S p i)‖ ^ 2 = ∑ i, ‖a i‖ ^ 2 := by
  have h := quad_form (fun r c => if r = c then 1 else 0) S (fun _ => 1)
    (fun p r => by simp [apply_ite (starRingEnd 𝕜)]) horth a
  simp only [one_mul, apply_ite (starRingEnd 𝕜), map_one, map_zero, ite_mul, zero_mul, Finset.sum_ite_eq, Finset.mem_univ, if_true] at h
  have h2 : ∑ r, (starRingEnd 𝕜) (a r) * a r = ((∑ i, ‖a i‖ ^ 2 : ℝ) : 𝕜) := by
    push_cast
    exact Finset.sum_congr rfl fun r _ => RCLike.conj_mul _
  rw [h2] at h
  exact_mod_cast h

/-- components along the eigenvectors of one matrix of an eigenvector of another: they are small where the eigenvalues differ. -/
theorem residual_rows (D D' S S' : Fin n → Fin n → 𝕜) (e e' : Fin n → ℝ)
    (heig : ∀ p r, ∑ c, (starRingEnd 𝕜) (D r c) * S p c = e p * S p r)
    (horth : ∀ p q, ∑ i, S p i * (starRingEnd 𝕜) (S q i) = if p = q then 1 else 0)
    (heig' : ∀ p r, ∑ c, (starRingEnd 𝕜) (D' r c) * S' p c = e' p * S' p r)
    (horth' : ∀ p q, ∑ i, S' p i * (starRingEnd 𝕜) (S' q i) = if p = q then 1 else 0)
    (ε : ℝ) (hε : ∀ r c, ‖D' r c - D r c‖ ≤ ε) (q : Fin n) :
    ∑ p, (e' q - e p) ^ 2 * ‖∑ i, S' q i * (starRingEnd 𝕜) (S p i)‖ ^ 2 ≤ (n * ε) ^ 2 := by
  set T : Fin n → 𝕜 := fun p => ∑ i, S' q i * (starRingEnd 𝕜) (S p i) with hT
  set ρ : Fin n → 𝕜 := fun r => ∑ c, (starRingEnd 𝕜) (D' r c - D r c) * S' q c with hρ
  have hD : ∀ r, ∑ c, (starRingEnd 𝕜) (D r c) * S' q c = ∑ p, T p * (e p * S p r) := by
    intro r
    calc ∑ c, (starRingEnd 𝕜) (D r c) * S' q c
        = ∑ c, ∑ p, T p * ((starRingEnd 𝕜) (D r c) * S p c) := by
          refine Finset.sum_congr rfl fun c _ => ?_
          conv_lhs => rw [expand_rows S horth (S' q) c, Finset.mul_sum]
          exact Finset.sum_congr rfl fun p _ => by rw [hT]; ring
      _ = _ := by
          rw [Finset.sum_comm]
          refine Finset.sum_congr rfl fun p _ => ?_
          rw [← Finset.mul_sum, heig p r]
  have hc : ∀ p, ∑ r, ρ r * (starRingEnd 𝕜) (S p r) = ((e' q - e p : ℝ) : 𝕜) * T p := by
    intro p
    have h1 : ∀ r, ρ r = e' q * S' q r - ∑ p, T p * (e p * S p r) := by
      intro r
      rw [← hD, ← heig', hρ, ← Finset.sum_sub_distrib]
      exact Finset.sum_congr rfl fun c _ => by rw [map_sub]; ring
    have h2 : ∑ r, (∑ p', T p' * (e p' * S p' r)) * (starRingEnd 𝕜) (S p r) = T p * e p := by
      calc ∑ r, (∑ p', T p' * (e p' * S p' r)) * (starRingEnd 𝕜) (S p r)
          = ∑ p', (T p' * e p') * ∑ r, S p' r * (starRingEnd 𝕜) (S p r) := by
            simp only [Finset.sum_mul, Finset.mul_sum]
            rw [Finset.sum_comm]
            exact Finset.sum_congr rfl fun p' _ => Finset.sum_congr rfl fun r _ => by ring
        _ = _ := by
            simp only [horth, mul_ite, mul_one, mul_zero, Finset.sum_ite_eq', Finset.mem_univ, if_true]
    calc ∑ r, ρ r * (starRingEnd 𝕜) (S p r)
        = e' q * ∑ r, S' q r * (starRingEnd 𝕜) (S p r) - ∑ r, (∑ p', T p' * (e p' * S p' r)) * (starRingEnd 𝕜) (S p r) := by
          rw [Finset.mul_sum, ← Finset.sum_sub_distrib]
          exact Finset.sum_congr rfl fun r _ => by rw [h1]; ring
      _ = _ := by
          rw [h2, RCLike.ofReal_sub]
          ring
  have h1 := energy_rows S horth ρ
  simp only [hc, norm_mul, RCLike.norm_ofReal, mul_pow, sq_abs] at h1
  rw [h1]
  have hq : ∑ i, ‖S' q i‖ ^ 2 = 1 := by
    have := horth' q q
    rw [if_pos rfl] at this
    simp only [RCLike.mul_conj] at this
    exact_mod_cast this
  have hcs : (∑ i, ‖S' q i‖) ^ 2 ≤ n := by
    have := sq_sum_le_card_mul_sum_sq (s := (Finset.univ : Finset (Fin n))) (f := fun i => ‖S' q i‖)
    rw [hq] at this
    simpa using this
  have hb : ∀ r, ‖ρ r‖ ^ 2 ≤ ε ^ 2 * n := by
    intro r
    have h2 : ‖ρ r‖ ≤ ε * ∑ i, ‖S' q i‖ := by
      rw [hρ, Finset.mul_sum]
      refine (norm_sum_le _ _).trans (Finset.sum_le_sum fun c _ => ?_)
      rw [norm_mul, RCLike.norm_conj]
      exact mul_le_mul_of_nonneg_right (hε r c) (norm_nonneg _)
    refine (pow_le_pow_left₀ (norm_nonneg _) h2 2).trans ?_
    rw [mul_pow]
    exact mul_le_mul_of_nonneg_left hcs (sq_nonneg ε)
  refine (Finset.sum_le_sum fun r _ => hb r).trans (le_of_eq ?_)
  rw [Finset.sum_const, Finset.card_univ, Fintype.card_fin, nsmul_eq_mul]
  ring

/-- an eigenvector whose eigenvalue is apart from the others. -/
theorem separated_row (D D' S S' : Fin n → Fin n → 𝕜) (e e' : Fin n → ℝ)
    (heig : ∀ p r, ∑ c, (starRingEnd 𝕜) (D r c) * S p c = e p * S p r)
    (horth : ∀ p q, ∑ i, S p i * (starRingEnd 𝕜) (S q i) = if p = q then 1 else 0)
    (heig' : ∀ p r, ∑ c, (starRingEnd 𝕜) (D' r c) * S' p c = e' p * S' p r)
    (horth' : ∀ p q, ∑ i, S' p i * (starRingEnd 𝕜) (S' q i) = if p = q then 1 else 0)
    (ε : ℝ) (hε : ∀ r c, ‖D' r c - D r c‖ ≤ ε) (k : Fin n) (he : |e' k - e k| ≤ n * ε) (g : ℝ) (hg : n * ε ≤ g)
    (hgap : ∀ p, p ≠ k → g ≤ |e p - e k|) :
    (g - n * ε) ^ 2 * (1 - ‖∑ i, S' k i * (starRingEnd 𝕜) (S k i)‖ ^ 2) ≤ (n * ε) ^ 2 := by
  classical
  refine le_trans ?_ (residual_rows D D' S S' e e' heig horth heig' horth' ε hε k)
  have h1 := energy_rows S horth (S' k)
  have hq : ∑ i, ‖S' k i‖ ^ 2 = 1 := by
    have := horth' k k
    rw [if_pos rfl] at this
    simp only [RCLike.mul_conj] at this
    exact_mod_cast this
  rw [hq] at h1
  rw [← h1, ← Finset.add_sum_erase _ _ (Finset.mem_univ k), add_sub_cancel_left, Finset.mul_sum]
  rw [← Finset.add_sum_erase Finset.univ (fun p => (e' k - e p) ^ 2 * _) (Finset.mem_univ k)]
  refine le_add_of_nonneg_of_le (mul_nonneg (sq_nonneg _) (sq_nonneg _)) (Finset.sum_le_sum fun p hp => ?_)
  refine mul_le_mul_of_nonneg_right ?_ (sq_nonneg _)
  rw [← sq_abs (e' k - e p)]
  refine pow_le_pow_left₀ (sub_nonneg.2 hg) ?_ 2
  have h2 := hgap p (Finset.ne_of_mem_erase hp)
  have h3 : |e p - e k| ≤ |e' k - e p| + |e' k - e k| := by
    have := abs_sub_le (e p) (e' k) (e k)
    rwa [abs_sub_comm (e p) (e' k)] at this
  linarith

/-- the moduli of the components of a vector along two vectors of unit length that are nearly the same up to a factor. -/
theorem near_component (S S' : Fin n → Fin n → 𝕜)
    (horth : ∀ p q, ∑ i, S p i * (starRingEnd 𝕜) (S q i) = if p = q then 1 else 0)
    (horth' : ∀ p q, ∑ i, S' p i * (starRingEnd 𝕜) (S' q i) = if p = q then 1 else 0) (k : Fin n) (a : Fin n → 𝕜) :
    (‖∑ i, a i * (starRingEnd 𝕜) (S' k i)‖ - ‖∑ i, a i * (starRingEnd 𝕜) (S k i)‖) ^ 2 ≤
      2 * (1 - ‖∑ i, S' k i * (starRingEnd 𝕜) (S k i)‖ ^ 2) * ∑ i, ‖a i‖ ^ 2 := by
  classical
  set T : Fin n → 𝕜 := fun p => ∑ i, S' k i * (starRingEnd 𝕜) (S p i) with hT
  set F : Fin n → 𝕜 := fun p => ∑ i, a i * (starRingEnd 𝕜) (S p i) with hF
  have hTs : ∑ p, ‖T p‖ ^ 2 = 1 := by
    rw [hT, energy_rows S horth (S' k)]
    have := horth' k k
    rw [if_pos rfl] at this
    simp only [RCLike.mul_conj] at this
    exact_mod_cast this
  have hF' : ∑ i, a i * (starRingEnd 𝕜) (S' k i) = ∑ p, F p * (starRingEnd 𝕜) (T p) := by
    calc ∑ i, a i * (starRingEnd 𝕜) (S' k i) = ∑ i, ∑ p, F p * (S p i * (starRingEnd 𝕜) (S' k i)) := by
          refine Finset.sum_congr rfl fun i _ => ?_
          conv_lhs => rw [expand_rows S horth a i, Finset.sum_mul]
          exact Finset.sum_congr rfl fun p _ => by rw [hF, mul_assoc]
      _ = _ := by
          rw [Finset.sum_comm]
          refine Finset.sum_congr rfl fun p _ => ?_
          rw [← Finset.mul_sum, hT, map_sum]
          congr 1
          refine Finset.sum_congr rfl fun c _ => ?_
          rw [map_mul, RCLike.conj_conj, mul_comm]
  rw [hF', ← energy_rows S horth a]
  change (‖∑ p, F p * (starRingEnd 𝕜) (T p)‖ - ‖F k‖) ^ 2 ≤ 2 * (1 - ‖T k‖ ^ 2) * ∑ p, ‖F p‖ ^ 2
  rw [← Finset.add_sum_erase _ (fun p => F p * (starRingEnd 𝕜) (T p)) (Finset.mem_univ k), ← Finset.add_sum_erase _ (fun p => ‖F p‖ ^ 2) (Finset.mem_univ k)]
  rw [← Finset.add_sum_erase _ (fun p => ‖T p‖ ^ 2) (Finset.mem_univ k)] at hTs
  set b := ∑ p ∈ Finset.univ.erase k, F p * (starRingEnd 𝕜) (T p) with hb
  set y := ∑ p ∈ Finset.univ.erase k, ‖F p‖ ^ 2 with hy
  set t := ‖T k‖ with ht
  set x := ‖F k‖ with hx
  have hbn : ‖b‖ ^ 2 ≤ y * (1 - t ^ 2) := by
    have h1 : ‖b‖ ≤ ∑ p ∈ Finset.univ.erase k, ‖F p‖ * ‖T p‖ :=
      (norm_sum_le _ _).trans (le_of_eq (Finset.sum_congr rfl fun p _ => by rw [norm_mul, RCLike.norm_conj]))
    refine (pow_le_pow_left₀ (norm_nonneg _) h1 2).trans ?_
    have h2 := Finset.sum_mul_sq_le_sq_mul_sq (Finset.univ.erase k) (fun p => ‖F p‖) fun p => ‖T p‖
    have h3 : ∑ p ∈ Finset.univ.erase k, ‖T p‖ ^ 2 = 1 - t ^ 2 := by linarith
    rw [h3] at h2
    exact h2
  have ht0 : 0 ≤ t := norm_nonneg _
  have ht1 : t ≤ 1 := by
    have h4 : 0 ≤ ∑ p ∈ Finset.univ.erase k, ‖T p‖ ^ 2 := Finset.sum_nonneg fun p _ => sq_nonneg _
    nlinarith
  have hx0 : 0 ≤ x := norm_nonneg _
  have hy0 : 0 ≤ y := Finset.sum_nonneg fun p _ => sq_nonneg _
  have hd : |‖F k * (starRingEnd 𝕜) (T k) + b‖ - x| ≤ x * (1 - t) + ‖b‖ := by
    have hn : ‖F k * (starRingEnd 𝕜) (T k)‖ = x * t := by rw [norm_mul, RCLike.norm_conj]
    have u1 := norm_add_le (F k * (starRingEnd 𝕜) (T k)) b
    have u2 := norm_sub_le (F k * (starRingEnd 𝕜) (T k) + b) b
    rw [add_sub_cancel_right] at u2
    rw [hn] at u1 u2
    have hxt : x * t ≤ x := mul_le_of_le_one_right hx0 ht1
    rw [abs_le]
    constructor <;> nlinarith
  have hsq : (‖F k * (starRingEnd 𝕜) (T k) + b‖ - x) ^ 2 ≤ (x * (1 - t) + ‖b‖) ^ 2 := by
    rw [← sq_abs]
    exact pow_le_pow_left₀ (abs_nonneg _) hd 2
  refine hsq.trans ?_
  -- Cauchy–Schwarz for the two parts
  have hb0 := norm_nonneg b
  set z := ‖b‖
  have hcs : (x * (1 - t) + z) ^ 2 ≤ (x ^ 2 + y) * ((1 - t) ^ 2 + (1 - t ^ 2)) := by
    rcases eq_or_lt_of_le ht1 with h1 | h1
    · have hz : z = 0 := by
        rw [h1] at hbn
        have : z ^ 2 ≤ 0 := by linarith
        exact pow_eq_zero_iff (two_ne_zero) |>.1 (le_antisymm this (sq_nonneg z))
      rw [hz, h1]
      norm_num
    · have hpos : 0 < 1 - t ^ 2 := by nlinarith
      have h2 : 2 * (x * (1 - t) * z) * (1 - t ^ 2) ≤ (x * (1 - t ^ 2)) ^ 2 + ((1 - t) * z) ^ 2 := by
        nlinarith [sq_nonneg (x * (1 - t ^ 2) - (1 - t) * z)]
      have h3 : ((1 - t) * z) ^ 2 ≤ (1 - t) ^ 2 * y * (1 - t ^ 2) := by
        rw [mul_pow, mul_assoc]
        exact mul_le_mul_of_nonneg_left hbn (sq_nonneg _)
      have h4 : 2 * (x * (1 - t) * z) ≤ x ^ 2 * (1 - t ^ 2) + (1 - t) ^ 2 * y := by
        refine le_of_mul_le_mul_right ?_ hpos
        linarith [h2, h3, show (x * (1 - t ^ 2)) ^ 2 = x ^ 2 * (1 - t ^ 2) * (1 - t ^ 2) by ring]
      linarith [show (x * (1 - t) + z) ^ 2 = x ^ 2 * (1 - t) ^ 2 + 2 * (x * (1 - t) * z) + z ^ 2 by ring,
        show (x ^ 2 + y) * ((1 - t) ^ 2 + (1 - t ^ 2)) = x ^ 2 * (1 - t) ^ 2 + (x ^ 2 * (1 - t ^ 2) + (1 - t) ^ 2 * y) + y * (1 - t ^ 2) by ring]
  refine hcs.trans ?_
  rw [mul_comm]
  refine mul_le_mul_of_nonneg_right ?_ (by positivity)
  nlinarith

end forms

variable {𝕜 X : Type*} [RCLike 𝕜] [AddCommGroup X] [Module 𝕜 X]
variable {V : Set X} {inner : X → X → 𝕜} {R R' : X → ℝ} {n : ℕ} {s s' : Fin n → X} {e e' : Fin n → ℝ}

/-- numbers of two problems whose energies in the region differ by at most the part `d`. -/
theorem near_numbers (h : BestConcentrated V inner R s e) (h' : BestConcentrated V inner R' s' e') (hV : LinearOn V inner) (d : ℝ)
    (hR : ∀ f ∈ V, R f ≤ R' f + d * RCLike.re (inner f f)) (k : Fin n) : e k ≤ e' k + d := by
  obtain ⟨f, hm, hpos, hlow, hup⟩ := exists_between_numbers h h' hV hV LinearMap.id (fun f hf => ⟨hf, rfl⟩) k k.2 k.2
  have h1 := hR f hm
  have h2 : e k * RCLike.re (inner f f) ≤ (e' k + d) * RCLike.re (inner f f) := by
    rw [add_mul]
    exact hlow.trans (h1.trans (by simpa using hup))
  exact le_of_mul_le_mul_right h2 hpos

/-- fields of another problem that have nearly the greatest energy in the region together are nearly combinations of the first `N`. -/
theorem leading_near (h : BestConcentrated V inner R s e) (h' : BestConcentrated V inner R' s' e')
    (hsym : ∀ f ∈ V, ∀ g ∈ V, ‖inner f g‖ = ‖inner g f‖) (N : ℕ) (g : ℝ)
    (hgap : ∀ p q : Fin n, p.val < N → N ≤ q.val → g ≤ e p - e q) :
    g * ∑ q : Fin n with q.val < N, ∑ p : Fin n with N ≤ p.val, ‖inner (s' q) (s p)‖ ^ 2 ≤ ∑ q : Fin n with q.val < N, (e q - R (s' q)) := by
  classical
  rcases Nat.lt_or_ge N n with hNn | hNn
  swap
  · have hall : (Finset.univ.filter fun q : Fin n => q.val < N) = Finset.univ :=
      Finset.filter_true_of_mem fun q _ => by have := q.2; omega
    rw [hall]
    have h1 : ∑ q, R (s' q) = ∑ q, e q := by
      have : ∀ q, R (s' q) = ∑ p, e p * ‖inner (s' q) (s p)‖ ^ 2 := fun q => h.energyIn _ (h'.mem q)
      simp only [this]
      rw [Finset.sum_comm]
      refine Finset.sum_congr rfl fun p _ => ?_
      rw [← Finset.mul_sum]
      have h2 := h'.energy (s p) (h.mem p)
      rw [h.orthonormal, if_pos rfl, RCLike.one_re] at h2
      have h3 : ∑ q, ‖inner (s' q) (s p)‖ ^ 2 = 1 := by
        rw [h2]
        exact Finset.sum_congr rfl fun q _ => by rw [hsym _ (h'.mem q) _ (h.mem p)]
      rw [h3, mul_one]
    rw [Finset.sum_sub_distrib, h1, sub_self]
    simp [Finset.filter_eq_empty_iff.2 fun (p : Fin n) _ => show ¬ N ≤ p.val by have := p.2; omega]
  let w : Fin n → ℝ := fun p => ∑ q : Fin n with q.val < N, ‖inner (s' q) (s p)‖ ^ 2
  let χ : Fin n → ℝ := fun p => if p.val < N then 1 else 0
  have hw0 : ∀ p, 0 ≤ w p := fun p => Finset.sum_nonneg fun q _ => sq_nonneg _
  have hw1 : ∀ p, w p ≤ 1 := by
    intro p
    have h1 := h'.energy (s p) (h.mem p)
    rw [h.orthonormal, if_pos rfl, RCLike.one_re] at h1
    rw [h1]
    refine (Finset.sum_le_sum_of_subset_of_nonneg (Finset.filter_subset _ _) fun q _ _ => sq_nonneg _).trans (le_of_eq ?_)
    exact Finset.sum_congr rfl fun q _ => by rw [hsym _ (h'.mem q) _ (h.mem p)]
  have hsw : ∑ p, w p = ∑ p, χ p := by
    dsimp only [w, χ]
    rw [Finset.sum_comm, ← Finset.sum_filter]
    refine Finset.sum_congr rfl fun q _ => ?_
    rw [← h.energy _ (h'.mem q), h'.orthonormal, if_pos rfl, RCLike.one_re]
  have hsew : ∑ p, e p * w p = ∑ q : Fin n with q.val < N, R (s' q) := by
    dsimp only [w]
    simp only [Finset.mul_sum]
    rw [Finset.sum_comm]
    exact Finset.sum_congr rfl fun q _ => (h.energyIn _ (h'.mem q)).symm
  have hse : ∑ p, e p * χ p = ∑ q : Fin n with q.val < N, e q := by
    dsimp only [χ]
    rw [Finset.sum_filter]
    exact Finset.sum_congr rfl fun q _ => by split <;> simp
  have hleft : ∑ q : Fin n with q.val < N, ∑ p : Fin n with N ≤ p.val, ‖inner (s' q) (s p)‖ ^ 2 = ∑ p : Fin n with N ≤ p.val, w p := by
    dsimp only [w]
    rw [Finset.sum_comm]
  set c := e ⟨N, hNn⟩ with hc
  have hle : ∀ p : Fin n, N ≤ p.val → e p ≤ c := fun p hp => h.antitone (by rw [Fin.le_def]; exact hp)
  have hlt : ∀ p : Fin n, p.val < N → g + c ≤ e p := fun p hp => by
    have := hgap p ⟨N, hNn⟩ hp le_rfl
    linarith
  -- the part outside equals what the first `N` miss
  have hmiss : ∑ p : Fin n with N ≤ p.val, w p = ∑ p : Fin n with p.val < N, (1 - w p) := by
    have h1 : ∑ p, (χ p - w p) = 0 := by rw [Finset.sum_sub_distrib, hsw, sub_self]
    rw [← Finset.sum_filter_add_sum_filter_not Finset.univ fun p : Fin n => p.val < N] at h1
    have h2 : ∑ p : Fin n with p.val < N, (χ p - w p) = ∑ p : Fin n with p.val < N, (1 - w p) :=
      Finset.sum_congr rfl fun p hp => by
        dsimp only [χ]
        rw [if_pos (Finset.mem_filter.1 hp).2]
    have h3 : ∑ p : Fin n with ¬ p.val < N, (χ p - w p) = - ∑ p : Fin n with N ≤ p.val, w p := by
      rw [← Finset.sum_neg_distrib]
      simp only [not_lt]
      refine Finset.sum_congr rfl fun p hp => ?_
      have hp' : ¬ p.val < N := not_lt.2 (Finset.mem_filter.1 hp).2
      dsimp only [χ]
      rw [if_neg hp', zero_sub]
    rw [h2, h3] at h1
    linarith
  rw [hleft, Finset.sum_sub_distrib, ← hse, ← hsew, ← Finset.sum_sub_distrib]
  have hshift : ∑ p, (e p * χ p - e p * w p) = ∑ p, (e p - c) * (χ p - w p) := by
    have : ∀ p, (e p - c) * (χ p - w p) = (e p * χ p - e p * w p) - c * (χ p - w p) := fun p => by ring
    simp only [this]
    rw [Finset.sum_sub_distrib (f := fun p => e p * χ p - e p * w p), ← Finset.mul_sum, Finset.sum_sub_distrib (f := χ), hsw, sub_self, mul_zero,
      sub_zero]
  rw [hshift, ← Finset.sum_filter_add_sum_filter_not Finset.univ fun p : Fin n => p.val < N]
  have hA : g * ∑ p : Fin n with N ≤ p.val, w p ≤ ∑ p : Fin n with p.val < N, (e p - c) * (χ p - w p) := by
    rw [hmiss, Finset.mul_sum]
    refine Finset.sum_le_sum fun p hp => ?_
    have hp' := (Finset.mem_filter.1 hp).2
    dsimp only [χ]
    rw [if_pos hp']
    exact mul_le_mul_of_nonneg_right (by have := hlt p hp'; linarith) (sub_nonneg.2 (hw1 p))
  have hB : 0 ≤ ∑ p : Fin n with ¬ p.val < N, (e p - c) * (χ p - w p) := by
    refine Finset.sum_nonneg fun p hp => ?_
    have hp' := (Finset.mem_filter.1 hp).2
    dsimp only [χ]
    rw [if_neg hp']
    exact mul_nonneg_of_nonpos_of_nonpos (sub_nonpos.2 (hle p (by omega))) (by simpa using hw0 p)
  linarith

/-- solutions of two problems that differ by at most the part `d`. -/
theorem near_solutions (h : BestConcentrated V inner R s e) (h' : BestConcentrated V inner R' s' e') (hV : LinearOn V inner)
    (hsym : ∀ f ∈ V, ∀ g ∈ V, ‖inner f g‖ = ‖inner g f‖) (d : ℝ) (hR : ∀ f ∈ V, |R' f - R f| ≤ d * RCLike.re (inner f f)) :
    (∀ k, |e' k - e k| ≤ d) ∧ (∀ k, |R (s' k) - e' k| ≤ d) ∧
    ∀ (N : ℕ) (g : ℝ), N ≤ n → (∀ p q : Fin n, p.val < N → N ≤ q.val → g ≤ e p - e q) →
      g * ∑ q : Fin n with q.val < N, ∑ p : Fin n with N ≤ p.val, ‖inner (s' q) (s p)‖ ^ 2 ≤ 2 * N * d := by
  have h1 : ∀ k, |e' k - e k| ≤ d := by
    intro k
    have a := near_numbers h h' hV d (fun f hf => by have := (abs_le.1 (hR f hf)).1; linarith) k
    have b := near_numbers h' h hV d (fun f hf => by have := (abs_le.1 (hR f hf)).2; linarith) k
    rw [abs_le]
    constructor <;> linarith
  have h2 : ∀ k, |R (s' k) - e' k| ≤ d := by
    intro k
    have := hR _ (h'.mem k)
    rw [h'.attained, h'.orthonormal, if_pos rfl, RCLike.one_re, mul_one, abs_sub_comm] at this
    exact this
  refine ⟨h1, h2, fun N g hN hgap => (leading_near h h' hsym N g hgap).trans ?_⟩
  have : ∀ q : Fin n, e q - R (s' q) ≤ 2 * d := fun q => by
    have a := (abs_le.1 (h1 q)).1
    have b := (abs_le.1 (h2 q)).1
    linarith
  refine (Finset.sum_le_sum fun q _ => this q).trans (le_of_eq ?_)
  rw [Finset.sum_const, nsmul_eq_mul]
  have hcard : (Finset.univ.filter fun q : Fin n => q.val < N).card = N := by
    rw [Fin.card_filter_val_lt, min_eq_right hN]
  rw [hcard]
  ring

/-- the functions of a matrix whose entries differ by at most `ε` from those of the exact one, for an orthonormal basis `y`. -/
theorem matrix_errors (y : Fin n → X) (hmem : ∀ f, f ∈ V ↔ ∃ a : Fin n → 𝕜, f = ∑ i, a i • y i)
    (hin : ∀ a b : Fin n → 𝕜, inner (∑ i, a i • y i) (∑ i, b i • y i) = ∑ i, a i * (starRingEnd 𝕜) (b i)) (hV : LinearOn V inner)
    (D D' S S' : Fin n → Fin n → 𝕜) (h : BestConcentrated V inner R (fun p => ∑ i, S p i • y i) e)
    (heig : ∀ p r, ∑ c, (starRingEnd 𝕜) (D r c) * S p c = e p * S p r)
    (horth : ∀ p q, ∑ i, S p i * (starRingEnd 𝕜) (S q i) = if p = q then 1 else 0)
    (heig' : ∀ p r, ∑ c, (starRingEnd 𝕜) (D' r c) * S' p c = e' p * S' p r)
    (horth' : ∀ p q, ∑ i, S' p i * (starRingEnd 𝕜) (S' q i) = if p = q then 1 else 0) (he' : Antitone e')
    (ε : ℝ) (hε : ∀ r c, ‖D' r c - D r c‖ ≤ ε) :
    (∀ p q, inner (∑ i, S' p i • y i) (∑ i, S' q i • y i) = if p = q then 1 else 0) ∧
    (∀ k, |e' k - e k| ≤ n * ε) ∧ (∀ k, |R (∑ i, S' k i • y i) - e' k| ≤ n * ε) ∧
    (∀ (N : ℕ) (g : ℝ), N ≤ n → (∀ p q : Fin n, p.val < N → N ≤ q.val → g ≤ e p - e q) →
      g * ∑ q : Fin n with q.val < N, ∑ p : Fin n with N ≤ p.val, ‖inner (∑ i, S' q i • y i) (∑ i, S p i • y i)‖ ^ 2 ≤ 2 * N * (n * ε)) ∧
    (∀ (N : ℕ) (g : ℝ), N ≤ n → n * ε ≤ g → (∀ p q : Fin n, p.val < N → N ≤ q.val → g ≤ e p - e q) →
      (g - n * ε) ^ 2 * ∑ q : Fin n with q.val < N, ∑ p : Fin n with N ≤ p.val, ‖inner (∑ i, S' q i • y i) (∑ i, S p i • y i)‖ ^ 2 ≤
        N * (n * ε) ^ 2) ∧
    ∀ (k : Fin n) (g : ℝ), n * ε ≤ g → (∀ p, p ≠ k → g ≤ |e p - e k|) →
      (g - n * ε) ^ 2 * (1 - ‖inner (∑ i, S' k i • y i) (∑ i, S k i • y i)‖ ^ 2) ≤ (n * ε) ^ 2 ∧
      ∀ f ∈ V, (g - n * ε) ^ 2 * (‖inner f (∑ i, S' k i • y i)‖ - ‖inner f (∑ i, S k i • y i)‖) ^ 2 ≤ 2 * (n * ε) ^ 2 * RCLike.re (inner f f) := by
  let R' : X → ℝ := fun f => ∑ p, e' p * ‖inner f (∑ i, S' p i • y i)‖ ^ 2
  have hcomb : ∀ a : Fin n → 𝕜, ∑ p, a p • ∑ i, S' p i • y i = ∑ i, (∑ p, a p * S' p i) • y i := by
    intro a
    simp only [Finset.smul_sum, Finset.sum_smul, smul_smul]
    rw [Finset.sum_comm]
  have hprod : ∀ a b : Fin n → 𝕜, ∑ i, (∑ p, a p * S' p i) * (starRingEnd 𝕜) (∑ p, b p * S' p i) = ∑ p, a p * (starRingEnd 𝕜) (b p) := by
    intro a b
    calc ∑ i, (∑ p, a p * S' p i) * (starRingEnd 𝕜) (∑ p, b p * S' p i)
        = ∑ i, ∑ p, ∑ q, (a p * (starRingEnd 𝕜) (b q)) * (S' p i * (starRingEnd 𝕜) (S' q i)) := by
          refine Finset.sum_congr rfl fun i _ => ?_
          rw [map_sum, Finset.sum_mul_sum]
          refine Finset.sum_congr rfl fun p _ => Finset.sum_congr rfl fun q _ => ?_
          rw [map_mul]
          ring
      _ = ∑ p, ∑ q, (a p * (starRingEnd 𝕜) (b q)) * ∑ i, S' p i * (starRingEnd 𝕜) (S' q i) := by
          rw [Finset.sum_comm]
          refine Finset.sum_congr rfl fun p _ => ?_
          rw [Finset.sum_comm]
          exact Finset.sum_congr rfl fun q _ => by rw [Finset.mul_sum]
      _ = _ := by
          simp only [horth', mul_ite, mul_one, mul_zero, Finset.sum_ite_eq, Finset.mem_univ, if_true]
  have h' : BestConcentrated V inner R' (fun p => ∑ i, S' p i • y i) e' := by
    refine bestConcentrated _ _ _ _ e' he' (fun f => ?_) (fun a b => ?_) (fun a => ?_)
    · rw [hmem]
      constructor
      · rintro ⟨a, rfl⟩
        refine ⟨fun p => ∑ i, a i * (starRingEnd 𝕜) (S' p i), ?_⟩
        rw [hcomb]
        exact Finset.sum_congr rfl fun c _ => by rw [← expand_rows S' horth' a c]
      · rintro ⟨a, rfl⟩
        exact ⟨_, hcomb a⟩
    · rw [hcomb, hcomb, hin, hprod]
    · dsimp only [R']
      refine Finset.sum_congr rfl fun p _ => ?_
      have h1 := hprod a fun q => if q = p then 1 else 0
      simp only [ite_mul, one_mul, zero_mul, Finset.sum_ite_eq', Finset.mem_univ, if_true, apply_ite (starRingEnd 𝕜), map_one, map_zero, mul_ite,
        mul_one, mul_zero] at h1
      rw [hcomb, hin, h1]
  have hsym : ∀ f ∈ V, ∀ g ∈ V, ‖inner f g‖ = ‖inner g f‖ := by
    intro f hf g hg
    obtain ⟨a, rfl⟩ := (hmem f).1 hf
    obtain ⟨b, rfl⟩ := (hmem g).1 hg
    rw [hin, hin, ← RCLike.norm_conj, map_sum]
    congr 1
    refine Finset.sum_congr rfl fun i _ => ?_
    rw [map_mul, RCLike.conj_conj, mul_comm]
  have hR : ∀ f ∈ V, |R' f - R f| ≤ n * ε * RCLike.re (inner f f) := by
    intro f hf
    rw [h.energyIn f hf]
    obtain ⟨a, rfl⟩ := (hmem f).1 hf
    have := near_forms D D' S S' e e' heig horth heig' horth' ε hε a
    dsimp only [R']
    simp only [hin]
    have h2 : RCLike.re (∑ i, a i * (starRingEnd 𝕜) (a i)) = ∑ i, ‖a i‖ ^ 2 := by
      rw [map_sum]
      refine Finset.sum_congr rfl fun i _ => ?_
      rw [RCLike.mul_conj]
      norm_cast
    rw [h2]
    exact this
  obtain ⟨h1, h2, h3⟩ := near_solutions h h' hV hsym _ hR
  refine ⟨h'.orthonormal, h1, h2, h3, fun N g hN hg hgap => ?_, fun k g hg hgap => ?_⟩
  · simp only [hin]
    have hcard : (Finset.univ.filter fun q : Fin n => q.val < N).card = N := by
      rw [Fin.card_filter_val_lt, min_eq_right hN]
    rw [Finset.mul_sum]
    refine (Finset.sum_le_sum (g := fun _ => (n * ε) ^ 2) fun q hq => ?_).trans (le_of_eq (by rw [Finset.sum_const, hcard, nsmul_eq_mul]))
    refine le_trans ?_ (residual_rows D D' S S' e e' heig horth heig' horth' ε hε q)
    rw [Finset.mul_sum]
    refine le_trans ?_ (Finset.sum_le_sum_of_subset_of_nonneg (Finset.filter_subset (fun p : Fin n => N ≤ p.val) _)
      fun p _ _ => mul_nonneg (sq_nonneg _) (sq_nonneg _))
    refine Finset.sum_le_sum fun p hp => mul_le_mul_of_nonneg_right ?_ (sq_nonneg _)
    refine pow_le_pow_left₀ (sub_nonneg.2 hg) ?_ 2
    have a := hgap q p (Finset.mem_filter.1 hq).2 (Finset.mem_filter.1 hp).2
    have b := (abs_le.1 (h1 q)).1
    linarith
  · have hs := separated_row D D' S S' e e' heig horth heig' horth' ε hε k (h1 k) g hg hgap
    refine ⟨by rw [hin]; exact hs, fun f hf => ?_⟩
    obtain ⟨a, rfl⟩ := (hmem f).1 hf
    have hc := near_component S S' horth horth' k a
    have hf2 : RCLike.re (∑ i, a i * (starRingEnd 𝕜) (a i)) = ∑ i, ‖a i‖ ^ 2 := by
      rw [map_sum]
      refine Finset.sum_congr rfl fun i _ => ?_
      rw [RCLike.mul_conj]
      norm_cast
    simp only [hin, hf2]
    have h0 : 0 ≤ ∑ i, ‖a i‖ ^ 2 := Finset.sum_nonneg fun i _ => sq_nonneg _
    have u1 := mul_le_mul_of_nonneg_left hc (sq_nonneg (g - n * ε))
    have u2 := mul_le_mul_of_nonneg_right hs h0
    linarith

end Sleplet
