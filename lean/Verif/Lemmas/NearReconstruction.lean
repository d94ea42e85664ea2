import Verif.Lemmas.Perturbation

/-! Sums of components along the first rows of two orthonormal families. -/
namespace Sleplet

variable {𝕜 : Type*} [RCLike 𝕜] {n : ℕ}

/-- the sum of the components of a vector along the first `N` rows. -/
def firstPart (S : Fin n → Fin n → 𝕜) (N : ℕ) (a : Fin n → 𝕜) (c : Fin n) : 𝕜 :=
  ∑ p : Fin n with p.val < N, (∑ i, a i * (starRingEnd 𝕜) (S p i)) * S p c

private theorem cs_norm (s : Finset (Fin n)) (f g : Fin n → 𝕜) :
    ‖∑ p ∈ s, f p * (starRingEnd 𝕜) (g p)‖ ^ 2 ≤ (∑ p ∈ s, ‖f p‖ ^ 2) * ∑ p ∈ s, ‖g p‖ ^ 2 := by
  have h1 : ‖∑ p ∈ s, f p * (starRingEnd 𝕜) (g p)‖ ≤ ∑ p ∈ s, ‖f p‖ * ‖g p‖ :=
    (norm_sum_le _ _).trans (le_of_eq (Finset.sum_congr rfl fun p _ => by rw [norm_mul, RCLike.norm_conj]))
  refine (pow_le_pow_left₀ (norm_nonneg _) h1 2).trans ?_
  exact Finset.sum_mul_sq_le_sq_mul_sq s (fun p => ‖f p‖) fun p => ‖g p‖

/-- the two sums differ by at most the part of the first rows of one family outside those of the other. -/
theorem first_parts_near (S S' : Fin n → Fin n → 𝕜)
    (horth : ∀ p q, ∑ i, S p i * (starRingEnd 𝕜) (S q i) = if p = q then 1 else 0)
    (horth' : ∀ p q, ∑ i, S' p i * (starRingEnd 𝕜) (S' q i) = if p = q then 1 else 0) (N : ℕ) (a : Fin n → 𝕜) :
    ∑ c, ‖firstPart S N a c - firstPart S' N a c‖ ^ 2 ≤
      (∑ q : Fin n with q.val < N, ∑ p : Fin n with N ≤ p.val, ‖∑ i, S' q i * (starRingEnd 𝕜) (S p i)‖ ^ 2) * ∑ i, ‖a i‖ ^ 2 := by
  classical
  set T : Fin n → Fin n → 𝕜 := fun q p => ∑ i, S' q i * (starRingEnd 𝕜) (S p i) with hT
  set F : Fin n → 𝕜 := fun p => ∑ i, a i * (starRingEnd 𝕜) (S p i) with hF
  have hTc : ∀ q p, ∑ c, S p c * (starRingEnd 𝕜) (S' q c) = (starRingEnd 𝕜) (T q p) := by
    intro q p
    rw [hT, map_sum]
    refine Finset.sum_congr rfl fun c _ => ?_
    rw [map_mul, RCLike.conj_conj, mul_comm]
  have hrow : ∀ q, ∑ p, ‖T q p‖ ^ 2 = 1 := by
    intro q
    rw [hT, energy_rows S horth (S' q)]
    have := horth' q q
    rw [if_pos rfl] at this
    simp only [RCLike.mul_conj] at this
    exact_mod_cast this
  have hcol : ∀ p, ∑ q, ‖T q p‖ ^ 2 = 1 := by
    intro p
    have h1 := energy_rows S' horth' (S p)
    simp only [hTc, RCLike.norm_conj] at h1
    rw [h1]
    have := horth p p
    rw [if_pos rfl] at this
    simp only [RCLike.mul_conj] at this
    exact_mod_cast this
  set w := ∑ q : Fin n with q.val < N, ∑ p : Fin n with N ≤ p.val, ‖T q p‖ ^ 2 with hw
  have hw2 : ∑ q : Fin n with N ≤ q.val, ∑ p : Fin n with p.val < N, ‖T q p‖ ^ 2 = w := by
    have hA : w + ∑ q : Fin n with q.val < N, ∑ p : Fin n with p.val < N, ‖T q p‖ ^ 2 = ∑ q : Fin n with q.val < N, (1 : ℝ) := by
      rw [hw, ← Finset.sum_add_distrib]
      refine Finset.sum_congr rfl fun q _ => ?_
      rw [← hrow q, ← Finset.sum_filter_add_sum_filter_not Finset.univ fun p : Fin n => p.val < N, add_comm]
      simp only [not_lt]
    have hB : (∑ q : Fin n with N ≤ q.val, ∑ p : Fin n with p.val < N, ‖T q p‖ ^ 2) +
        ∑ q : Fin n with q.val < N, ∑ p : Fin n with p.val < N, ‖T q p‖ ^ 2 = ∑ q : Fin n with q.val < N, (1 : ℝ) := by
      have h1 : ∑ q, ∑ p : Fin n with p.val < N, ‖T q p‖ ^ 2 = ∑ q : Fin n with q.val < N, (1 : ℝ) := by
        rw [Finset.sum_comm]
        exact Finset.sum_congr rfl fun p _ => hcol p
      rw [← h1, ← Finset.sum_filter_add_sum_filter_not Finset.univ fun q : Fin n => q.val < N, add_comm]
      simp only [not_lt]
    linarith
  have hF' : ∀ q, ∑ i, a i * (starRingEnd 𝕜) (S' q i) = ∑ p, F p * (starRingEnd 𝕜) (T q p) := by
    intro q
    calc ∑ i, a i * (starRingEnd 𝕜) (S' q i) = ∑ i, ∑ p, F p * (S p i * (starRingEnd 𝕜) (S' q i)) := by
          refine Finset.sum_congr rfl fun i _ => ?_
          conv_lhs => rw [expand_rows S horth a i, Finset.sum_mul]
          exact Finset.sum_congr rfl fun p _ => by rw [hF, mul_assoc]
      _ = _ := by
          rw [Finset.sum_comm]
          exact Finset.sum_congr rfl fun p _ => by rw [← Finset.mul_sum, hTc]
  have hP : ∀ q, ∑ c, firstPart S N a c * (starRingEnd 𝕜) (S' q c) = ∑ p : Fin n with p.val < N, F p * (starRingEnd 𝕜) (T q p) := by
    intro q
    simp only [firstPart, Finset.sum_mul]
    rw [Finset.sum_comm]
    refine Finset.sum_congr rfl fun p _ => ?_
    rw [← hTc, Finset.mul_sum]
    simp only [mul_assoc, hF, Finset.sum_mul]
  have hP' : ∀ q : Fin n, ∑ c, firstPart S' N a c * (starRingEnd 𝕜) (S' q c) = if q.val < N then ∑ p, F p * (starRingEnd 𝕜) (T q p) else 0 := by
    intro q
    rw [← hF']
    calc ∑ c, firstPart S' N a c * (starRingEnd 𝕜) (S' q c)
        = ∑ p : Fin n with p.val < N, (∑ i, a i * (starRingEnd 𝕜) (S' p i)) * ∑ c, S' p c * (starRingEnd 𝕜) (S' q c) := by
          simp only [firstPart]
          simp only [Finset.sum_mul (s := Finset.univ.filter _)]
          rw [Finset.sum_comm]
          exact Finset.sum_congr rfl fun p _ => by rw [Finset.mul_sum]; exact Finset.sum_congr rfl fun c _ => by ring
      _ = _ := by
          simp only [horth', mul_ite, mul_one, mul_zero]
          rw [Finset.sum_ite_eq']
          simp only [Finset.mem_filter, Finset.mem_univ, true_and]
  rw [← energy_rows S' horth', ← energy_rows S horth a]
  have hd : ∀ q : Fin n, ∑ c, (firstPart S N a c - firstPart S' N a c) * (starRingEnd 𝕜) (S' q c) =
      (∑ p : Fin n with p.val < N, F p * (starRingEnd 𝕜) (T q p)) - if q.val < N then ∑ p, F p * (starRingEnd 𝕜) (T q p) else 0 := by
    intro q
    rw [← hP, ← hP', ← Finset.sum_sub_distrib]
    exact Finset.sum_congr rfl fun c _ => by ring
  simp only [hd]
  have hsplit : ∀ q, ∑ p, F p * (starRingEnd 𝕜) (T q p) = (∑ p : Fin n with p.val < N, F p * (starRingEnd 𝕜) (T q p)) +
      ∑ p : Fin n with N ≤ p.val, F p * (starRingEnd 𝕜) (T q p) := by
    intro q
    rw [← Finset.sum_filter_add_sum_filter_not Finset.univ fun p : Fin n => p.val < N]
    simp only [not_lt]
  have hFs : ∑ p, ‖F p‖ ^ 2 = (∑ p : Fin n with p.val < N, ‖F p‖ ^ 2) + ∑ p : Fin n with N ≤ p.val, ‖F p‖ ^ 2 := by
    rw [← Finset.sum_filter_add_sum_filter_not Finset.univ fun p : Fin n => p.val < N]
    simp only [not_lt]
  rw [hFs, mul_add, ← Finset.sum_filter_add_sum_filter_not Finset.univ fun q : Fin n => q.val < N, add_comm]
  simp only [not_lt]
  refine add_le_add ?_ ?_
  · rw [← hw2, Finset.sum_mul]
    refine Finset.sum_le_sum fun q hq => ?_
    have hq' : ¬ q.val < N := not_lt.2 (Finset.mem_filter.1 hq).2
    rw [if_neg hq', sub_zero, mul_comm]
    exact cs_norm _ _ _
  · rw [hw, Finset.sum_mul]
    refine Finset.sum_le_sum fun q hq => ?_
    rw [if_pos (Finset.mem_filter.1 hq).2, hsplit, sub_add_cancel_left, norm_neg, mul_comm]
    exact cs_norm _ _ _

end Sleplet
