import Mathlib.Algebra.BigOperators.Ring.Finset
import Mathlib.Algebra.BigOperators.Intervals
import Mathlib.Data.Int.Interval
import Mathlib.Data.Nat.Choose.Vandermonde
import Mathlib.Tactic.FieldSimp
import Mathlib.Tactic.Linarith
import Verif.Lemmas.Wigner

/-!
The Racah sum as a function of the orders: recursion, vanishing and symmetry.
-/
namespace Sleplet.Gaunt

/-- `1 / n!`, zero for negative `n`. -/
noncomputable def invf (n : ℤ) : ℝ := if n < 0 then 0 else 1 / (n.toNat.factorial : ℝ)

theorem invf_neg {n : ℤ} (h : n < 0) : invf n = 0 := by simp [invf, h]

theorem invf_nat (n : ℕ) : invf n = 1 / (n.factorial : ℝ) := by simp [invf]

@[simp] theorem invf_zero : invf 0 = 1 := by simp [invf]

/-- the defining recursion, valid for every integer. -/
theorem mul_invf (n : ℤ) : (n : ℝ) * invf n = invf (n - 1) := by
  rcases lt_trichotomy n 0 with h | h | h
  · rw [invf_neg h, invf_neg (by omega), mul_zero]
  · subst h; simp [invf]
  · obtain ⟨k, rfl⟩ : ∃ k : ℕ, n = (k : ℤ) + 1 := ⟨(n - 1).toNat, by omega⟩
    have : ((k : ℤ) + 1) = ((k + 1 : ℕ) : ℤ) := by push_cast; ring
    rw [show ((k : ℤ) + 1 - 1) = (k : ℤ) by ring, this, invf_nat, invf_nat, Nat.factorial_succ]
    have h1 : ((k : ℝ) + 1) ≠ 0 := by positivity
    have h2 : (k.factorial : ℝ) ≠ 0 := by positivity
    push_cast
    field_simp

theorem mul_invf' {n : ℤ} {x : ℝ} (h : (n : ℝ) = x) : x * invf n = invf (n - 1) := by rw [← h, mul_invf]

/-- the summand. -/
noncomputable def rterm (k1 k2 k3 e f t : ℤ) : ℝ :=
  (-1 : ℝ) ^ t * (invf t * invf (k3 - t) * invf (e - t) * invf (k2 - e + t) * invf (f - t) * invf (k1 - f + t))

/-- the sum of Racah's formula without the square roots; `k₁ = l₂ + l₃ - l₁` and so on, `e = l₁ - m₁`, `f = l₂ + m₂`. -/
noncomputable def rsum (k1 k2 k3 e f : ℤ) : ℝ := ∑ t ∈ Finset.Icc 0 k3, rterm k1 k2 k3 e f t

theorem rterm_zero {k1 k2 k3 e f t : ℤ} (h : t < 0 ∨ k3 < t ∨ e < t ∨ t < e - k2 ∨ f < t ∨ t < f - k1) :
    rterm k1 k2 k3 e f t = 0 := by
  unfold rterm
  rcases h with h | h | h | h | h | h
  · rw [invf_neg h]; ring
  · rw [invf_neg (show k3 - t < 0 by omega)]; ring
  · rw [invf_neg (show e - t < 0 by omega)]; ring
  · rw [invf_neg (show k2 - e + t < 0 by omega)]; ring
  · rw [invf_neg (show f - t < 0 by omega)]; ring
  · rw [invf_neg (show k1 - f + t < 0 by omega)]; ring

theorem rsum_eq (k1 k2 k3 e f : ℤ) {a b : ℤ} (ha : a ≤ 0) (hb : k3 ≤ b) :
    rsum k1 k2 k3 e f = ∑ t ∈ Finset.Icc a b, rterm k1 k2 k3 e f t := by
  refine Finset.sum_subset (Finset.Icc_subset_Icc ha hb) fun t _ h => rterm_zero ?_
  rw [Finset.mem_Icc] at h; omega

theorem rsum_eq_zero {k1 k2 k3 e f : ℤ}
    (h : k1 < 0 ∨ k2 < 0 ∨ k3 < 0 ∨ e < 0 ∨ f < 0 ∨ k2 + k3 < e ∨ k1 + k3 < f ∨ k1 + e < f ∨ k2 + f < e) :
    rsum k1 k2 k3 e f = 0 := by
  refine Finset.sum_eq_zero fun t ht => rterm_zero ?_
  rw [Finset.mem_Icc] at ht; omega

theorem sum_Icc_shift (g : ℤ → ℝ) (a b : ℤ) : ∑ t ∈ Finset.Icc a b, g t = ∑ t ∈ Finset.Icc (a - 1) (b - 1), g (t + 1) := by
  refine Finset.sum_bij' (fun t _ => t - 1) (fun t _ => t + 1) ?_ ?_ ?_ ?_ ?_
  · intro t ht; rw [Finset.mem_Icc] at *; omega
  · intro t ht; rw [Finset.mem_Icc] at *; omega
  · intro t _; ring
  · intro t _; ring
  · intro t _; ring_nf

private theorem neg_one_succ (t : ℤ) : (-1 : ℝ) ^ (t + 1) = -(-1) ^ t := by rw [zpow_add_one₀ (by norm_num)]; ring

/-- the ladder recursion of the Racah sum. -/
theorem rsum_rec (k1 k2 k3 e f : ℤ) :
    ((k2 + k3 - e + 1 : ℤ) : ℝ) * rsum k1 k2 k3 (e - 1) f + ((f + 1 : ℤ) : ℝ) * rsum k1 k2 k3 e (f + 1)
      - ((k1 + e - f : ℤ) : ℝ) * rsum k1 k2 k3 e f = 0 := by
  have hX1 : ((k2 + k3 - e + 1 : ℤ) : ℝ) * rsum k1 k2 k3 (e - 1) f =
      rsum k1 k2 (k3 - 1) (e - 1) f + rsum k1 (k2 - 1) k3 (e - 1) f := by
    rw [rsum_eq k1 k2 (k3 - 1) (e - 1) f (le_refl 0) (show k3 - 1 ≤ k3 by omega)]
    unfold rsum
    rw [Finset.mul_sum, ← Finset.sum_add_distrib]
    refine Finset.sum_congr rfl fun t _ => ?_
    have h1 := mul_invf (k3 - t)
    have h2 := mul_invf (k2 - (e - 1) + t)
    have hs : ((k2 + k3 - e + 1 : ℤ) : ℝ) = ((k3 - t : ℤ) : ℝ) + ((k2 - (e - 1) + t : ℤ) : ℝ) := by push_cast; ring
    unfold rterm
    rw [hs, show k3 - 1 - t = k3 - t - 1 by ring, show k2 - 1 - (e - 1) + t = k2 - (e - 1) + t - 1 by ring, ← h1, ← h2]
    ring
  have hX2 : ((f + 1 : ℤ) : ℝ) * rsum k1 k2 k3 e (f + 1) =
      -rsum k1 k2 (k3 - 1) (e - 1) f + rsum (k1 - 1) k2 k3 e f := by
    have hsplit : ((f + 1 : ℤ) : ℝ) * rsum k1 k2 k3 e (f + 1) =
        ∑ t ∈ Finset.Icc 0 k3, ((-1 : ℝ) ^ t * (invf (t - 1) * invf (k3 - t) * invf (e - t) * invf (k2 - e + t) *
          invf (f + 1 - t) * invf (k1 - (f + 1) + t))) + rsum (k1 - 1) k2 k3 e f := by
      unfold rsum
      rw [Finset.mul_sum, ← Finset.sum_add_distrib]
      refine Finset.sum_congr rfl fun t _ => ?_
      have h1 := mul_invf t
      have h2 := mul_invf (f + 1 - t)
      have hs : ((f + 1 : ℤ) : ℝ) = (t : ℝ) + ((f + 1 - t : ℤ) : ℝ) := by push_cast; ring
      unfold rterm
      rw [hs, ← h1, show f - t = f + 1 - t - 1 by ring, ← h2, show k1 - 1 - f + t = k1 - (f + 1) + t by ring]
      ring
    rw [hsplit]
    congr 1
    rw [sum_Icc_shift, rsum_eq k1 k2 (k3 - 1) (e - 1) f (show (0 : ℤ) - 1 ≤ 0 by omega) (le_refl (k3 - 1)),
      ← Finset.sum_neg_distrib]
    refine Finset.sum_congr rfl fun t _ => ?_
    unfold rterm
    rw [neg_one_succ, show t + 1 - 1 = t by ring, show k3 - (t + 1) = k3 - 1 - t by ring,
      show e - (t + 1) = e - 1 - t by ring, show k2 - e + (t + 1) = k2 - (e - 1) + t by ring,
      show f + 1 - (t + 1) = f - t by ring, show k1 - (f + 1) + (t + 1) = k1 - f + t by ring]
    ring
  have hX3 : ((k1 + e - f : ℤ) : ℝ) * rsum k1 k2 k3 e f = rsum (k1 - 1) k2 k3 e f + rsum k1 (k2 - 1) k3 (e - 1) f := by
    unfold rsum
    rw [Finset.mul_sum, ← Finset.sum_add_distrib]
    refine Finset.sum_congr rfl fun t _ => ?_
    have h1 := mul_invf (k1 - f + t)
    have h2 := mul_invf (e - t)
    have hs : ((k1 + e - f : ℤ) : ℝ) = ((k1 - f + t : ℤ) : ℝ) + ((e - t : ℤ) : ℝ) := by push_cast; ring
    unfold rterm
    rw [hs, show k1 - 1 - f + t = k1 - f + t - 1 by ring, ← h1, show e - 1 - t = e - t - 1 by ring, ← h2,
      show k2 - 1 - (e - 1) + t = k2 - e + t by ring]
    ring
  rw [hX1, hX2, hX3]
  ring

/-- negating all orders. -/
theorem rsum_reflect (k1 k2 k3 e f : ℤ) : rsum k1 k2 k3 (k2 + k3 - e) (k1 + k3 - f) = (-1 : ℝ) ^ k3 * rsum k1 k2 k3 e f := by
  unfold rsum
  rw [Finset.mul_sum]
  refine Finset.sum_bij' (fun t _ => k3 - t) (fun t _ => k3 - t) ?_ ?_ ?_ ?_ ?_
  · intro t ht; rw [Finset.mem_Icc] at *; omega
  · intro t ht; rw [Finset.mem_Icc] at *; omega
  · intro t _; ring
  · intro t _; ring
  · intro t _
    unfold rterm
    have hsq : (-1 : ℝ) ^ k3 * (-1) ^ (k3 - t) = (-1) ^ t := by
      rw [← zpow_add₀ (by norm_num)]
      exact Wigner.neg_one_zpow_congr ⟨k3 - t, by ring⟩
    rw [← mul_assoc ((-1 : ℝ) ^ k3), hsq, show k3 - (k3 - t) = t by ring, show k2 + k3 - e - t = k2 - e + (k3 - t) by ring,
      show k2 - (k2 + k3 - e) + t = e - (k3 - t) by ring, show k1 + k3 - f - t = k1 - f + (k3 - t) by ring,
      show k1 - (k1 + k3 - f) + t = f - (k3 - t) by ring]
    ring

/-- The sum with its sign as a function of the first two orders (the third is minus their sum). -/
noncomputable def vec (l1 l2 l3 m1 m2 : ℤ) : ℝ :=
  (-1 : ℝ) ^ (-m1 - m2) * rsum (l2 + l3 - l1) (l1 + l3 - l2) (l1 + l2 - l3) (l1 - m1) (l2 + m2)

theorem vec_rec (l1 l2 l3 m1 m2 : ℤ) :
    ((l1 + m1 + 1 : ℤ) : ℝ) * vec l1 l2 l3 (m1 + 1) m2 + ((l2 + m2 + 1 : ℤ) : ℝ) * vec l1 l2 l3 m1 (m2 + 1)
      + ((l3 - m1 - m2 : ℤ) : ℝ) * vec l1 l2 l3 m1 m2 = 0 := by
  have h := rsum_rec (l2 + l3 - l1) (l1 + l3 - l2) (l1 + l2 - l3) (l1 - m1) (l2 + m2)
  rw [show l1 + l3 - l2 + (l1 + l2 - l3) - (l1 - m1) + 1 = l1 + m1 + 1 by ring,
    show l2 + l3 - l1 + (l1 - m1) - (l2 + m2) = l3 - m1 - m2 by ring] at h
  unfold vec
  rw [show l1 - (m1 + 1) = l1 - m1 - 1 by ring, show l2 + (m2 + 1) = l2 + m2 + 1 by ring,
    show -(m1 + 1) - m2 = -m1 - m2 - 1 by ring, show -m1 - (m2 + 1) = -m1 - m2 - 1 by ring]
  have hs : (-1 : ℝ) ^ (-m1 - m2) = -(-1) ^ (-m1 - m2 - 1) := by
    rw [← neg_one_succ]; congr 1; ring
  rw [hs]
  linear_combination (-1 : ℝ) ^ (-m1 - m2 - 1) * h

theorem vec_zero {l1 l2 l3 m1 m2 : ℤ} (h : l1 < |m1| ∨ l2 < |m2| ∨ l3 < |-m1 - m2|) : vec l1 l2 l3 m1 m2 = 0 := by
  unfold vec
  rw [rsum_eq_zero, mul_zero]
  simp only [lt_abs] at h
  omega

theorem vec_neg (l1 l2 l3 m1 m2 : ℤ) : vec l1 l2 l3 (-m1) (-m2) = (-1 : ℝ) ^ (l1 + l2 + l3) * vec l1 l2 l3 m1 m2 := by
  unfold vec
  have h := rsum_reflect (l2 + l3 - l1) (l1 + l3 - l2) (l1 + l2 - l3) (l1 - m1) (l2 + m2)
  rw [show l1 + l3 - l2 + (l1 + l2 - l3) - (l1 - m1) = l1 - -m1 by ring,
    show l2 + l3 - l1 + (l1 + l2 - l3) - (l2 + m2) = l2 + -m2 by ring] at h
  rw [h, ← mul_assoc, ← mul_assoc, ← zpow_add₀ (by norm_num), ← zpow_add₀ (by norm_num)]
  congr 1
  exact Wigner.neg_one_zpow_congr ⟨m1 + m2 - l3, by ring⟩

/-- Uniqueness: the ladder recursion leaves one free constant. -/
theorem ladder_unique (l1 l2 l3 : ℤ) (h1 : 0 ≤ l1) (H : ℤ → ℤ → ℝ)
    (hrec : ∀ m1 m2, ((l1 + m1 + 1 : ℤ) : ℝ) * H (m1 + 1) m2 + ((l2 + m2 + 1 : ℤ) : ℝ) * H m1 (m2 + 1)
      + ((l3 - m1 - m2 : ℤ) : ℝ) * H m1 m2 = 0)
    (hvan : ∀ m1 m2, l1 < |m1| ∨ l2 < |m2| ∨ l3 < |-m1 - m2| → H m1 m2 = 0)
    (hsym : ∀ m1 m2, H m1 m2 = 0 → H (-m1) (-m2) = 0) (href : H l1 (l3 - l1) = 0) (m1 m2 : ℤ) : H m1 m2 = 0 := by
  have htop : ∀ j : ℕ, H l1 (l3 - l1 - j) = 0 := by
    intro j
    induction j with
    | zero => simpa using href
    | succ j ih =>
      have h := hrec l1 (l3 - l1 - (j + 1 : ℕ))
      rw [hvan (l1 + 1) _ (Or.inl (by rw [abs_of_nonneg (by omega)]; omega)),
        show l3 - l1 - ((j + 1 : ℕ) : ℤ) + 1 = l3 - l1 - j by push_cast; ring, ih, mul_zero, mul_zero, zero_add, zero_add,
        mul_eq_zero] at h
      rcases h with h | h
      · exfalso
        have h' : l3 - l1 - (l3 - l1 - ((j + 1 : ℕ) : ℤ)) = 0 := by exact_mod_cast h
        push_cast at h'; omega
      · exact h
  have htop' : ∀ m2, H l1 m2 = 0 := by
    intro m2
    by_cases h : m2 ≤ l3 - l1
    · have := htop (l3 - l1 - m2).toNat
      rwa [Int.toNat_of_nonneg (by omega), show l3 - l1 - (l3 - l1 - m2) = m2 by ring] at this
    · refine hvan _ _ (Or.inr (Or.inr ?_))
      rw [lt_abs]; right; omega
  have hbot : ∀ j : ℕ, ∀ m2, H (-l1 + j) m2 = 0 := by
    intro j
    induction j with
    | zero =>
      intro m2
      have := hsym l1 (-m2) (htop' _)
      simpa using this
    | succ j ih =>
      intro m2
      have h := hrec (-l1 + j) m2
      rw [ih, ih, mul_zero, mul_zero, add_zero, add_zero, mul_eq_zero] at h
      rcases h with h | h
      · exfalso
        have h' : l1 + (-l1 + (j : ℤ)) + 1 = 0 := by exact_mod_cast h
        omega
      · rw [← h]; congr 1; push_cast; ring
  by_cases h : -l1 ≤ m1
  · have := hbot (m1 + l1).toNat m2
    rwa [Int.toNat_of_nonneg (by omega), show -l1 + (m1 + l1) = m1 by ring] at this
  · exact hvan _ _ (Or.inl (by rw [lt_abs]; right; omega))

end Sleplet.Gaunt
