import Verif.Lemmas.Legendre
import Verif.Lemmas.DMatrixReal

/-!
Gaunt's formula in terms of the 3j symbols that the program computes, and the Legendre series it gives.
-/
namespace Sleplet.Gaunt

open Polynomial Sleplet.Wigner Sleplet.RealMat

theorem invf_zf {n : ℤ} (h : 0 ≤ n) : invf n = 1 / zf n := invf_eq h

theorem term_eq (l1 l2 l3 m1 m2 t : ℤ) (h : 0 ≤ t ∧ l2 - l3 - m1 ≤ t ∧ l1 - l3 + m2 ≤ t ∧ t ≤ l1 + l2 - l3 ∧ t ≤ l1 - m1 ∧
      t ≤ l2 + m2) :
    term (l2 - l3 - m1) (l1 - l3 + m2) (l1 + l2 - l3) (l1 - m1) (l2 + m2) t =
      rterm (l2 + l3 - l1) (l1 + l3 - l2) (l1 + l2 - l3) (l1 - m1) (l2 + m2) t := by
  unfold term rterm
  rw [invf_zf (by omega), invf_zf (by omega), invf_zf (by omega), invf_zf (by omega), invf_zf (by omega), invf_zf (by omega)]
  rw [show l1 + l3 - l2 - (l1 - m1) + t = t - (l2 - l3 - m1) by ring, show l2 + l3 - l1 - (l2 + m2) + t = t - (l1 - l3 + m2) by ring]
  have := (zf_pos t).ne'
  have := (zf_pos (t - (l2 - l3 - m1))).ne'
  have := (zf_pos (t - (l1 - l3 + m2))).ne'
  have := (zf_pos (l1 + l2 - l3 - t)).ne'
  have := (zf_pos (l1 - m1 - t)).ne'
  have := (zf_pos (l2 + m2 - t)).ne'
  field_simp

theorem value_eq (l1 l2 l3 m1 m2 : ℤ) :
    value l1 l2 l3 m1 m2 (-m1 - m2) = (-1 : ℝ) ^ (l1 - l2) * vec l1 l2 l3 m1 m2 *
      Real.sqrt (zf (l1 + l2 - l3) * zf (l1 - l2 + l3) * zf (-l1 + l2 + l3) / zf (l1 + l2 + l3 + 1)) *
      Real.sqrt (zf (l1 + m1) * zf (l1 - m1) * zf (l2 + m2) * zf (l2 - m2) * zf (l3 + (-m1 - m2)) * zf (l3 - (-m1 - m2))) := by
  unfold value vec rsum
  have hs : (∑ t ∈ Finset.Icc (max 0 (max (l2 - l3 - m1) (l1 - l3 + m2))) (min (l1 + l2 - l3) (min (l1 - m1) (l2 + m2))),
      term (l2 - l3 - m1) (l1 - l3 + m2) (l1 + l2 - l3) (l1 - m1) (l2 + m2) t) =
      ∑ t ∈ Finset.Icc 0 (l1 + l2 - l3), rterm (l2 + l3 - l1) (l1 + l3 - l2) (l1 + l2 - l3) (l1 - m1) (l2 + m2) t := by
    refine Eq.trans (Finset.sum_congr rfl fun t ht => term_eq l1 l2 l3 m1 m2 t ?_) (Finset.sum_subset ?_ fun t _ ht => rterm_zero ?_)
    · simp only [Finset.mem_Icc, max_le_iff, le_min_iff] at ht; omega
    · intro t ht
      simp only [Finset.mem_Icc, max_le_iff, le_min_iff] at ht ⊢; omega
    · simp only [Finset.mem_Icc, max_le_iff, le_min_iff] at ht; omega
  rw [hs, neg_one_zpow_congr (a := l1 - l2 - (-m1 - m2)) (b := l1 - l2 + (-m1 - m2)) ⟨m1 + m2, by ring⟩, zpow_add₀ (by norm_num)]
  ring

theorem vec_eq_zero (l1 l2 l3 m1 m2 : ℤ) (h : l2 + l3 - l1 < 0 ∨ l1 + l3 - l2 < 0 ∨ l1 + l2 - l3 < 0) :
    vec l1 l2 l3 m1 m2 = 0 := by
  unfold vec
  rw [rsum_eq_zero (by omega), mul_zero]

theorem sqrt_ratio {a b : ℝ} (ha : 0 < a) (hb : 0 < b) : a = Real.sqrt (a * b) * Real.sqrt (a / b) := by
  rw [← Real.sqrt_mul (by positivity), show a * b * (a / b) = a ^ 2 by field_simp, Real.sqrt_sq ha.le]

/-- Gaunt's formula with the program's 3j symbols. -/
theorem triple_eq {l1 l2 l3 : ℕ} {m1 m2 : ℤ} (h1 : |m1| ≤ l1) (h2 : |m2| ≤ l2) (h3 : |-m1 - m2| ≤ l3) :
    triple l1 l2 l3 m1 m2 = 2 * (2 ^ (l1 + l2 + l3) * ((l1.factorial : ℝ) * l2.factorial * l3.factorial)) *
      (w3j l1 l2 l3 0 0 0 * w3j l1 l2 l3 m1 m2 (-m1 - m2)) *
      (Real.sqrt (zf (l1 + m1) / zf (l1 - m1)) * Real.sqrt (zf (l2 + m2) / zf (l2 - m2)) *
        Real.sqrt (zf (l3 + (-m1 - m2)) / zf (l3 - (-m1 - m2)))) := by
  have hT := tripleN_eq l1 l2 l3 m1 m2
  rw [abs_le] at h1 h2 h3
  unfold tripleN at hT
  rw [invf_zf (by omega), invf_zf (by omega), invf_zf (by omega)] at hT
  set A := zf (l1 + m1) with hA
  set A' := zf (l1 - m1) with hA'
  set B := zf (l2 + m2) with hB
  set B' := zf (l2 - m2) with hB'
  have pA : 0 < A := zf_pos _
  have pA' : 0 < A' := zf_pos _
  have pB : 0 < B := zf_pos _
  have pB' : 0 < B' := zf_pos _
  have hC : zf (l3 - m1 - m2) = zf (l3 + (-m1 - m2)) := by congr 1; ring
  rw [hC] at hT
  set C' := zf (l3 - (-m1 - m2)) with hC'
  set C0 := zf (l3 + (-m1 - m2)) with hC0
  have pC : 0 < C0 := zf_pos _
  have pC' : 0 < C' := zf_pos _
  have hT' : triple l1 l2 l3 m1 m2 = 2 * 2 ^ (l1 + l2 + l3) * ((l1.factorial : ℝ) * l2.factorial * l3.factorial) ^ 2 *
      delta l1 l2 l3 * vec l1 l2 l3 0 0 * vec l1 l2 l3 m1 m2 * (A * B * C0) := by
    rw [← hT]; field_simp
  rw [hT']
  by_cases hk : (l2 : ℤ) + l3 - l1 < 0 ∨ (l1 : ℤ) + l3 - l2 < 0 ∨ (l1 : ℤ) + l2 - l3 < 0
  · have hw : w3j l1 l2 l3 0 0 0 = 0 := by
      rw [w3j, if_neg]
      intro h
      have := h.linear
      omega
    rw [hw, vec_eq_zero _ _ _ 0 0 hk]; ring
  have a0 : Admissible l1 l2 l3 0 0 0 := admissible_of_linear (by omega)
  have am : Admissible l1 l2 l3 m1 m2 (-m1 - m2) := admissible_of_linear (by omega)
  have w0 : w3j l1 l2 l3 0 0 0 = value l1 l2 l3 0 0 (-0 - 0) := by
    rw [w3j, if_pos a0]; simp
  rw [w0, value_eq, w3j, if_pos am, value_eq]
  have hd : zf ((l1 : ℤ) + l2 - l3) * zf ((l1 : ℤ) - l2 + l3) * zf (-(l1 : ℤ) + l2 + l3) / zf ((l1 : ℤ) + l2 + l3 + 1) =
      delta l1 l2 l3 := by
    unfold delta zf
    rw [show (l1 : ℤ) - l2 + l3 = l1 + l3 - l2 by ring, show -(l1 : ℤ) + l2 + l3 = l2 + l3 - l1 by ring,
      show ((l1 : ℤ) + l2 + l3 + 1).toNat = l1 + l2 + l3 + 1 by omega]
    ring
  have hdp : 0 ≤ delta l1 l2 l3 := by unfold delta; positivity
  have hl : ∀ n : ℕ, zf (n : ℤ) = (n.factorial : ℝ) := fun n => by simp [zf]
  have hz : zf ((l1 : ℤ) + 0) * zf ((l1 : ℤ) - 0) * zf ((l2 : ℤ) + 0) * zf ((l2 : ℤ) - 0) * zf ((l3 : ℤ) + (-0 - 0)) *
      zf ((l3 : ℤ) - (-0 - 0)) = ((l1.factorial : ℝ) * l2.factorial * l3.factorial) ^ 2 := by
    simp only [neg_zero, sub_zero, add_zero, hl]; ring
  rw [hd, hz, Real.sqrt_sq (by positivity), ← hA, ← hA', ← hB, ← hB', ← hC0, ← hC']
  have hs : Real.sqrt (delta l1 l2 l3) * Real.sqrt (delta l1 l2 l3) = delta l1 l2 l3 := Real.mul_self_sqrt hdp
  have hsg : (-1 : ℝ) ^ ((l1 : ℤ) - l2) * (-1 : ℝ) ^ ((l1 : ℤ) - l2) = 1 := by
    rw [← mul_zpow]; simp
  have hr : Real.sqrt (A * A' * B * B' * C0 * C') * (Real.sqrt (A / A') * Real.sqrt (B / B') * Real.sqrt (C0 / C')) =
      A * B * C0 := by
    rw [show A * A' * B * B' * C0 * C' = (A * A') * (B * B') * (C0 * C') by ring, Real.sqrt_mul (by positivity),
      Real.sqrt_mul (by positivity)]
    have e1 := sqrt_ratio pA pA'
    have e2 := sqrt_ratio pB pB'
    have e3 := sqrt_ratio pC pC'
    conv_rhs => rw [e1, e2, e3]
    ring
  rw [← hr]
  set R := Real.sqrt (A * A' * B * B' * C0 * C') * (Real.sqrt (A / A') * Real.sqrt (B / B') * Real.sqrt (C0 / C')) with hR
  set F := (l1.factorial : ℝ) * l2.factorial * l3.factorial
  set sg := (-1 : ℝ) ^ ((l1 : ℤ) - l2)
  set sd := Real.sqrt (delta l1 l2 l3)
  have expand : 2 * (2 ^ (l1 + l2 + l3) * F) * (sg * vec l1 l2 l3 0 0 * sd * F *
      (sg * vec l1 l2 l3 m1 m2 * sd * Real.sqrt (A * A' * B * B' * C0 * C'))) *
      (Real.sqrt (A / A') * Real.sqrt (B / B') * Real.sqrt (C0 / C')) =
      2 * 2 ^ (l1 + l2 + l3) * F ^ 2 * (sd * sd) * (sg * sg) * vec l1 l2 l3 0 0 * vec l1 l2 l3 m1 m2 * R := by
    rw [hR]; ring
  rw [expand, hs, hsg, mul_one]

end Sleplet.Gaunt
