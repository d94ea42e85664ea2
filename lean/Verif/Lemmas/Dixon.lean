import Mathlib.Algebra.BigOperators.Field
import Verif.Lemmas.Racah

/-!
Dixon's identity: the Racah sum at zero orders in closed form.
-/
namespace Sleplet.Gaunt

/-- Dixon's summand. -/
noncomputable def dixonTerm (a b c k : ℤ) : ℝ :=
  (-1 : ℝ) ^ k * (invf (a + k) * invf (a - k) * invf (b + k) * invf (b - k) * invf (c + k) * invf (c - k))

noncomputable def dixonSum (a b c : ℤ) : ℝ := ∑ k ∈ Finset.Icc (-c) c, dixonTerm a b c k

theorem dixonTerm_zero {a b c k : ℤ} (h : k < -c ∨ c < k) : dixonTerm a b c k = 0 := by
  unfold dixonTerm
  rcases h with h | h
  · rw [invf_neg (show c + k < 0 by omega)]; ring
  · rw [invf_neg (show c - k < 0 by omega)]; ring

theorem dixonSum_eq (a b c : ℤ) {x y : ℤ} (hx : x ≤ -c) (hy : c ≤ y) :
    dixonSum a b c = ∑ k ∈ Finset.Icc x y, dixonTerm a b c k := by
  refine Finset.sum_subset (Finset.Icc_subset_Icc hx hy) fun t _ h => dixonTerm_zero ?_
  rw [Finset.mem_Icc] at h; omega

/-- the antidifference. -/
noncomputable def dixonCert (a b c k : ℤ) : ℝ :=
  (-1 : ℝ) ^ k * (invf (a + k - 1) * invf (a - k) * invf (b + k - 1) * invf (b - k) * invf (c + k) * invf (c + 1 - k))

theorem dixon_step (a b c : ℤ) :
    ((c + 1 : ℤ) : ℝ) * ((b + c + 1 : ℤ) : ℝ) * ((a + c + 1 : ℤ) : ℝ) * dixonSum a b (c + 1) =
      ((a + b + c + 1 : ℤ) : ℝ) * dixonSum a b c := by
  have hterm : ∀ k, ((c + 1 : ℤ) : ℝ) * ((b + c + 1 : ℤ) : ℝ) * ((a + c + 1 : ℤ) : ℝ) * dixonTerm a b (c + 1) k -
      ((a + b + c + 1 : ℤ) : ℝ) * dixonTerm a b c k = (dixonCert a b c k - dixonCert a b c (k + 1)) / 2 := by
    intro k
    have e1 := mul_invf (a + k)
    have e2 := mul_invf (a - k)
    have e3 := mul_invf (b + k)
    have e4 := mul_invf (b - k)
    have e5 := mul_invf (c + 1 + k)
    have e6 := mul_invf (c + 1 - k)
    unfold dixonTerm dixonCert
    rw [show c + k = c + 1 + k - 1 by ring, show c - k = c + 1 - k - 1 by ring,
      show a + (k + 1) - 1 = a + k by ring, show a - (k + 1) = a - k - 1 by ring,
      show b + (k + 1) - 1 = b + k by ring, show b - (k + 1) = b - k - 1 by ring,
      show c + (k + 1) = c + 1 + k by ring, show c + 1 - (k + 1) = c + 1 - k - 1 by ring,
      zpow_add_one₀ (by norm_num), ← e1, ← e2, ← e3, ← e4, ← e5, ← e6]
    push_cast
    ring
  have htel : ∀ n : ℕ, ∀ x : ℤ, ∑ k ∈ Finset.Ico x (x + n), (dixonCert a b c k - dixonCert a b c (k + 1)) =
      dixonCert a b c x - dixonCert a b c (x + n) := by
    intro n x
    induction n with
    | zero => simp
    | succ n ih =>
      have : Finset.Ico x (x + ((n + 1 : ℕ) : ℤ)) = insert (x + (n : ℤ)) (Finset.Ico x (x + n)) := by
        ext t; simp only [Finset.mem_Ico, Finset.mem_insert]; push_cast; omega
      rw [this, Finset.sum_insert (by simp), ih]
      push_cast
      rw [add_assoc]
      ring
  by_cases hc : c + 1 < 0
  · have h1 : dixonSum a b (c + 1) = 0 := by
      unfold dixonSum; rw [Finset.Icc_eq_empty (by omega), Finset.sum_empty]
    have h2 : dixonSum a b c = 0 := by
      unfold dixonSum; rw [Finset.Icc_eq_empty (by omega), Finset.sum_empty]
    rw [h1, h2]; ring
  · obtain ⟨n, hn⟩ : ∃ n : ℕ, (n : ℤ) = 2 * (c + 1) + 1 := ⟨(2 * (c + 1) + 1).toNat, by omega⟩
    have hI : Finset.Icc (-(c + 1)) (c + 1) = Finset.Ico (-(c + 1)) (-(c + 1) + n) := by
      ext t; simp only [Finset.mem_Ico, Finset.mem_Icc]; omega
    rw [← sub_eq_zero, dixonSum_eq a b c (show -(c + 1) ≤ -c by omega) (show c ≤ c + 1 by omega)]
    unfold dixonSum
    rw [Finset.mul_sum, Finset.mul_sum, ← Finset.sum_sub_distrib, Finset.sum_congr rfl fun k _ => hterm k,
      ← Finset.sum_div, hI, htel]
    have h1 : dixonCert a b c (-(c + 1)) = 0 := by
      unfold dixonCert; rw [invf_neg (show c + -(c + 1) < 0 by omega)]; ring
    have h2 : dixonCert a b c (-(c + 1) + n) = 0 := by
      unfold dixonCert; rw [invf_neg (show c + 1 - (-(c + 1) + (n : ℤ)) < 0 by omega)]; ring
    rw [h1, h2]; simp

theorem dixon (a b c : ℕ) : dixonSum a b c =
    ((a + b + c).factorial : ℝ) / (a.factorial * b.factorial * c.factorial * (a + b).factorial * (b + c).factorial *
      (c + a).factorial) := by
  induction c with
  | zero =>
    have : dixonSum a b ((0 : ℕ) : ℤ) = dixonTerm a b 0 0 := by simp [dixonSum]
    rw [this]
    unfold dixonTerm
    simp only [add_zero, sub_zero, invf_nat, invf_zero, zpow_zero, zero_add, Nat.factorial_zero, Nat.cast_one]
    have h1 : (a.factorial : ℝ) ≠ 0 := by positivity
    have h2 : (b.factorial : ℝ) ≠ 0 := by positivity
    have h3 : ((a + b).factorial : ℝ) ≠ 0 := by positivity
    field_simp
  | succ c ih =>
    have h := dixon_step a b c
    rw [ih] at h
    have hc : ((c : ℝ) + 1) * ((b : ℝ) + c + 1) * ((a : ℝ) + c + 1) ≠ 0 := by positivity
    push_cast at h ⊢
    rw [← mul_right_inj' hc, h]
    rw [show a + b + (c + 1) = (a + b + c) + 1 by ring, show b + (c + 1) = (b + c) + 1 by ring,
      show c + 1 + a = (c + a) + 1 by ring, Nat.factorial_succ, Nat.factorial_succ, Nat.factorial_succ, Nat.factorial_succ]
    have h1 : (a.factorial : ℝ) ≠ 0 := by positivity
    have h2 : (b.factorial : ℝ) ≠ 0 := by positivity
    have h3 : (c.factorial : ℝ) ≠ 0 := by positivity
    have h4 : ((a + b).factorial : ℝ) ≠ 0 := by positivity
    have h5 : ((b + c).factorial : ℝ) ≠ 0 := by positivity
    have h6 : ((c + a).factorial : ℝ) ≠ 0 := by positivity
    have h7 : ((c : ℝ) + 1) ≠ 0 := by positivity
    have h8 : ((b : ℝ) + c + 1) ≠ 0 := by positivity
    have h9 : ((c : ℝ) + a + 1) ≠ 0 := by positivity
    push_cast
    field_simp
    ring

/-- the Racah sum at zero orders and even `l₁ + l₂ + l₃`. -/
theorem vec_zero_even (a b c : ℕ) :
    vec (b + c) (a + c) (a + b) 0 0 = (-1 : ℝ) ^ c * (((a + b + c).factorial : ℝ) /
      (a.factorial * b.factorial * c.factorial * (a + b).factorial * (b + c).factorial * (c + a).factorial)) := by
  rw [← dixon]
  unfold vec rsum dixonSum
  rw [show (a + c + (a + b) - (b + c) : ℤ) = 2 * a by ring, show (b + c + (a + b) - (a + c) : ℤ) = 2 * b by ring,
    show (b + c + (a + c) - (a + b) : ℤ) = 2 * c by ring]
  simp only [neg_zero, sub_zero, zpow_zero, one_mul, add_zero]
  rw [Finset.mul_sum]
  refine Finset.sum_bij' (fun t _ => t - c) (fun k _ => k + c) ?_ ?_ ?_ ?_ ?_
  · intro t ht; rw [Finset.mem_Icc] at *; omega
  · intro t ht; rw [Finset.mem_Icc] at *; omega
  · intro t _; ring
  · intro t _; ring
  · intro t _
    unfold rterm dixonTerm
    rw [show (2 * c - t : ℤ) = c - (t - c) by ring, show (b + c - t : ℤ) = b - (t - c) by ring,
      show (2 * b - (b + c) + t : ℤ) = b + (t - c) by ring, show (a + c - t : ℤ) = a - (t - c) by ring,
      show (2 * a - (a + c) + t : ℤ) = a + (t - c) by ring]
    have : (-1 : ℝ) ^ t = (-1) ^ c * (-1) ^ (t - c) := by
      rw [← zpow_natCast, ← zpow_add₀ (by norm_num)]; congr 1; ring
    rw [this, show (c + (t - c) : ℤ) = t by ring]
    ring

theorem vec_zero_odd {l1 l2 l3 : ℤ} (h : Odd (l1 + l2 + l3)) : vec l1 l2 l3 0 0 = 0 := by
  have := vec_neg l1 l2 l3 0 0
  rw [neg_zero, h.neg_one_zpow] at this
  linarith

end Sleplet.Gaunt
