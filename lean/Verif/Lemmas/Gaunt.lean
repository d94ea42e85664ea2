import Verif.Lemmas.Dixon
import Verif.Lemmas.Rodrigues

/-!
Gaunt's formula: the integral of a product of three associated Legendre functions is a product of two 3j symbols.
-/
namespace Sleplet.Gaunt

open Polynomial

/-- `∫ q^a D^k q^b` over `[-1, 1]`. -/
noncomputable def pairI (a b k : ℕ) : ℝ := intg (-1) 1 (q ^ a * dq b k)

theorem pairI_succ (a b k : ℕ) :
    ((b : ℝ) + 1) * pairI (a + 1) b (k + 1) =
      -((a : ℝ) + 1) * (pairI a (b + 1) (k + 1) - 2 * ((b : ℝ) + 1) * k * pairI a b (k - 1)) := by
  have hpoly : C ((b : ℝ) + 1) * (q ^ (a + 1) * dq b (k + 1)) = C ((b : ℝ) + 1) * derivative (q ^ (a + 1) * dq b k) +
      C (-((a : ℝ) + 1)) * (q ^ a * dq (b + 1) (k + 1) - C (2 * ((b : ℝ) + 1) * k) * (q ^ a * dq b (k - 1))) := by
    rw [derivative_mul, derivative_dq, derivative_q_pow]
    have h := dq_mul_X b k
    have e1 : (C (2 * ((a : ℝ) + 1)) : ℝ[X]) = C 2 * C ((a : ℝ) + 1) := by rw [← C_mul]
    have e2 : (C (2 * ((b : ℝ) + 1)) : ℝ[X]) = C 2 * C ((b : ℝ) + 1) := by rw [← C_mul]
    have e3 : (C (-((a : ℝ) + 1)) : ℝ[X]) = -C ((a : ℝ) + 1) := by rw [C_neg]
    rw [e2] at h
    rw [e1, e3]
    linear_combination (-(C ((a : ℝ) + 1)) * q ^ a) * h
  have h := congrArg (intg (-1) 1) hpoly
  rw [intg_C_mul, intg_add, intg_C_mul, intg_C_mul, intg_sub, intg_C_mul, intg_derivative] at h
  simp only [eval_mul, eval_pow, eval_q] at h
  unfold pairI
  rw [h]
  norm_num

theorem pairI_zero (b k : ℕ) (h : k < b) : pairI 0 b (k + 1) = 0 := by
  unfold pairI
  rw [pow_zero, one_mul, ← derivative_dq, intg_derivative, eval_dq_of_lt h (by norm_num), eval_dq_of_lt h (by norm_num), sub_zero]

theorem pairI_odd (a : ℕ) : ∀ (b k : ℕ), 2 * k + 1 ≤ a + b → pairI a b (2 * k + 1) = 0 := by
  induction a with
  | zero => intro b k h; exact pairI_zero b (2 * k) (by omega)
  | succ a ih =>
    intro b k h
    have hs := pairI_succ a b (2 * k)
    have hb : ((b : ℝ) + 1) ≠ 0 := by positivity
    rw [ih (b + 1) k (by omega)] at hs
    rcases k with _ | k
    · simp at hs
      rcases hs with hs | hs
      · exact absurd hs hb
      · simpa using hs
    · rw [show 2 * (k + 1) - 1 = 2 * k + 1 by omega, ih b k (by omega)] at hs
      rw [mul_zero, sub_zero, mul_zero, mul_eq_zero] at hs
      exact hs.resolve_left hb

theorem intg_q_pow (n : ℕ) :
    intg (-1) 1 (q ^ n) = (-1) ^ n * 2 ^ (2 * n + 1) * (n.factorial : ℝ) ^ 2 / ((2 * n + 1).factorial : ℝ) := by
  induction n with
  | zero =>
    unfold intg
    simp
    norm_num
  | succ n ih =>
    have hpoly : C (2 * (n : ℝ) + 3) * q ^ (n + 1) = derivative (q ^ (n + 1) * X) + C (-(2 * ((n : ℝ) + 1))) * q ^ n := by
      rw [derivative_mul, derivative_q_pow, derivative_X]
      have e : (X : ℝ[X]) * X = q + 1 := by unfold q; ring
      simp only [C_neg, C_mul, C_add, C_1]
      rw [show (C 3 : ℝ[X]) = C 2 + 1 by rw [← C_1, ← C_add]; norm_num]
      linear_combination (-C 2 * (C (n : ℝ) + 1) * q ^ n) * e
    have h := congrArg (intg (-1) 1) hpoly
    rw [intg_C_mul, intg_add, intg_C_mul, intg_derivative, ih] at h
    simp only [eval_mul, eval_pow, eval_q, eval_X] at h
    have h3 : (2 * (n : ℝ) + 3) ≠ 0 := by positivity
    rw [← mul_right_inj' h3, h, show 2 * (n + 1) + 1 = (2 * n + 1) + 1 + 1 by ring, Nat.factorial_succ (2 * n + 1 + 1),
      Nat.factorial_succ (2 * n + 1), Nat.factorial_succ n, show (1 : ℝ) ^ 2 - 1 = 0 by norm_num,
      show (-1 : ℝ) ^ 2 - 1 = 0 by norm_num, zero_pow (by omega)]
    have h1 : ((2 * n + 1).factorial : ℝ) ≠ 0 := by positivity
    have h2 : (2 * (n : ℝ) + 1 + 1) ≠ 0 := by positivity
    have h4 : (2 * (n : ℝ) + 1 + 1 + 1) ≠ 0 := by positivity
    push_cast
    field_simp
    ring

/-- the part of the closed form that depends on the largest factorials only. -/
noncomputable def bigF (g l : ℕ) : ℝ := (-1) ^ g * 2 ^ (2 * g + 1) * (g.factorial : ℝ) * (l.factorial : ℝ) / ((2 * g + 1).factorial : ℝ)

/-- `∫ q^a D^{2k} q^b` in closed form, for `l = a + b - 2k`, `g = a + b - k`. -/
theorem pairI_even (a : ℕ) : ∀ (b k l : ℕ), a + b = 2 * k + l →
    pairI a b (2 * k) = bigF (l + k) l * (a.factorial : ℝ) * (b.factorial : ℝ) * ((2 * k).factorial : ℝ) *
      (invf k * invf ((a : ℤ) - k) * invf ((b : ℤ) - k)) := by
  induction a with
  | zero =>
    intro b k l h
    rcases k with _ | k
    · obtain rfl : b = l := by omega
      simp only [Nat.mul_zero, pairI, pow_zero, dq_zero, one_mul, intg_q_pow, bigF, Nat.cast_zero, sub_zero, invf_zero, invf_nat,
        Nat.factorial_zero, Nat.cast_one, Nat.add_zero]
      have : (b.factorial : ℝ) ≠ 0 := by positivity
      field_simp
    · rw [show 2 * (k + 1) = (2 * k + 1) + 1 by ring, pairI_zero b (2 * k + 1) (by omega),
        invf_neg (show ((0 : ℕ) : ℤ) - ((k + 1 : ℕ) : ℤ) < 0 by push_cast; omega)]
      ring
  | succ a ih =>
    intro b k l h
    rcases k with _ | k
    · obtain rfl : l = a + 1 + b := by omega
      simp only [Nat.mul_zero, pairI, dq_zero, ← pow_add, intg_q_pow, bigF, Nat.cast_zero, sub_zero, invf_zero, invf_nat,
        Nat.factorial_zero, Nat.cast_one, Nat.add_zero]
      have h1 : (b.factorial : ℝ) ≠ 0 := by positivity
      have h2 : ((a + 1).factorial : ℝ) ≠ 0 := by positivity
      field_simp
    · have hs := pairI_succ a b (2 * k + 1)
      have hb : ((b : ℝ) + 1) ≠ 0 := by positivity
      rw [show 2 * k + 1 + 1 = 2 * (k + 1) by ring, show 2 * k + 1 - 1 = 2 * k by omega,
        ih (b + 1) (k + 1) l (by omega), ih b k (l + 1) (by omega)] at hs
      have e1 := mul_invf ((k + 1 : ℕ) : ℤ)
      have e2 := mul_invf ((a : ℤ) - k)
      have e3 := mul_invf ((b : ℤ) - k)
      rw [show ((k + 1 : ℕ) : ℤ) - 1 = k by push_cast; ring] at e1
      rw [← mul_right_inj' hb, hs]
      have hF : bigF (l + 1 + k) (l + 1) = ((l : ℝ) + 1) * bigF (l + (k + 1)) l := by
        unfold bigF
        rw [show l + 1 + k = l + (k + 1) by ring, Nat.factorial_succ l]
        push_cast
        ring
      rw [hF, show ((a : ℤ) - ((k + 1 : ℕ) : ℤ)) = (a : ℤ) - k - 1 by push_cast; ring,
        show (((b + 1 : ℕ) : ℤ) - ((k + 1 : ℕ) : ℤ)) = (b : ℤ) - k by push_cast; ring,
        show (((a + 1 : ℕ) : ℤ) - ((k + 1 : ℕ) : ℤ)) = (a : ℤ) - k by push_cast; ring,
        show (((b : ℕ) : ℤ) - ((k + 1 : ℕ) : ℤ)) = (b : ℤ) - k - 1 by push_cast; ring, ← e1, ← e2, ← e3,
        show 2 * (k + 1) = (2 * k + 1) + 1 by ring, Nat.factorial_succ (2 * k + 1), Nat.factorial_succ (2 * k),
        Nat.factorial_succ a, Nat.factorial_succ b]
      have hl : (l : ℝ) = a + 1 + b - 2 * (k + 1) := by
        have : ((a + 1 + b : ℕ) : ℝ) = ((2 * (k + 1) + l : ℕ) : ℝ) := by rw [h]
        push_cast at this
        linarith
      push_cast
      rw [hl]
      ring

/-! ### three functions -/

/-- `D^n q^l` for an integer `n`. -/
noncomputable def dz (l : ℕ) (n : ℤ) : ℝ[X] := if n < 0 then 0 else dq l n.toNat

theorem dz_neg {l : ℕ} {n : ℤ} (h : n < 0) : dz l n = 0 := by simp [dz, h]

theorem dz_of_nonneg {l : ℕ} {n : ℤ} (h : 0 ≤ n) : dz l n = dq l n.toNat := by simp [dz, not_lt.2 h]

theorem dz_zero {l : ℕ} {n : ℤ} (h : n < 0 ∨ 2 * (l : ℤ) < n) : dz l n = 0 := by
  rcases h with h | h
  · exact dz_neg h
  · rw [dz_of_nonneg (by omega), dq_eq_zero (by omega)]

theorem derivative_dz {l : ℕ} {n : ℤ} (h : 0 ≤ n) : derivative (dz l n) = dz l (n + 1) := by
  rw [dz_of_nonneg h, dz_of_nonneg (by omega), derivative_dq]
  congr 1; omega

/-- the integral of the product of the three functions, with orders adding up to zero. -/
noncomputable def triple (l1 l2 l3 : ℕ) (m1 m2 : ℤ) : ℝ :=
  intg (-1) 1 (dz l1 (l1 + m1) * dz l2 (l2 + m2) * dz l3 (l3 - m1 - m2))

/-- the same with the factorials that turn it into a solution of the ladder recursion. -/
noncomputable def tripleN (l1 l2 l3 : ℕ) (m1 m2 : ℤ) : ℝ :=
  triple l1 l2 l3 m1 m2 * (invf (l1 + m1) * invf (l2 + m2) * invf (l3 - m1 - m2))

theorem tripleN_rec (l1 l2 l3 : ℕ) (m1 m2 : ℤ) :
    (((l1 : ℤ) + m1 + 1 : ℤ) : ℝ) * tripleN l1 l2 l3 (m1 + 1) m2 + (((l2 : ℤ) + m2 + 1 : ℤ) : ℝ) * tripleN l1 l2 l3 m1 (m2 + 1)
      + (((l3 : ℤ) - m1 - m2 : ℤ) : ℝ) * tripleN l1 l2 l3 m1 m2 = 0 := by
  have e1 := mul_invf ((l1 : ℤ) + m1 + 1)
  have e2 := mul_invf ((l2 : ℤ) + m2 + 1)
  have e3 := mul_invf ((l3 : ℤ) - m1 - m2)
  rw [show (l1 : ℤ) + m1 + 1 - 1 = l1 + m1 by ring] at e1
  rw [show (l2 : ℤ) + m2 + 1 - 1 = l2 + m2 by ring] at e2
  unfold tripleN
  rw [show (l1 : ℤ) + (m1 + 1) = l1 + m1 + 1 by ring, show (l2 : ℤ) + (m2 + 1) = l2 + m2 + 1 by ring,
    show (l3 : ℤ) - (m1 + 1) - m2 = l3 - m1 - m2 - 1 by ring, show (l3 : ℤ) - m1 - (m2 + 1) = l3 - m1 - m2 - 1 by ring]
  have key : (triple l1 l2 l3 (m1 + 1) m2 + triple l1 l2 l3 m1 (m2 + 1) + triple l1 l2 l3 m1 m2) *
      (invf (l1 + m1) * invf (l2 + m2) * invf (l3 - m1 - m2 - 1)) = 0 := by
    by_cases h1 : (l1 : ℤ) + m1 < 0
    · rw [invf_neg h1]; ring
    by_cases h2 : (l2 : ℤ) + m2 < 0
    · rw [invf_neg h2]; ring
    by_cases h3 : (l3 : ℤ) - m1 - m2 - 1 < 0
    · rw [invf_neg h3]; ring
    have hsum : triple l1 l2 l3 (m1 + 1) m2 + triple l1 l2 l3 m1 (m2 + 1) + triple l1 l2 l3 m1 m2 =
        intg (-1) 1 (derivative (dz l1 (l1 + m1) * dz l2 (l2 + m2) * dz l3 (l3 - m1 - m2 - 1))) := by
      rw [derivative_mul, derivative_mul, derivative_dz (by omega), derivative_dz (by omega), derivative_dz (by omega),
        add_mul, intg_add, intg_add]
      unfold triple
      rw [show (l1 : ℤ) + (m1 + 1) = l1 + m1 + 1 by ring, show (l2 : ℤ) + (m2 + 1) = l2 + m2 + 1 by ring,
        show (l3 : ℤ) - (m1 + 1) - m2 = l3 - m1 - m2 - 1 by ring, show (l3 : ℤ) - m1 - (m2 + 1) = l3 - m1 - m2 - 1 by ring,
        show (l3 : ℤ) - m1 - m2 - 1 + 1 = l3 - m1 - m2 by ring]
    have hb : ∀ x : ℝ, x ^ 2 = 1 → (dz l1 (l1 + m1) * dz l2 (l2 + m2) * dz l3 (l3 - m1 - m2 - 1)).eval x = 0 := by
      intro x hx
      rw [eval_mul, eval_mul, dz_of_nonneg (by omega), dz_of_nonneg (by omega), dz_of_nonneg (by omega)]
      by_cases g1 : m1 < 0
      · rw [eval_dq_of_lt (by omega) hx]; ring
      by_cases g2 : m2 < 0
      · rw [eval_dq_of_lt (k := ((l2 : ℤ) + m2).toNat) (by omega) hx]; ring
      · rw [eval_dq_of_lt (k := ((l3 : ℤ) - m1 - m2 - 1).toNat) (by omega) hx]; ring
    rw [hsum, intg_derivative, hb _ (by norm_num), hb _ (by norm_num)]
    ring
  linear_combination key + triple l1 l2 l3 (m1 + 1) m2 * (invf (l2 + m2) * invf (l3 - m1 - m2 - 1)) * e1 +
    triple l1 l2 l3 m1 (m2 + 1) * (invf (l1 + m1) * invf (l3 - m1 - m2 - 1)) * e2 +
    triple l1 l2 l3 m1 m2 * (invf (l1 + m1) * invf (l2 + m2)) * e3

theorem tripleN_van {l1 l2 l3 : ℕ} {m1 m2 : ℤ} (h : (l1 : ℤ) < |m1| ∨ (l2 : ℤ) < |m2| ∨ (l3 : ℤ) < |-m1 - m2|) :
    tripleN l1 l2 l3 m1 m2 = 0 := by
  simp only [lt_abs] at h
  have : dz l1 (l1 + m1) * dz l2 (l2 + m2) * dz l3 (l3 - m1 - m2) = 0 := by
    rcases h with h | h | h
    · rw [dz_zero (l := l1) (by omega)]; ring
    · rw [dz_zero (l := l2) (by omega)]; ring
    · rw [dz_zero (l := l3) (by omega)]; ring
  unfold tripleN triple
  rw [this, intg_zero, zero_mul]

theorem dz_reflect {l : ℕ} {m : ℤ} (h : |m| ≤ l) :
    C (((l + m).toNat.factorial : ℕ) : ℝ) * (q ^ (-m).toNat * dz l (l - m)) =
      C (((l - m).toNat.factorial : ℕ) : ℝ) * (q ^ m.toNat * dz l (l + m)) := by
  rw [abs_le] at h
  rcases le_or_gt 0 m with hm | hm
  · obtain ⟨k, rfl⟩ := Int.eq_ofNat_of_zero_le hm
    have := dq_reflect (l := l) (m := k) (by omega)
    rw [dz_of_nonneg (by omega), dz_of_nonneg (by omega), show (-(k : ℤ)).toNat = 0 by omega,
      show ((l : ℤ) + (k : ℤ)).toNat = l + k by omega, show ((l : ℤ) - (k : ℤ)).toNat = l - k by omega, Int.toNat_natCast,
      pow_zero, one_mul, this]
  · obtain ⟨k, rfl⟩ : ∃ k : ℕ, m = -(k : ℤ) := ⟨(-m).toNat, by omega⟩
    have := dq_reflect (l := l) (m := k) (by omega)
    rw [dz_of_nonneg (by omega), dz_of_nonneg (by omega), neg_neg, show (-(k : ℤ)).toNat = 0 by omega,
      show ((l : ℤ) + -(k : ℤ)).toNat = l - k by omega, show ((l : ℤ) - -(k : ℤ)).toNat = l + k by omega, Int.toNat_natCast,
      pow_zero, one_mul, this]

theorem invf_eq {n : ℤ} (h : 0 ≤ n) : invf n = 1 / ((n.toNat.factorial : ℕ) : ℝ) := by simp [invf, not_lt.2 h]

theorem tripleN_sym (l1 l2 l3 : ℕ) (m1 m2 : ℤ) : tripleN l1 l2 l3 (-m1) (-m2) = tripleN l1 l2 l3 m1 m2 := by
  by_cases hv : (l1 : ℤ) < |m1| ∨ (l2 : ℤ) < |m2| ∨ (l3 : ℤ) < |-m1 - m2|
  · rw [tripleN_van hv]
    refine tripleN_van ?_
    rwa [abs_neg, abs_neg, show - -m1 - -m2 = -(-m1 - m2) by ring, abs_neg]
  · push Not at hv
    obtain ⟨h1, h2, h3⟩ := hv
    have r1 := dz_reflect h1
    have r2 := dz_reflect h2
    have r3 := dz_reflect h3
    have hq : q ^ ((-m1).toNat + (-m2).toNat + (-(-m1 - m2)).toNat) ≠ 0 := pow_ne_zero _ q_ne_zero
    have he : m1.toNat + m2.toNat + (-m1 - m2).toNat = (-m1).toNat + (-m2).toNat + (-(-m1 - m2)).toNat := by omega
    unfold tripleN triple
    rw [abs_le] at h1 h2 h3
    rw [show (l1 : ℤ) + -m1 = l1 - m1 by ring, show (l2 : ℤ) + -m2 = l2 - m2 by ring,
      show (l3 : ℤ) - -m1 - -m2 = l3 - (-m1 - m2) by ring, show (l3 : ℤ) - m1 - m2 = l3 + (-m1 - m2) by ring,
      invf_eq (show 0 ≤ (l1 : ℤ) - m1 by omega), invf_eq (show 0 ≤ (l2 : ℤ) - m2 by omega),
      invf_eq (show 0 ≤ (l3 : ℤ) - (-m1 - m2) by omega), invf_eq (show 0 ≤ (l1 : ℤ) + m1 by omega),
      invf_eq (show 0 ≤ (l2 : ℤ) + m2 by omega), invf_eq (show 0 ≤ (l3 : ℤ) + (-m1 - m2) by omega)]
    have hpoly : C ((((l1 + m1).toNat.factorial : ℕ) : ℝ) * (((l2 + m2).toNat.factorial : ℕ) : ℝ) *
          (((l3 + (-m1 - m2)).toNat.factorial : ℕ) : ℝ)) *
        (dz l1 (l1 - m1) * dz l2 (l2 - m2) * dz l3 (l3 - (-m1 - m2))) =
        C ((((l1 - m1).toNat.factorial : ℕ) : ℝ) * (((l2 - m2).toNat.factorial : ℕ) : ℝ) *
          (((l3 - (-m1 - m2)).toNat.factorial : ℕ) : ℝ)) *
        (dz l1 (l1 + m1) * dz l2 (l2 + m2) * dz l3 (l3 + (-m1 - m2))) := by
      refine mul_left_cancel₀ hq ?_
      rw [C_mul, C_mul, C_mul, C_mul]
      generalize (C ((((l1 : ℤ) + m1).toNat.factorial : ℕ) : ℝ) : ℝ[X]) = F1 at *
      generalize (C ((((l2 : ℤ) + m2).toNat.factorial : ℕ) : ℝ) : ℝ[X]) = F2 at *
      generalize (C ((((l3 : ℤ) + (-m1 - m2)).toNat.factorial : ℕ) : ℝ) : ℝ[X]) = F3 at *
      calc _ = F1 * (q ^ (-m1).toNat * dz l1 (l1 - m1)) * (F2 * (q ^ (-m2).toNat * dz l2 (l2 - m2))) *
            (F3 * (q ^ (-(-m1 - m2)).toNat * dz l3 (l3 - (-m1 - m2)))) := by rw [pow_add, pow_add]; ring
        _ = _ := by rw [r1, r2, r3, ← he, pow_add, pow_add]; ring
    have hi := congrArg (intg (-1) 1) hpoly
    rw [intg_C_mul, intg_C_mul] at hi
    have p1 : ((((l1 : ℤ) + m1).toNat.factorial : ℕ) : ℝ) ≠ 0 := by positivity
    have p2 : ((((l2 : ℤ) + m2).toNat.factorial : ℕ) : ℝ) ≠ 0 := by positivity
    have p3 : ((((l3 : ℤ) + (-m1 - m2)).toNat.factorial : ℕ) : ℝ) ≠ 0 := by positivity
    have p4 : ((((l1 : ℤ) - m1).toNat.factorial : ℕ) : ℝ) ≠ 0 := by positivity
    have p5 : ((((l2 : ℤ) - m2).toNat.factorial : ℕ) : ℝ) ≠ 0 := by positivity
    have p6 : ((((l3 : ℤ) - (-m1 - m2)).toNat.factorial : ℕ) : ℝ) ≠ 0 := by positivity
    field_simp
    linear_combination hi

/-- the reference entry. -/
theorem tripleN_ref (l1 l2 l3 : ℕ) :
    tripleN l1 l2 l3 l1 ((l3 : ℤ) - l1) = if (l2 : ℤ) + l3 - l1 < 0 then 0 else
      pairI l3 l2 ((l2 : ℤ) + l3 - l1).toNat * invf ((l2 : ℤ) + l3 - l1) := by
  unfold tripleN triple
  rw [show (l2 : ℤ) + ((l3 : ℤ) - l1) = l2 + l3 - l1 by ring, show (l3 : ℤ) - l1 - ((l3 : ℤ) - l1) = 0 by ring]
  split_ifs with h
  · rw [invf_neg h]; ring
  · rw [dz_of_nonneg (by omega), dz_of_nonneg (by omega), dz_of_nonneg (le_refl 0),
      show ((l1 : ℤ) + l1).toNat = 2 * l1 by omega, dq_top, mul_assoc, intg_C_mul, Int.toNat_zero, dq_zero, invf_zero,
      show (l1 : ℤ) + l1 = ((2 * l1 : ℕ) : ℤ) by push_cast; ring, invf_nat, mul_comm (dq l2 _)]
    unfold pairI
    have : ((2 * l1).factorial : ℝ) ≠ 0 := by positivity
    field_simp

theorem vec_ref (l1 l2 l3 : ℕ) (h3 : 0 ≤ (l1 : ℤ) + l2 - l3) :
    vec l1 l2 l3 l1 ((l3 : ℤ) - l1) =
      (-1 : ℝ) ^ l3 * (invf ((l2 : ℤ) + l3 - l1) * invf ((l1 : ℤ) + l3 - l2) * invf ((l1 : ℤ) + l2 - l3)) := by
  unfold vec rsum
  rw [Finset.sum_eq_single 0]
  · unfold rterm
    rw [show (l2 : ℤ) + ((l3 : ℤ) - l1) = l2 + l3 - l1 by ring, show -(l1 : ℤ) - ((l3 : ℤ) - l1) = -(l3 : ℤ) by ring,
      zpow_neg, zpow_natCast, ← inv_pow, inv_neg, inv_one]
    simp
    ring
  · intro t ht ht0
    rw [Finset.mem_Icc] at ht
    exact rterm_zero (by omega)
  · intro h
    rw [Finset.mem_Icc] at h
    omega

/-- `k₁! k₂! k₃! / (l₁ + l₂ + l₃ + 1)!`. -/
noncomputable def delta (l1 l2 l3 : ℕ) : ℝ :=
  (((l2 + l3 - l1 : ℤ).toNat.factorial : ℝ) * ((l1 + l3 - l2 : ℤ).toNat.factorial : ℝ) *
    ((l1 + l2 - l3 : ℤ).toNat.factorial : ℝ)) / ((l1 + l2 + l3 + 1).factorial : ℝ)

/-- Gaunt's formula, before normalisation. -/
theorem tripleN_eq (l1 l2 l3 : ℕ) (m1 m2 : ℤ) :
    tripleN l1 l2 l3 m1 m2 = 2 * 2 ^ (l1 + l2 + l3) * ((l1.factorial : ℝ) * l2.factorial * l3.factorial) ^ 2 *
      delta l1 l2 l3 * vec l1 l2 l3 0 0 * vec l1 l2 l3 m1 m2 := by
  set c := 2 * 2 ^ (l1 + l2 + l3) * ((l1.factorial : ℝ) * l2.factorial * l3.factorial) ^ 2 *
      delta l1 l2 l3 * vec l1 l2 l3 0 0 with hc
  rw [← sub_eq_zero]
  refine ladder_unique l1 l2 l3 (by omega) (fun m1 m2 => tripleN l1 l2 l3 m1 m2 - c * vec l1 l2 l3 m1 m2) ?_ ?_ ?_ ?_ m1 m2
  · intro m1 m2
    linear_combination tripleN_rec l1 l2 l3 m1 m2 - c * vec_rec l1 l2 l3 m1 m2
  · intro m1 m2 h
    rw [tripleN_van h, vec_zero h]; ring
  · intro m1 m2 h
    rw [tripleN_sym, vec_neg]
    rcases Int.even_or_odd ((l1 : ℤ) + l2 + l3) with he | ho
    · rw [he.neg_one_zpow, one_mul, h]
    · have : c = 0 := by rw [hc, vec_zero_odd ho, mul_zero]
      rw [this] at h ⊢
      linarith
  · by_cases h1 : (l2 : ℤ) + l3 - l1 < 0
    · rw [tripleN_ref, if_pos h1]
      have : vec l1 l2 l3 l1 ((l3 : ℤ) - l1) = 0 := by
        unfold vec; rw [rsum_eq_zero (Or.inl h1), mul_zero]
      rw [this]; ring
    by_cases h3 : (l1 : ℤ) + l2 - l3 < 0
    · rw [tripleN_ref, if_neg h1]
      have : vec l1 l2 l3 l1 ((l3 : ℤ) - l1) = 0 := by
        unfold vec; rw [rsum_eq_zero (Or.inr (Or.inr (Or.inl h3))), mul_zero]
      rw [this]
      unfold pairI
      rw [dq_eq_zero (l := l2) (by omega), mul_zero, intg_zero]; ring
    rw [tripleN_ref, if_neg h1, vec_ref l1 l2 l3 (by omega)]
    rcases Int.even_or_odd ((l1 : ℤ) + l2 + l3) with he | ho
    · obtain ⟨a, ha⟩ : ∃ a : ℕ, (l2 : ℤ) + l3 - l1 = ((2 * a : ℕ) : ℤ) := by
        obtain ⟨r, hr⟩ := he
        exact ⟨(r - l1).toNat, by omega⟩
      rw [ha, Int.toNat_natCast, pairI_even l3 l2 a l1 (by omega)]
      by_cases h2 : (l1 : ℤ) + l3 - l2 < 0
      · rw [invf_neg (n := (l1 : ℤ) + l3 - l2) h2, invf_neg (n := (l3 : ℤ) - a) (by omega)]; ring
      · obtain ⟨b, hb⟩ : ∃ b : ℕ, l3 = a + b := ⟨l3 - a, by omega⟩
        obtain ⟨d, hd⟩ : ∃ d : ℕ, l2 = a + d := ⟨l2 - a, by omega⟩
        obtain rfl : l1 = b + d := by omega
        subst hb hd
        rw [hc]
        have hv := vec_zero_even a b d
        rw [show ((b + d : ℕ) : ℤ) = (b : ℤ) + d by push_cast; ring, show ((a + d : ℕ) : ℤ) = (a : ℤ) + d by push_cast; ring,
          show ((a + b : ℕ) : ℤ) = (a : ℤ) + b by push_cast; ring, hv]
        unfold delta bigF
        rw [show ((a + d : ℕ) + (a + b : ℕ) - (b + d : ℕ) : ℤ) = ((2 * a : ℕ) : ℤ) by push_cast; ring,
          show ((b + d : ℕ) + (a + b : ℕ) - (a + d : ℕ) : ℤ) = ((2 * b : ℕ) : ℤ) by push_cast; ring,
          show ((b + d : ℕ) + (a + d : ℕ) - (a + b : ℕ) : ℤ) = ((2 * d : ℕ) : ℤ) by push_cast; ring,
          show (b : ℤ) + d + (a + b) - (a + d) = ((2 * b : ℕ) : ℤ) by push_cast; ring,
          show (b : ℤ) + d + (a + d) - (a + b) = ((2 * d : ℕ) : ℤ) by push_cast; ring,
          show (a : ℤ) + b - a = (b : ℤ) by ring, show (a : ℤ) + d - a = (d : ℤ) by ring,
          show b + d + (a + d) + (a + b) = 2 * (a + b + d) by ring, show b + d + a = a + b + d by ring,
          show d + a = a + d by ring]
        simp only [Int.toNat_natCast, invf_nat]
        have f1 : (a.factorial : ℝ) ≠ 0 := by positivity
        have f2 : (b.factorial : ℝ) ≠ 0 := by positivity
        have f3 : (d.factorial : ℝ) ≠ 0 := by positivity
        have f4 : ((a + b).factorial : ℝ) ≠ 0 := by positivity
        have f5 : ((b + d).factorial : ℝ) ≠ 0 := by positivity
        have f6 : ((a + d).factorial : ℝ) ≠ 0 := by positivity
        have f7 : ((2 * a).factorial : ℝ) ≠ 0 := by positivity
        have f8 : ((2 * b).factorial : ℝ) ≠ 0 := by positivity
        have f9 : ((2 * d).factorial : ℝ) ≠ 0 := by positivity
        have f10 : ((2 * (a + b + d) + 1).factorial : ℝ) ≠ 0 := by positivity
        field_simp
        ring
    · obtain ⟨a, ha⟩ : ∃ a : ℕ, (l2 : ℤ) + l3 - l1 = ((2 * a + 1 : ℕ) : ℤ) := by
        obtain ⟨r, hr⟩ := ho
        exact ⟨(r - l1).toNat, by omega⟩
      have : c = 0 := by rw [hc, vec_zero_odd ho, mul_zero]
      rw [ha, Int.toNat_natCast, pairI_odd l3 l2 a (by omega), this]; ring

end Sleplet.Gaunt
