import Mathlib.Tactic.Ring
import Mathlib.Tactic.Linarith
import Mathlib.Tactic.Zify
import Verif.Model.HarmonicIndex

namespace Sleplet

theorem ind2elm_abs_le (i : ℕ) : |(ind2elm i).2| ≤ ((ind2elm i).1 : ℤ) := by
  unfold ind2elm
  have h1 : Nat.sqrt i * Nat.sqrt i ≤ i := Nat.sqrt_le i
  have h2 : i < (Nat.sqrt i + 1) * (Nat.sqrt i + 1) := Nat.lt_succ_sqrt i
  simp only
  generalize Nat.sqrt i = r at *
  zify at h1 h2
  rw [abs_le]
  constructor <;> nlinarith

theorem elm2ind_cast {l : ℕ} {m : ℤ} (h : |m| ≤ l) : ((elm2ind l m : ℕ) : ℤ) = (l : ℤ) * l + l + m := by
  unfold elm2ind
  rw [Int.toNat_of_nonneg]
  rw [abs_le] at h
  nlinarith [h.1, mul_self_nonneg (l : ℤ)]

theorem elm2ind_ind2elm (i : ℕ) : elm2ind (ind2elm i).1 (ind2elm i).2 = i := by
  have h := elm2ind_cast (ind2elm_abs_le i)
  zify
  rw [h]
  unfold ind2elm
  simp only
  ring

theorem ind2elm_elm2ind {l : ℕ} {m : ℤ} (h : |m| ≤ l) : ind2elm (elm2ind l m) = (l, m) := by
  have hc := elm2ind_cast h
  have hs : Nat.sqrt (elm2ind l m) = l := by
    rw [abs_le] at h
    rw [eq_comm, Nat.eq_sqrt]
    zify
    rw [hc]
    constructor <;> nlinarith [h.1, h.2]
  unfold ind2elm
  simp only [hs, hc]
  refine Prod.ext rfl ?_
  simp only
  ring

theorem elm2ind_lt_sq {l : ℕ} {m : ℤ} (h : |m| ≤ l) (L : ℕ) : elm2ind l m < L ^ 2 ↔ l < L := by
  have hc := elm2ind_cast h
  rw [abs_le] at h
  constructor
  · intro hlt
    by_contra hge
    push Not at hge
    zify at hlt hge
    rw [hc] at hlt
    have : (L : ℤ) * L ≤ l * l := by
      apply mul_le_mul hge hge <;> positivity
    nlinarith [h.1]
  · intro hlt
    zify
    rw [hc]
    have h1 : (l : ℤ) + 1 ≤ L := by exact_mod_cast hlt
    have : ((l : ℤ) + 1) * (l + 1) ≤ L * L := by
      apply mul_le_mul h1 h1 <;> positivity
    nlinarith [h.2]

theorem ind2elm_fst_lt {i L : ℕ} (h : i < L ^ 2) : (ind2elm i).1 < L := by
  rw [← elm2ind_ind2elm i] at h
  exact (elm2ind_lt_sq (ind2elm_abs_le i) L).1 h

end Sleplet
