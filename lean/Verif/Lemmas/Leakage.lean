import Mathlib.Algebra.BigOperators.Intervals
import Mathlib.Algebra.BigOperators.Ring.Finset
import Mathlib.Algebra.Order.BigOperators.Group.Finset
import Mathlib.Algebra.Order.Ring.Abs
import Mathlib.Data.Real.Basic
import Mathlib.Tactic.Linarith
import Mathlib.Tactic.Ring

/-! Numbers between zero and one, and those near neither. -/
namespace Sleplet

/-- how many numbers exceed one half, against their sum. -/
theorem count_near_sum {ι : Type*} (s : Finset ι) (e : ι → ℝ) (h : ∀ p ∈ s, 0 ≤ e p ∧ e p ≤ 1) :
    |((s.filter fun p => 1 / 2 < e p).card : ℝ) - ∑ p ∈ s, e p| ≤ 2 * ∑ p ∈ s, e p * (1 - e p) ∧
    ∑ p ∈ s, (if 1 / 2 < e p then 1 - e p else e p) ≤ 2 * ∑ p ∈ s, e p * (1 - e p) := by
  have hp : ∀ p ∈ s, (if 1 / 2 < e p then 1 - e p else e p) ≤ 2 * (e p * (1 - e p)) := by
    intro p hp
    obtain ⟨h0, h1⟩ := h p hp
    split
    · nlinarith
    · nlinarith
  have hsum : ∑ p ∈ s, (if 1 / 2 < e p then 1 - e p else e p) ≤ 2 * ∑ p ∈ s, e p * (1 - e p) := by
    rw [Finset.mul_sum]
    exact Finset.sum_le_sum hp
  refine ⟨le_trans ?_ hsum, hsum⟩
  have : ((s.filter fun p => 1 / 2 < e p).card : ℝ) = ∑ p ∈ s, if 1 / 2 < e p then (1 : ℝ) else 0 := by
    rw [← Finset.sum_filter]
    simp
  rw [this, ← Finset.sum_sub_distrib]
  refine (Finset.abs_sum_le_sum_abs _ _).trans (Finset.sum_le_sum fun p hp => ?_)
  obtain ⟨h0, h1⟩ := h p hp
  split
  · rw [abs_of_nonneg (by linarith)]
  · rw [zero_sub, abs_neg, abs_of_nonneg h0]

private theorem move_cut {n : ℕ} {e : ℕ → ℝ} (h : ∀ p < n, 0 ≤ e p ∧ e p ≤ 1) (k d : ℕ) (hd : k + d ≤ n) :
    |(∑ p ∈ Finset.range (k + d), (1 - e p) + ∑ p ∈ Finset.Ico (k + d) n, e p) - (∑ p ∈ Finset.range k, (1 - e p) + ∑ p ∈ Finset.Ico k n, e p)| ≤ d := by
  induction d with
  | zero => simp
  | succ d ih =>
    have h1 := ih (by omega)
    have h2 : ∑ p ∈ Finset.Ico (k + d) n, e p = e (k + d) + ∑ p ∈ Finset.Ico (k + d + 1) n, e p :=
      Finset.sum_eq_sum_Ico_succ_bot (by omega) e
    rw [h2] at h1
    rw [← Nat.add_assoc, Finset.sum_range_succ]
    obtain ⟨a, b⟩ := h (k + d) (by omega)
    obtain ⟨c, f⟩ := abs_le.1 h1
    rw [abs_le]
    push_cast
    constructor <;> linarith

/-- numbers in descending order, cut at a number of them close to their sum. -/
theorem cut_near_sum {n N : ℕ} {e : ℕ → ℝ} (h : ∀ p < n, 0 ≤ e p ∧ e p ≤ 1) (hanti : ∀ p q, p ≤ q → q < n → e q ≤ e p)
    (hN : |(N : ℝ) - ∑ p ∈ Finset.range n, e p| ≤ 1 / 2) :
    N ≤ n ∧ |(((Finset.range n).filter fun p => 1 / 2 < e p).card : ℝ) - N| ≤ 2 * ∑ p ∈ Finset.range n, e p * (1 - e p) + 1 / 2 ∧
    ∑ p ∈ Finset.range N, (1 - e p) + ∑ p ∈ Finset.Ico N n, e p ≤ 4 * ∑ p ∈ Finset.range n, e p * (1 - e p) + 1 / 2 := by
  obtain ⟨h1, h2⟩ := count_near_sum (Finset.range n) e fun p hp => h p (Finset.mem_range.1 hp)
  set T := ∑ p ∈ Finset.range n, e p * (1 - e p) with hT
  set A := (Finset.range n).filter fun p => 1 / 2 < e p with hA
  have hle : ∑ p ∈ Finset.range n, e p ≤ n := by
    refine (Finset.sum_le_sum fun p hp => (h p (Finset.mem_range.1 hp)).2).trans (le_of_eq ?_)
    simp
  have hNn : N ≤ n := by
    have : (N : ℝ) < n + 1 := by have := (abs_le.1 hN).2; linarith
    exact Nat.lt_succ_iff.1 (by exact_mod_cast this)
  have hc : |(A.card : ℝ) - N| ≤ 2 * T + 1 / 2 := by
    have a := abs_le.1 h1
    have b := abs_le.1 hN
    rw [abs_le]
    constructor <;> linarith [a.1, a.2, b.1, b.2]
  refine ⟨hNn, hc, ?_⟩
  -- those above one half come first
  have hcn : A.card ≤ n := by
    have := Finset.card_filter_le (Finset.range n) fun p => 1 / 2 < e p
    rwa [Finset.card_range] at this
  have hseg : A = Finset.range A.card := by
    have hdown : ∀ p q, p ≤ q → q ∈ A → p ∈ A := by
      intro p q hpq hq
      rw [hA, Finset.mem_filter, Finset.mem_range] at hq ⊢
      exact ⟨by omega, lt_of_lt_of_le hq.2 (hanti p q hpq hq.1)⟩
    refine Finset.eq_of_subset_of_card_le (fun p hp => ?_) (by simp)
    rw [Finset.mem_range]
    have : Finset.range (p + 1) ⊆ A := fun q hq => hdown q p (by rw [Finset.mem_range] at hq; omega) hp
    have := Finset.card_le_card this
    rw [Finset.card_range] at this
    omega
  have hF : ∑ p ∈ Finset.range n, (if 1 / 2 < e p then 1 - e p else e p) =
      ∑ p ∈ Finset.range A.card, (1 - e p) + ∑ p ∈ Finset.Ico A.card n, e p := by
    rw [← Finset.sum_range_add_sum_Ico _ hcn]
    congr 1
    · refine Finset.sum_congr rfl fun p hp => ?_
      rw [← hseg, hA, Finset.mem_filter] at hp
      rw [if_pos hp.2]
    · refine Finset.sum_congr rfl fun p hp => ?_
      rw [Finset.mem_Ico] at hp
      rw [if_neg fun hlt => ?_]
      have : p ∈ A := by rw [hA, Finset.mem_filter, Finset.mem_range]; exact ⟨hp.2, hlt⟩
      rw [hseg, Finset.mem_range] at this
      omega
  rw [hF] at h2
  rcases Nat.le_total N A.card with hcase | hcase
  · obtain ⟨d, hd⟩ := Nat.exists_eq_add_of_le hcase
    have h3 := move_cut h N d (by omega)
    rw [← hd] at h3
    have h4 : (A.card : ℝ) = N + d := by exact_mod_cast hd
    rw [h4, add_sub_cancel_left] at hc
    have h5 := (abs_le.1 hc).2
    have h6 := (abs_le.1 h3).1
    linarith
  · obtain ⟨d, hd⟩ := Nat.exists_eq_add_of_le hcase
    have h3 := move_cut h A.card d (by omega)
    rw [← hd] at h3
    have h4 : (N : ℝ) = A.card + d := by exact_mod_cast hd
    have h5 := (abs_le.1 hc).1
    have h6 := (abs_le.1 h3).2
    linarith

end Sleplet
