import Mathlib.Algebra.BigOperators.Field
import Mathlib.Algebra.BigOperators.Intervals
import Mathlib.Data.Int.Interval
import Mathlib.Data.Real.Basic
import Mathlib.Tactic.Ring
import Verif.Lemmas.HarmonicIndex

/-!
Sums over all pairs of degree and order below a bandlimit.
-/
namespace Sleplet

theorem sum_pairs {M : Type*} [AddCommMonoid M] (L : ℕ) (f : ℕ → ℤ → M) :
    ∑ i ∈ Finset.range (L ^ 2), f (ind2elm i).1 (ind2elm i).2 =
      ∑ l ∈ Finset.range L, ∑ m ∈ Finset.Icc (-(l : ℤ)) l, f l m := by
  rw [← Finset.sum_sigma (Finset.range L) (fun l => Finset.Icc (-(l : ℤ)) l) (fun x => f x.1 x.2)]
  refine Finset.sum_bij' (fun i _ => ⟨(ind2elm i).1, (ind2elm i).2⟩) (fun x _ => elm2ind x.1 x.2) ?_ ?_ ?_ ?_ ?_
  · intro i hi
    rw [Finset.mem_sigma, Finset.mem_range, Finset.mem_Icc]
    exact ⟨ind2elm_fst_lt (Finset.mem_range.1 hi), abs_le.1 (ind2elm_abs_le i)⟩
  · intro x hx
    rw [Finset.mem_sigma, Finset.mem_range, Finset.mem_Icc] at hx
    exact Finset.mem_range.2 ((elm2ind_lt_sq (abs_le.2 hx.2) L).2 hx.1)
  · intro i _
    exact elm2ind_ind2elm i
  · intro x hx
    rw [Finset.mem_sigma, Finset.mem_range, Finset.mem_Icc] at hx
    rw [ind2elm_elm2ind (abs_le.2 hx.2)]
  · intro i _
    rfl

theorem sum_odd (L : ℕ) : ∑ l ∈ Finset.range L, (2 * (l : ℝ) + 1) = (L : ℝ) ^ 2 := by
  induction L with
  | zero => simp
  | succ L ih => rw [Finset.sum_range_succ, ih]; push_cast; ring

end Sleplet
