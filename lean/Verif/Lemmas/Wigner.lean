import Mathlib.Algebra.BigOperators.Intervals
import Mathlib.Algebra.Ring.Parity
import Mathlib.Algebra.Ring.Int.Parity
import Mathlib.Tactic.LinearCombination
import Mathlib.Tactic.Ring
import Mathlib.Tactic.Linarith
import Mathlib.Data.Int.Interval
import Verif.Model.Wigner

namespace Sleplet.Wigner

/-- factorial of the natural number below an integer. -/
noncomputable def zf (n : ℤ) : ℝ := ((n.toNat.factorial : ℕ) : ℝ)

theorem zf_pos (n : ℤ) : 0 < zf n := by
  unfold zf; exact_mod_cast Nat.factorial_pos _

theorem fact_ok {n : ℤ} (h : 0 ≤ n) : fact n = .ok (zf n) := by
  unfold fact zf; rw [if_neg (by omega)]

theorem factProd_ok : ∀ ns : List ℤ, (∀ n ∈ ns, 0 ≤ n) → factProd ns = .ok ((ns.map zf).prod)
  | [], _ => by simp [factProd]
  | n :: ns, h => by
    simp only [factProd, fact_ok (h n (by simp)), factProd_ok ns (fun k hk => h k (by simp [hk]))]
    simp [bind, Except.bind, pure, Except.pure]

/-- one Racah summand as a real number. -/
noncomputable def term (t1 t2 t3 t4 t5 t : ℤ) : ℝ :=
  (-1 : ℝ) ^ t / (zf t * zf (t - t1) * zf (t - t2) * zf (t3 - t) * zf (t4 - t) * zf (t5 - t))

theorem racahSum_ok (t1 t2 t3 t4 t5 : ℤ) : ∀ ts : List ℤ,
    (∀ t ∈ ts, 0 ≤ t ∧ t1 ≤ t ∧ t2 ≤ t ∧ t ≤ t3 ∧ t ≤ t4 ∧ t ≤ t5) →
    racahSum t1 t2 t3 t4 t5 ts = .ok ((ts.map (term t1 t2 t3 t4 t5)).sum)
  | [], _ => by simp [racahSum]
  | t :: ts, h => by
    obtain ⟨a, b, c, d, e, f⟩ := h t (by simp)
    have h1 : racahTerm t1 t2 t3 t4 t5 t = .ok (term t1 t2 t3 t4 t5 t) := by
      unfold racahTerm
      rw [factProd_ok]
      · simp [bind, Except.bind, pure, Except.pure, term, mul_assoc]
      · intro n hn
        simp only [List.mem_cons, List.not_mem_nil, or_false] at hn
        omega
    simp only [racahSum, h1, racahSum_ok t1 t2 t3 t4 t5 ts (fun k hk => h k (by simp [hk]))]
    simp [bind, Except.bind, pure, Except.pure]

theorem mem_intRange {a b t : ℤ} : t ∈ intRange a b ↔ a ≤ t ∧ t ≤ b := by
  unfold intRange
  simp only [List.mem_map, List.mem_range]
  constructor
  · rintro ⟨k, hk, rfl⟩; omega
  · rintro ⟨h1, h2⟩; exact ⟨(t - a).toNat, by omega, by omega⟩

theorem intRange_nodup (a b : ℤ) : (intRange a b).Nodup := by
  unfold intRange
  refine List.Nodup.map ?_ List.nodup_range
  intro x y h
  simp only at h
  omega

theorem sum_intRange (a b : ℤ) (f : ℤ → ℝ) : ((intRange a b).map f).sum = ∑ t ∈ Finset.Icc a b, f t := by
  have : Finset.Icc a b = (intRange a b).toFinset := by
    ext t; simp [mem_intRange]
  rw [this, List.sum_toFinset _ (intRange_nodup a b)]

/-- the conditions under which the symbol is not forced to vanish. -/
def Admissible (l1 l2 l3 m1 m2 m3 : ℤ) : Prop :=
  m1 + m2 + m3 = 0 ∧ |l1 - l2| ≤ l3 ∧ l3 ≤ l1 + l2 ∧ |m1| ≤ |l1| ∧ |m2| ≤ |l2| ∧ |m3| ≤ |l3|

/-- linear form of the conditions. -/
theorem Admissible.linear {l1 l2 l3 m1 m2 m3 : ℤ} (h : Admissible l1 l2 l3 m1 m2 m3) :
    m1 + m2 + m3 = 0 ∧ 0 ≤ l1 + l2 - l3 ∧ 0 ≤ l1 - l2 + l3 ∧ 0 ≤ -l1 + l2 + l3 ∧ 0 ≤ l1 ∧ 0 ≤ l2 ∧ 0 ≤ l3 ∧
    -l1 ≤ m1 ∧ m1 ≤ l1 ∧ -l2 ≤ m2 ∧ m2 ≤ l2 ∧ -l3 ≤ m3 ∧ m3 ≤ l3 := by
  obtain ⟨h0, h1, h2, h3, h4, h5⟩ := h
  rw [abs_le] at h1
  have p1 : 0 ≤ l1 := by omega
  have p2 : 0 ≤ l2 := by omega
  have p3 : 0 ≤ l3 := by omega
  rw [abs_of_nonneg p1, abs_le] at h3
  rw [abs_of_nonneg p2, abs_le] at h4
  rw [abs_of_nonneg p3, abs_le] at h5
  omega

theorem admissible_of_linear {l1 l2 l3 m1 m2 m3 : ℤ}
    (h : m1 + m2 + m3 = 0 ∧ 0 ≤ l1 + l2 - l3 ∧ 0 ≤ l1 - l2 + l3 ∧ 0 ≤ -l1 + l2 + l3 ∧ 0 ≤ l1 ∧ 0 ≤ l2 ∧ 0 ≤ l3 ∧
    -l1 ≤ m1 ∧ m1 ≤ l1 ∧ -l2 ≤ m2 ∧ m2 ≤ l2 ∧ -l3 ≤ m3 ∧ m3 ≤ l3) : Admissible l1 l2 l3 m1 m2 m3 := by
  obtain ⟨h0, a, b, c, p1, p2, p3, d, e, f, g, i, j⟩ := h
  refine ⟨h0, abs_le.2 ⟨by omega, by omega⟩, by omega, ?_, ?_, ?_⟩
  · rw [abs_of_nonneg p1, abs_le]; omega
  · rw [abs_of_nonneg p2, abs_le]; omega
  · rw [abs_of_nonneg p3, abs_le]; omega

/-- closed form. -/
noncomputable def value (l1 l2 l3 m1 m2 m3 : ℤ) : ℝ :=
  (∑ t ∈ Finset.Icc (max 0 (max (l2 - l3 - m1) (l1 - l3 + m2))) (min (l1 + l2 - l3) (min (l1 - m1) (l2 + m2))),
    term (l2 - l3 - m1) (l1 - l3 + m2) (l1 + l2 - l3) (l1 - m1) (l2 + m2) t) *
  ((-1 : ℝ) ^ (l1 - l2 - m3) *
    Real.sqrt (zf (l1 + l2 - l3) * zf (l1 - l2 + l3) * zf (-l1 + l2 + l3) / zf (l1 + l2 + l3 + 1)) *
    Real.sqrt (zf (l1 + m1) * zf (l1 - m1) * zf (l2 + m2) * zf (l2 - m2) * zf (l3 + m3) * zf (l3 - m3)))

theorem not_admissible_iff (l1 l2 l3 m1 m2 m3 : ℤ) :
    (m1 + m2 + m3 ≠ 0 ∨ l3 < |l1 - l2| ∨ l3 > l1 + l2 ∨ |m1| > |l1| ∨ |m2| > |l2| ∨ |m3| > |l3|) ↔
    ¬ Admissible l1 l2 l3 m1 m2 m3 := by
  unfold Admissible
  simp only [not_and_or, not_le, ne_eq, gt_iff_lt]

theorem wigner3j_zero {l1 l2 l3 m1 m2 m3 : ℤ} (h : ¬ Admissible l1 l2 l3 m1 m2 m3) :
    wigner3j l1 l2 l3 m1 m2 m3 = .ok 0 := by
  unfold wigner3j
  rw [if_pos ((not_admissible_iff ..).2 h)]

theorem wigner3j_value {l1 l2 l3 m1 m2 m3 : ℤ} (h : Admissible l1 l2 l3 m1 m2 m3) :
    wigner3j l1 l2 l3 m1 m2 m3 = .ok (value l1 l2 l3 m1 m2 m3) := by
  unfold wigner3j
  rw [if_neg (fun h' => ((not_admissible_iff ..).1 h') h)]
  have hl := h.linear
  simp only
  rw [racahSum_ok]
  · rw [factProd_ok, factProd_ok, fact_ok (by omega)]
    · simp [bind, Except.bind, pure, Except.pure, value, sum_intRange, mul_assoc]
    · intro n hn
      simp only [List.mem_cons, List.not_mem_nil, or_false] at hn
      omega
    · intro n hn
      simp only [List.mem_cons, List.not_mem_nil, or_false] at hn
      omega
  · intro t ht
    rw [mem_intRange] at ht
    simp only [max_le_iff, le_min_iff] at ht
    omega

theorem neg_one_zpow_congr {a b : ℤ} (h : Even (a - b)) : ((-1 : ℝ)) ^ a = (-1) ^ b := by
  have : a = b + (a - b) := by ring
  rw [this, zpow_add₀ (by norm_num), h.neg_one_zpow, mul_one]

/-- exchange of the first two columns. -/
theorem value_swap12 {l1 l2 l3 m1 m2 m3 : ℤ} :
    value l2 l1 l3 m2 m1 m3 = (-1 : ℝ) ^ (l1 + l2 + l3) * value l1 l2 l3 m1 m2 m3 := by
  unfold value
  have hs : (∑ t ∈ Finset.Icc (max 0 (max (l1 - l3 - m2) (l2 - l3 + m1))) (min (l2 + l1 - l3) (min (l2 - m2) (l1 + m1))),
      term (l1 - l3 - m2) (l2 - l3 + m1) (l2 + l1 - l3) (l2 - m2) (l1 + m1) t) =
      (-1 : ℝ) ^ (l1 + l2 - l3) * ∑ t ∈ Finset.Icc (max 0 (max (l2 - l3 - m1) (l1 - l3 + m2)))
        (min (l1 + l2 - l3) (min (l1 - m1) (l2 + m2))),
        term (l2 - l3 - m1) (l1 - l3 + m2) (l1 + l2 - l3) (l1 - m1) (l2 + m2) t := by
    rw [Finset.mul_sum]
    refine Finset.sum_nbij' (fun t => l1 + l2 - l3 - t) (fun t => l1 + l2 - l3 - t) ?_ ?_ ?_ ?_ ?_
    · intro t ht
      simp only [Finset.mem_Icc, max_le_iff, le_min_iff] at ht ⊢
      omega
    · intro t ht
      simp only [Finset.mem_Icc, max_le_iff, le_min_iff] at ht ⊢
      omega
    · intro t _; ring
    · intro t _; ring
    · intro t ht
      unfold term
      rw [← mul_div_assoc, ← zpow_add₀ (by norm_num)]
      rw [neg_one_zpow_congr (a := t) (b := l1 + l2 - l3 + (l1 + l2 - l3 - t)) ⟨t - (l1 + l2 - l3), by ring⟩]
      congr 1
      rw [show l1 + l2 - l3 - t - (l2 - l3 - m1) = l1 + m1 - t by ring,
        show l1 + l2 - l3 - t - (l1 - l3 + m2) = l2 - m2 - t by ring,
        show l1 + l2 - l3 - (l1 + l2 - l3 - t) = t by ring,
        show l1 - m1 - (l1 + l2 - l3 - t) = t - (l2 - l3 + m1) by ring,
        show l2 + m2 - (l1 + l2 - l3 - t) = t - (l1 - l3 - m2) by ring,
        show l2 + l1 - l3 - t = l1 + l2 - l3 - t by ring]
      ring
  rw [hs]
  rw [neg_one_zpow_congr (a := l2 - l1 - m3) (b := l1 - l2 - m3) ⟨l2 - l1, by ring⟩,
    neg_one_zpow_congr (a := l1 + l2 - l3) (b := l1 + l2 + l3) ⟨-l3, by ring⟩]
  rw [show zf (l2 + l1 - l3) * zf (l2 - l1 + l3) * zf (-l2 + l1 + l3) / zf (l2 + l1 + l3 + 1)
      = zf (l1 + l2 - l3) * zf (l1 - l2 + l3) * zf (-l1 + l2 + l3) / zf (l1 + l2 + l3 + 1) by
    rw [show l2 + l1 - l3 = l1 + l2 - l3 by ring, show l2 - l1 + l3 = -l1 + l2 + l3 by ring,
      show -l2 + l1 + l3 = l1 - l2 + l3 by ring, show l2 + l1 + l3 + 1 = l1 + l2 + l3 + 1 by ring]
    ring]
  rw [show zf (l2 + m2) * zf (l2 - m2) * zf (l1 + m1) * zf (l1 - m1) * zf (l3 + m3) * zf (l3 - m3)
      = zf (l1 + m1) * zf (l1 - m1) * zf (l2 + m2) * zf (l2 - m2) * zf (l3 + m3) * zf (l3 - m3) by ring]
  ring

/-- exchange of the last two columns. -/
theorem value_swap23 {l1 l2 l3 m1 m2 m3 : ℤ} (h0 : m1 + m2 + m3 = 0) :
    value l1 l3 l2 m1 m3 m2 = (-1 : ℝ) ^ (l1 + l2 + l3) * value l1 l2 l3 m1 m2 m3 := by
  obtain rfl : m3 = -m1 - m2 := by omega
  unfold value
  have hs : (∑ t ∈ Finset.Icc (max 0 (max (l3 - l2 - m1) (l1 - l2 + (-m1 - m2))))
      (min (l1 + l3 - l2) (min (l1 - m1) (l3 + (-m1 - m2)))),
      term (l3 - l2 - m1) (l1 - l2 + (-m1 - m2)) (l1 + l3 - l2) (l1 - m1) (l3 + (-m1 - m2)) t) =
      (-1 : ℝ) ^ (l1 - m1) * ∑ t ∈ Finset.Icc (max 0 (max (l2 - l3 - m1) (l1 - l3 + m2)))
        (min (l1 + l2 - l3) (min (l1 - m1) (l2 + m2))),
        term (l2 - l3 - m1) (l1 - l3 + m2) (l1 + l2 - l3) (l1 - m1) (l2 + m2) t := by
    rw [Finset.mul_sum]
    refine Finset.sum_nbij' (fun t => l1 - m1 - t) (fun t => l1 - m1 - t) ?_ ?_ ?_ ?_ ?_
    · intro t ht
      simp only [Finset.mem_Icc, max_le_iff, le_min_iff] at ht ⊢
      omega
    · intro t ht
      simp only [Finset.mem_Icc, max_le_iff, le_min_iff] at ht ⊢
      omega
    · intro t _; ring
    · intro t _; ring
    · intro t ht
      unfold term
      rw [← mul_div_assoc, ← zpow_add₀ (by norm_num)]
      rw [neg_one_zpow_congr (a := t) (b := l1 - m1 + (l1 - m1 - t)) ⟨t - (l1 - m1), by ring⟩]
      congr 1
      rw [show l1 - m1 - t - (l2 - l3 - m1) = l1 + l3 - l2 - t by ring,
        show l1 - m1 - t - (l1 - l3 + m2) = l3 + (-m1 - m2) - t by ring,
        show l1 + l2 - l3 - (l1 - m1 - t) = t - (l3 - l2 - m1) by ring,
        show l1 - m1 - (l1 - m1 - t) = t by ring,
        show l2 + m2 - (l1 - m1 - t) = t - (l1 - l2 + (-m1 - m2)) by ring]
      ring
  rw [hs]
  rw [show zf (l1 + l3 - l2) * zf (l1 - l3 + l2) * zf (-l1 + l3 + l2) / zf (l1 + l3 + l2 + 1)
      = zf (l1 + l2 - l3) * zf (l1 - l2 + l3) * zf (-l1 + l2 + l3) / zf (l1 + l2 + l3 + 1) by
    rw [show l1 + l3 - l2 = l1 - l2 + l3 by ring, show l1 - l3 + l2 = l1 + l2 - l3 by ring,
      show -l1 + l3 + l2 = -l1 + l2 + l3 by ring, show l1 + l3 + l2 + 1 = l1 + l2 + l3 + 1 by ring]
    ring]
  rw [show zf (l1 + m1) * zf (l1 - m1) * zf (l3 + (-m1 - m2)) * zf (l3 - (-m1 - m2)) * zf (l2 + m2) * zf (l2 - m2)
      = zf (l1 + m1) * zf (l1 - m1) * zf (l2 + m2) * zf (l2 - m2) * zf (l3 + (-m1 - m2)) * zf (l3 - (-m1 - m2)) by ring]
  have hsign : (-1 : ℝ) ^ (l1 - m1) * (-1 : ℝ) ^ (l1 - l3 - m2) = (-1) ^ (l1 + l2 + l3) * (-1) ^ (l1 - l2 - (-m1 - m2)) := by
    rw [← zpow_add₀ (by norm_num), ← zpow_add₀ (by norm_num)]
    exact neg_one_zpow_congr ⟨-l3 - m1 - m2, by ring⟩
  linear_combination (∑ t ∈ Finset.Icc (max 0 (max (l2 - l3 - m1) (l1 - l3 + m2)))
        (min (l1 + l2 - l3) (min (l1 - m1) (l2 + m2))),
        term (l2 - l3 - m1) (l1 - l3 + m2) (l1 + l2 - l3) (l1 - m1) (l2 + m2) t) *
    Real.sqrt (zf (l1 + l2 - l3) * zf (l1 - l2 + l3) * zf (-l1 + l2 + l3) / zf (l1 + l2 + l3 + 1)) *
    Real.sqrt (zf (l1 + m1) * zf (l1 - m1) * zf (l2 + m2) * zf (l2 - m2) * zf (l3 + (-m1 - m2)) * zf (l3 - (-m1 - m2)))
    * hsign

/-- negation of all orders. -/
theorem value_neg {l1 l2 l3 m1 m2 m3 : ℤ} :
    value l1 l2 l3 (-m1) (-m2) (-m3) = (-1 : ℝ) ^ (l1 + l2 + l3) * value l1 l2 l3 m1 m2 m3 := by
  unfold value
  have hs : (∑ t ∈ Finset.Icc (max 0 (max (l2 - l3 - -m1) (l1 - l3 + -m2))) (min (l1 + l2 - l3) (min (l1 - -m1) (l2 + -m2))),
      term (l2 - l3 - -m1) (l1 - l3 + -m2) (l1 + l2 - l3) (l1 - -m1) (l2 + -m2) t) =
      (-1 : ℝ) ^ (l1 + l2 - l3) * ∑ t ∈ Finset.Icc (max 0 (max (l2 - l3 - m1) (l1 - l3 + m2)))
        (min (l1 + l2 - l3) (min (l1 - m1) (l2 + m2))),
        term (l2 - l3 - m1) (l1 - l3 + m2) (l1 + l2 - l3) (l1 - m1) (l2 + m2) t := by
    rw [Finset.mul_sum]
    refine Finset.sum_nbij' (fun t => l1 + l2 - l3 - t) (fun t => l1 + l2 - l3 - t) ?_ ?_ ?_ ?_ ?_
    · intro t ht
      simp only [Finset.mem_Icc, max_le_iff, le_min_iff] at ht ⊢
      omega
    · intro t ht
      simp only [Finset.mem_Icc, max_le_iff, le_min_iff] at ht ⊢
      omega
    · intro t _; ring
    · intro t _; ring
    · intro t ht
      unfold term
      rw [← mul_div_assoc, ← zpow_add₀ (by norm_num)]
      rw [neg_one_zpow_congr (a := t) (b := l1 + l2 - l3 + (l1 + l2 - l3 - t)) ⟨t - (l1 + l2 - l3), by ring⟩]
      congr 1
      rw [show l1 + l2 - l3 - t - (l2 - l3 - m1) = l1 - -m1 - t by ring,
        show l1 + l2 - l3 - t - (l1 - l3 + m2) = l2 + -m2 - t by ring,
        show l1 + l2 - l3 - (l1 + l2 - l3 - t) = t by ring,
        show l1 - m1 - (l1 + l2 - l3 - t) = t - (l2 - l3 - -m1) by ring,
        show l2 + m2 - (l1 + l2 - l3 - t) = t - (l1 - l3 + -m2) by ring]
      ring
  rw [hs]
  rw [neg_one_zpow_congr (a := l1 - l2 - -m3) (b := l1 - l2 - m3) ⟨m3, by ring⟩,
    neg_one_zpow_congr (a := l1 + l2 - l3) (b := l1 + l2 + l3) ⟨-l3, by ring⟩]
  rw [show zf (l1 + -m1) * zf (l1 - -m1) * zf (l2 + -m2) * zf (l2 - -m2) * zf (l3 + -m3) * zf (l3 - -m3)
      = zf (l1 + m1) * zf (l1 - m1) * zf (l2 + m2) * zf (l2 - m2) * zf (l3 + m3) * zf (l3 - m3) by
    simp only [sub_neg_eq_add, ← sub_eq_add_neg]; ring]
  ring

end Sleplet.Wigner
