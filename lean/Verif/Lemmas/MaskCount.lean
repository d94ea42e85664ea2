import Mathlib.Data.Fin.Tuple.Sort
import Verif.Lemmas.Integration

/-! The area of a mask against the numbers of its samples on the rings of the grid. -/
namespace Sleplet.Integration

open Real

theorem abel {n d : ℕ → ℝ} (hn : ∀ i, n (i + 1) ≤ n i) (h0 : ∀ i, 0 ≤ n i) (M : ℕ) (hd : ∀ r ≤ M, 0 ≤ ∑ i ∈ Finset.range r, d i) :
    0 ≤ ∑ i ∈ Finset.range M, n i * d i := by
  have key : ∀ r ≤ M, n r * ∑ i ∈ Finset.range r, d i ≤ ∑ i ∈ Finset.range r, n i * d i := by
    intro r
    induction r with
    | zero => simp
    | succ r ih =>
      intro hr
      have h1 := ih (by omega)
      have h2 := mul_le_mul_of_nonneg_right (hn r) (hd (r + 1) hr)
      rw [Finset.sum_range_succ (fun i => n i * d i)]
      refine h2.trans ?_
      rw [Finset.sum_range_succ, mul_add]
      linarith
  exact (mul_nonneg (h0 M) (hd M le_rfl)).trans (key M le_rfl)

/-- how many samples of ring `t` are in the mask. -/
def ringCount {L : ℕ} (m : Grid (2 * L) → Bool) (t : ℕ) : ℕ :=
  if h : t < 2 * L + 1 then (Finset.univ.filter fun p : Fin (2 * (2 * L)) => m (⟨t, h⟩, p) = true).card else 0

theorem ringCount_le {L : ℕ} (m : Grid (2 * L) → Bool) (t : ℕ) : ringCount m t ≤ 4 * L := by
  unfold ringCount
  split
  · refine (Finset.card_filter_le _ _).trans ?_
    simp only [Finset.card_univ, Fintype.card_fin]
    omega
  · omega

theorem maskArea_rings {L : ℕ} (hL : 1 ≤ L) (m : Grid (2 * L) → Bool) :
    (L : ℝ) ^ 2 / (4 * π) * maskArea L m = π / 16 * ∑ t ∈ Finset.range (2 * L - 1), (ringCount m (t + 1) : ℝ) * sin (((t + 1 : ℕ) : ℝ) * (π / (2 * L))) := by
  have h1 : maskArea L m = ∑ t ∈ Finset.range (2 * L + 1), (ringCount m t : ℝ) * (sin ((t : ℝ) * (π / (2 * L))) * (π / (2 * L)) * (π / (2 * L))) := by
    unfold maskArea
    rw [Fintype.sum_prod_type, Finset.sum_range]
    refine Finset.sum_congr rfl fun t _ => ?_
    simp only [weight_eq (show 1 ≤ 2 * L by omega)]
    rw [← Finset.sum_mul]
    push_cast
    congr 1
    unfold ringCount
    rw [dif_pos t.2]
    simp
  rw [h1, show 2 * L + 1 = (2 * L - 1 + 1) + 1 by omega, Finset.sum_range_succ, Finset.sum_range_succ']
  have hLr : (L : ℝ) ≠ 0 := by positivity
  have e1 : (((2 * L - 1 + 1 : ℕ)) : ℝ) * (π / (2 * L)) = π := by
    rw [show 2 * L - 1 + 1 = 2 * L by omega]
    push_cast
    field_simp
  rw [e1, sin_pi]
  simp only [Nat.cast_zero, zero_mul, sin_zero, mul_zero, add_zero]
  rw [Finset.mul_sum, Finset.mul_sum]
  refine Finset.sum_congr rfl fun t _ => ?_
  have := pi_pos.ne'
  field_simp
  ring

/-- with the rings in a decreasing order of their samples, the area is no more than the count of fields that the samples tell apart. -/
theorem area_le_count {L : ℕ} (hL : 1 ≤ L) (m : Grid (2 * L) → Bool) : ∃ σ : Equiv.Perm (Fin (2 * L - 1)),
    (L : ℝ) ^ 2 / (4 * π) * maskArea L m ≤
      ∑ i : Fin L, (min (ringCount m (σ ⟨i, by have := i.2; omega⟩ + 1)) (2 * (L - 1 - (i : ℕ)) + 1) : ℕ) := by
  have hpi := pi_pos
  have hLr : (1 : ℝ) ≤ L := by exact_mod_cast hL
  let g : Fin (2 * L - 1) → ℕᵒᵈ := fun t => OrderDual.toDual (ringCount m (t + 1))
  let σ := Tuple.sort g
  have hσ : Monotone (g ∘ σ) := Tuple.monotone_sort g
  refine ⟨σ, ?_⟩
  let n : ℕ → ℝ := fun i => if h : i < 2 * L - 1 then (ringCount m (σ ⟨i, h⟩ + 1) : ℝ) else 0
  let s : ℕ → ℝ := fun i => if h : i < 2 * L - 1 then sin (((σ ⟨i, h⟩ + 1 : ℕ) : ℝ) * (π / (2 * L))) else 0
  let b : ℕ → ℝ := fun i => if i < L then 2 * ((L : ℝ) - 1 - i) + 1 else 0
  have hn0 : ∀ i, 0 ≤ n i := by
    intro i
    simp only [n]
    split <;> positivity
  have hn : ∀ i, n (i + 1) ≤ n i := by
    intro i
    by_cases h : i + 1 < 2 * L - 1
    · have h' : i < 2 * L - 1 := by omega
      simp only [n, h, h', dif_pos]
      have : (⟨i, h'⟩ : Fin (2 * L - 1)) ≤ ⟨i + 1, h⟩ := by simp
      have := hσ this
      have : ringCount m (σ ⟨i + 1, h⟩ + 1) ≤ ringCount m (σ ⟨i, h'⟩ + 1) := this
      exact_mod_cast this
    · have : n (i + 1) = 0 := dif_neg h
      rw [this]
      exact hn0 i
  have hs0 : ∀ i, 0 ≤ s i := by
    intro i
    simp only [s]
    split
    · rename_i h
      refine sin_nonneg_of_nonneg_of_le_pi (by positivity) ?_
      have h1 := (σ ⟨i, h⟩).2
      have : ((σ ⟨i, h⟩ + 1 : ℕ) : ℝ) ≤ 2 * L := by exact_mod_cast (by omega : (σ ⟨i, h⟩ + 1 : ℕ) ≤ 2 * L)
      calc ((σ ⟨i, h⟩ + 1 : ℕ) : ℝ) * (π / (2 * L)) ≤ 2 * L * (π / (2 * L)) := by gcongr
        _ = π := by field_simp
    · exact le_rfl
  have hs1 : ∀ i, s i ≤ 1 := by
    intro i
    simp only [s]
    split
    · exact sin_le_one _
    · exact zero_le_one
  have hperm : ∀ F : ℕ → ℝ, ∑ i ∈ Finset.range (2 * L - 1), (if h : i < 2 * L - 1 then F (σ ⟨i, h⟩) else 0) = ∑ t ∈ Finset.range (2 * L - 1), F t := by
    intro F
    rw [Finset.sum_range, Finset.sum_range]
    simp only [Fin.is_lt, dif_pos, Fin.eta]
    exact Equiv.sum_comp σ fun t : Fin (2 * L - 1) => F t
  have hS : (L : ℝ) ^ 2 / (4 * π) * maskArea L m = π / 16 * ∑ i ∈ Finset.range (2 * L - 1), n i * s i := by
    rw [maskArea_rings hL, ← hperm fun t => (ringCount m (t + 1) : ℝ) * sin (((t + 1 : ℕ) : ℝ) * (π / (2 * L)))]
    congr 1
    refine Finset.sum_congr rfl fun i hi => ?_
    have hi := Finset.mem_range.1 hi
    simp only [n, s, hi, dif_pos]
  have hall : ∑ i ∈ Finset.range (2 * L - 1), s i ≤ 4 * L / π := by
    have h1 : ∑ i ∈ Finset.range (2 * L - 1), s i = cos (π / (2 * (2 * L))) / sin (π / (2 * (2 * L))) := by
      have h2 := hperm fun t => sin (((t + 1 : ℕ) : ℝ) * (π / (2 * L)))
      have h3 := sum_sin (show 1 ≤ 2 * L by omega)
      rw [show 2 * L + 1 = (2 * L - 1 + 1) + 1 by omega, Finset.sum_range_succ, Finset.sum_range_succ'] at h3
      have e1 : (((2 * L - 1 + 1 : ℕ)) : ℝ) * (π / ((2 * L : ℕ) : ℝ)) = π := by
        rw [show 2 * L - 1 + 1 = 2 * L by omega]
        push_cast
        field_simp
      rw [e1, sin_pi] at h3
      simp only [Nat.cast_zero, zero_mul, sin_zero, add_zero] at h3
      push_cast at h3
      rw [← h3]
      push_cast at h2
      rw [← h2]
      refine Finset.sum_congr rfl fun i hi => ?_
      simp only [s]
      push_cast
      rfl
    rw [h1]
    have h2 := cot_lt (y := π / (2 * (2 * L))) (by positivity) (by
      rw [div_le_div_iff₀ (by positivity) (by positivity)]
      nlinarith)
    rw [le_div_iff₀ hpi]
    have h3 : π / (2 * (2 * (L : ℝ))) * (cos (π / (2 * (2 * L))) / sin (π / (2 * (2 * L)))) * (4 * L) =
        cos (π / (2 * (2 * L))) / sin (π / (2 * (2 * L))) * π := by
      field_simp
      ring
    rw [← h3]
    nlinarith
  have hb : ∀ r ≤ L, ∑ i ∈ Finset.range r, b i = 2 * L * r - (r : ℝ) ^ 2 := by
    intro r
    induction r with
    | zero => simp
    | succ r ih =>
      intro hr
      rw [Finset.sum_range_succ, ih (by omega)]
      have : b r = 2 * ((L : ℝ) - 1 - r) + 1 := if_pos (by omega)
      rw [this]
      push_cast
      ring
  have hb0 : ∀ i, L ≤ i → b i = 0 := fun i hi => if_neg (by omega)
  have hd : ∀ r ≤ 2 * L - 1, 0 ≤ ∑ i ∈ Finset.range r, (b i - π * L / 4 * s i) := by
    intro r hr
    rw [Finset.sum_sub_distrib, ← Finset.mul_sum, sub_nonneg]
    rcases le_or_gt r L with h | h
    · rw [hb r h]
      have h1 : ∑ i ∈ Finset.range r, s i ≤ r := by
        have := Finset.sum_le_sum fun i (_ : i ∈ Finset.range r) => hs1 i
        simpa using this
      have h2 : (r : ℝ) ≤ L := by exact_mod_cast h
      have h3 : π * L / 4 * ∑ i ∈ Finset.range r, s i ≤ L * r := by
        calc π * L / 4 * ∑ i ∈ Finset.range r, s i ≤ π * L / 4 * r := by gcongr
          _ ≤ L * r := by
            have := pi_le_four
            have hr0 : (0 : ℝ) ≤ r := Nat.cast_nonneg r
            have : π * L / 4 ≤ L := by nlinarith
            gcongr
      have hr0 : (0 : ℝ) ≤ r := Nat.cast_nonneg r
      nlinarith
    · have h1 : ∑ i ∈ Finset.range r, b i = (L : ℝ) ^ 2 := by
        obtain ⟨k, rfl⟩ := Nat.exists_eq_add_of_le h.le
        rw [Finset.sum_range_add, hb L le_rfl, Finset.sum_eq_zero fun i _ => hb0 _ (by omega)]
        ring
      have h2 : ∑ i ∈ Finset.range r, s i ≤ ∑ i ∈ Finset.range (2 * L - 1), s i :=
        Finset.sum_le_sum_of_subset_of_nonneg (Finset.range_mono hr) fun i _ _ => hs0 i
      rw [h1]
      calc π * L / 4 * ∑ i ∈ Finset.range r, s i ≤ π * L / 4 * (4 * L / π) := by gcongr; exact h2.trans hall
        _ = (L : ℝ) ^ 2 := by field_simp
  have habel := abel hn hn0 (2 * L - 1) hd
  have hnb : ∑ i ∈ Finset.range (2 * L - 1), n i * b i = ∑ i ∈ Finset.range L, n i * b i := by
    obtain ⟨k, hk⟩ := Nat.exists_eq_add_of_le (show L ≤ 2 * L - 1 by omega)
    rw [hk, Finset.sum_range_add, Finset.sum_eq_zero (s := Finset.range k) fun i _ => by rw [hb0 _ (by omega), mul_zero], add_zero]
  have hmin : ∑ i ∈ Finset.range L, n i * b i ≤ 4 * L * ∑ i : Fin L,
      ((min (ringCount m (σ ⟨i, by have := i.2; omega⟩ + 1)) (2 * (L - 1 - (i : ℕ)) + 1) : ℕ) : ℝ) := by
    rw [Finset.sum_range, Finset.mul_sum]
    refine Finset.sum_le_sum fun i _ => ?_
    have hi : (i : ℕ) < 2 * L - 1 := by have := i.2; omega
    have h1 : n i = (ringCount m (σ ⟨i, hi⟩ + 1) : ℝ) := dif_pos hi
    have h2 : b i = ((2 * (L - 1 - (i : ℕ)) + 1 : ℕ) : ℝ) := by
      have : b i = 2 * ((L : ℝ) - 1 - (i : ℕ)) + 1 := if_pos i.2
      rw [this]
      have h3 : ((L - 1 - (i : ℕ) : ℕ) : ℝ) = (L : ℝ) - 1 - (i : ℕ) := by
        rw [Nat.cast_sub (by have := i.2; omega), Nat.cast_sub hL]
        simp
      push_cast
      rw [h3]
    rw [h1, h2]
    have h3 := ringCount_le m (σ ⟨i, hi⟩ + 1)
    have h4 : 2 * (L - 1 - (i : ℕ)) + 1 ≤ 4 * L := by omega
    have : ringCount m (σ ⟨i, hi⟩ + 1) * (2 * (L - 1 - (i : ℕ)) + 1) ≤
        4 * L * min (ringCount m (σ ⟨i, hi⟩ + 1)) (2 * (L - 1 - (i : ℕ)) + 1) := by
      rcases le_total (ringCount m (σ ⟨i, hi⟩ + 1)) (2 * (L - 1 - (i : ℕ)) + 1) with h | h
      · rw [min_eq_left h, mul_comm]
        exact Nat.mul_le_mul_right _ h4
      · rw [min_eq_right h]
        exact Nat.mul_le_mul_right _ h3
    exact_mod_cast this
  have hfin : ∑ i ∈ Finset.range (2 * L - 1), n i * (b i - π * L / 4 * s i) =
      ∑ i ∈ Finset.range (2 * L - 1), n i * b i - π * L / 4 * ∑ i ∈ Finset.range (2 * L - 1), n i * s i := by
    rw [Finset.mul_sum, ← Finset.sum_sub_distrib]
    exact Finset.sum_congr rfl fun i _ => by ring
  rw [hfin, hnb] at habel
  rw [hS]
  push_cast at hmin ⊢
  have h5 : 4 * (L : ℝ) * (π / 16 * ∑ i ∈ Finset.range (2 * L - 1), n i * s i) = π * L / 4 * ∑ i ∈ Finset.range (2 * L - 1), n i * s i := by ring
  refine le_of_mul_le_mul_left ?_ (show (0 : ℝ) < 4 * L by positivity)
  rw [h5]
  linarith

end Sleplet.Integration
