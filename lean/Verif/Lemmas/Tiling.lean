import Mathlib.MeasureTheory.Integral.IntervalIntegral.FundThmCalculus
import Mathlib.Tactic.Linarith
import Mathlib.Tactic.Positivity
import Mathlib.Tactic.FieldSimp
import Verif.Model.Tiling

/-! Values of the generating functions of the wavelets. -/
namespace Sleplet.Tiling

variable {B : ℕ}

private theorem hB0 (hB : 2 ≤ B) : (0 : ℝ) < B := by positivity

private theorem hB1 (hB : 2 ≤ B) : (1 : ℝ) < B := by exact_mod_cast hB

theorem continuous_bump (B : ℕ) : Continuous (bump B) := by
  unfold bump schwartz
  exact (expNegInvGlue.contDiff (n := 0)).continuous.comp (by fun_prop)

theorem bump_pos (hB : 2 ≤ B) {t : ℝ} (h1 : 1 / (B : ℝ) < t) (h2 : t < 1) : 0 < bump B t := by
  have h0 := hB0 hB
  have hb := hB1 hB
  unfold bump schwartz
  apply expNegInvGlue.pos_of_pos
  set x := 2 * (B : ℝ) / (B - 1) * (t - 1 / B) with hx
  have hp : 0 < x := by rw [hx]; exact mul_pos (div_pos (by linarith) (by linarith)) (by linarith)
  have hl : x < 2 := by
    have : x = 2 * ((B * t - 1) / (B - 1)) := by rw [hx]; field_simp
    rw [this]
    have h3 : (B * t - 1) / ((B : ℝ) - 1) < 1 := by rw [div_lt_one (by linarith)]; nlinarith
    linarith
  nlinarith

private theorem density_cont {a b : ℝ} (ha : 0 < a) (hb : 0 < b) : ContinuousOn (density B) (Set.uIcc a b) := by
  unfold density
  refine ((continuous_bump B).pow 2).continuousOn.div continuousOn_id fun u hu => ?_
  have : 0 < u := lt_of_lt_of_le (lt_min ha hb) hu.1
  exact this.ne'

private theorem integral_pos' (hB : 2 ≤ B) {a b : ℝ} (ha : 1 / (B : ℝ) ≤ a) (hab : a < b) (hb : b ≤ 1) : 0 < ∫ u in a..b, density B u := by
  have h0 := hB0 hB
  have hq : 0 < 1 / (B : ℝ) := by positivity
  refine intervalIntegral.intervalIntegral_pos_of_pos_on ((density_cont (by linarith) (by linarith)).intervalIntegrable) (fun x hx => ?_) hab
  unfold density
  exact div_pos (pow_pos (bump_pos hB (by linarith [hx.1]) (by linarith [hx.2])) 2) (by linarith [hx.1])

theorem step_left (hB : 2 ≤ B) : step B (1 / (B : ℝ)) = 1 := by
  unfold step
  exact div_self (integral_pos' hB le_rfl (by rw [div_lt_one (hB0 hB)]; exact hB1 hB) le_rfl).ne'

theorem step_right (B : ℕ) : step B 1 = 0 := by
  unfold step
  simp

theorem step_between (hB : 2 ≤ B) {t : ℝ} (h1 : 1 / (B : ℝ) < t) (h2 : t < 1) : 0 < step B t ∧ step B t < 1 := by
  have h0 := hB0 hB
  have hq : 0 < 1 / (B : ℝ) := by positivity
  have p1 := integral_pos' hB h1.le h2 le_rfl
  have p2 := integral_pos' hB le_rfl h1 h2.le
  have hsum : (∫ u in (1 / (B : ℝ))..t, density B u) + ∫ u in t..1, density B u = ∫ u in (1 / (B : ℝ))..1, density B u :=
    intervalIntegral.integral_add_adjacent_intervals (density_cont hq (by linarith)).intervalIntegrable
      (density_cont (by linarith) one_pos).intervalIntegrable
  unfold step
  exact ⟨div_pos p1 (by linarith), by rw [div_lt_one (by linarith)]; linarith⟩

theorem phi2_one (hB : 2 ≤ B) {j l : ℕ} (h : l * B ≤ B ^ j) : phi2 B j l = 1 := by
  have h0 := hB0 hB
  have hr : (l : ℝ) * B ≤ (B : ℝ) ^ j := by exact_mod_cast h
  have hp : (0 : ℝ) < (B : ℝ) ^ j := by positivity
  unfold phi2
  split_ifs with h1 h2
  · rfl
  · have : (B : ℝ) ^ j ≤ B ^ j / B := le_trans h2.le (by rwa [le_div_iff₀ h0])
    have : (B : ℝ) ^ j / B < (B : ℝ) ^ j := div_lt_self hp (hB1 hB)
    linarith
  · have : (l : ℝ) = (B : ℝ) ^ j / B := le_antisymm (by rwa [le_div_iff₀ h0]) (not_lt.1 h1)
    rw [this, div_right_comm, div_self hp.ne']
    exact step_left hB

theorem phi2_zero (hB : 2 ≤ B) {j l : ℕ} (h : B ^ j ≤ l) : phi2 B j l = 0 := by
  have h0 := hB0 hB
  have hr : (B : ℝ) ^ j ≤ l := by exact_mod_cast h
  have hp : (0 : ℝ) < (B : ℝ) ^ j := by positivity
  have hlt : (B : ℝ) ^ j / B < (B : ℝ) ^ j := div_lt_self hp (hB1 hB)
  unfold phi2
  rw [if_neg (by linarith)]
  split_ifs with h2
  · rfl
  · have : (l : ℝ) = (B : ℝ) ^ j := le_antisymm (not_lt.1 h2) hr
    rw [this, div_self hp.ne']
    exact step_right B

theorem phi2_between (hB : 2 ≤ B) {j l : ℕ} (h1 : B ^ j < l * B) (h2 : l < B ^ j) : 0 < phi2 B j l ∧ phi2 B j l < 1 := by
  have h0 := hB0 hB
  have hr1 : (B : ℝ) ^ j < l * B := by exact_mod_cast h1
  have hr2 : (l : ℝ) < (B : ℝ) ^ j := by exact_mod_cast h2
  have hp : (0 : ℝ) < (B : ℝ) ^ j := by positivity
  unfold phi2
  have h3 : (B : ℝ) ^ j / B < l := by rwa [div_lt_iff₀ h0]
  rw [if_neg (by linarith), if_neg (by linarith)]
  refine step_between hB ?_ (by rwa [div_lt_one hp])
  rw [lt_div_iff₀ hp, one_div_mul_eq_div]
  exact h3

theorem phi2_mem (hB : 2 ≤ B) (j l : ℕ) : 0 ≤ phi2 B j l ∧ phi2 B j l ≤ 1 := by
  by_cases h1 : l * B ≤ B ^ j
  · rw [phi2_one hB h1]; norm_num
  by_cases h2 : B ^ j ≤ l
  · rw [phi2_zero hB h2]; norm_num
  have := phi2_between hB (not_le.1 h1) (not_le.1 h2)
  exact ⟨this.1.le, this.2.le⟩

theorem phi2_mono (hB : 2 ≤ B) (j l : ℕ) : phi2 B j l ≤ phi2 B (j + 1) l := by
  by_cases h : B ^ j ≤ l
  · rw [phi2_zero hB h]; exact (phi2_mem hB _ _).1
  · rw [phi2_one hB (j := j + 1) (l := l) (by rw [pow_succ]; exact Nat.mul_le_mul_right _ (not_le.1 h).le)]
    exact (phi2_mem hB _ _).2

theorem phi2_ne_zero (hB : 2 ≤ B) (j l : ℕ) : phi2 B j l ≠ 0 ↔ l < B ^ j := by
  constructor
  · intro h
    by_contra hn
    exact h (phi2_zero hB (not_lt.1 hn))
  · intro h
    by_cases h1 : l * B ≤ B ^ j
    · rw [phi2_one hB h1]; norm_num
    · exact (phi2_between hB (not_le.1 h1) h).1.ne'

theorem diff_pos_iff (hB : 2 ≤ B) (j l : ℕ) : 0 < phi2 B (j + 1) l - phi2 B j l ↔ B ^ j < l * B ∧ l < B ^ (j + 1) := by
  constructor
  · intro h
    constructor
    · by_contra hn
      have h1 := not_lt.1 hn
      rw [phi2_one hB h1, phi2_one hB (h1.trans (Nat.pow_le_pow_right (by omega) (by omega)))] at h
      linarith
    · by_contra hn
      have h1 := not_lt.1 hn
      rw [phi2_zero hB h1, phi2_zero hB (le_trans (Nat.pow_le_pow_right (by omega) (by omega)) h1)] at h
      linarith
  · rintro ⟨h1, h2⟩
    by_cases h3 : l < B ^ j
    · rw [phi2_one hB (j := j + 1) (by rw [pow_succ]; exact Nat.mul_le_mul_right _ h3.le)]
      linarith [(phi2_between hB h1 h3).2]
    · rw [phi2_zero hB (not_lt.1 h3), sub_zero]
      exact lt_of_le_of_ne (phi2_mem hB _ _).1 (Ne.symm ((phi2_ne_zero hB _ _).2 h2))

theorem telescope (B l jMin k : ℕ) : ((List.range k).map fun i => phi2 B (jMin + i + 1) l - phi2 B (jMin + i) l).sum = phi2 B (jMin + k) l - phi2 B jMin l := by
  induction k with
  | zero => simp
  | succ k ih => rw [List.range_succ, List.map_append, List.sum_append, ih]; simp; ring_nf

end Sleplet.Tiling
