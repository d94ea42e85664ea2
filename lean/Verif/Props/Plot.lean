import Mathlib.Tactic.IntervalCases
import Mathlib.Tactic.NormNum
import Verif.Lemmas.Plot

/-!
C39, C40, C41, C42, C43, C60.
-/
namespace Sleplet.Props

open Sleplet.Plot

/-! ### C40 -/

/-- C40. The plot resolution for every bandlimit. -/
theorem C40_plot_resolution (L : ℕ) :
    (L < 2 → calcPlotResolution L = L * 64) ∧ (2 ≤ L → L < 4 → calcPlotResolution L = L * 32) ∧
    (4 ≤ L → L < 8 → calcPlotResolution L = L * 16) ∧ (8 ≤ L → L < 128 → calcPlotResolution L = L * 8) ∧
    (128 ≤ L → L < 512 → calcPlotResolution L = L * 4) ∧ (512 ≤ L → L < 1024 → calcPlotResolution L = L * 2) ∧
    (1024 ≤ L → calcPlotResolution L = L) := by
  refine ⟨?_, ?_, ?_, ?_, ?_, ?_, ?_⟩
  · intro h; simp [calcPlotResolution, resTable, h]
  · intro h1 h2
    simp [calcPlotResolution, resTable, h2, Nat.not_lt.2 h1]
  · intro h1 h2
    simp [calcPlotResolution, resTable, h2, show ¬ L < 2 by omega, show ¬ L < 4 by omega]
  · intro h1 h2
    simp [calcPlotResolution, resTable, h2, show ¬ L < 2 by omega, show ¬ L < 4 by omega,
      show ¬ L < 8 by omega]
  · intro h1 h2
    simp [calcPlotResolution, resTable, h2, show ¬ L < 2 by omega, show ¬ L < 4 by omega,
      show ¬ L < 8 by omega, show ¬ L < 128 by omega]
  · intro h1 h2
    simp [calcPlotResolution, resTable, h2, show ¬ L < 2 by omega, show ¬ L < 4 by omega,
      show ¬ L < 8 by omega, show ¬ L < 128 by omega, show ¬ L < 512 by omega]
  · intro h1
    simp [calcPlotResolution, resTable, show ¬ L < 2 by omega, show ¬ L < 4 by omega,
      show ¬ L < 8 by omega, show ¬ L < 128 by omega, show ¬ L < 512 by omega, show ¬ L < 1024 by omega]

/-- C40. Hence it is `L` times a power of two, never below `L`, at least 64 for every `L ≥ 1` and equal to `L` only from
1024 on. -/
theorem C40_bounds (L : ℕ) (h : 1 ≤ L) :
    (∃ e ≤ 6, calcPlotResolution L = L * 2 ^ e) ∧ L ≤ calcPlotResolution L ∧ 64 ≤ calcPlotResolution L ∧
    (calcPlotResolution L = L ↔ 1024 ≤ L) := by
  obtain ⟨h1, h2, h3, h4, h5, h6, h7⟩ := C40_plot_resolution L
  rcases Nat.lt_or_ge L 2 with a | a
  · rw [h1 a]; exact ⟨⟨6, by omega, rfl⟩, by omega, by omega, by omega⟩
  rcases Nat.lt_or_ge L 4 with b | b
  · rw [h2 a b]; exact ⟨⟨5, by omega, rfl⟩, by omega, by omega, by omega⟩
  rcases Nat.lt_or_ge L 8 with c | c
  · rw [h3 b c]; exact ⟨⟨4, by omega, rfl⟩, by omega, by omega, by omega⟩
  rcases Nat.lt_or_ge L 128 with d | d
  · rw [h4 c d]; exact ⟨⟨3, by omega, rfl⟩, by omega, by omega, by omega⟩
  rcases Nat.lt_or_ge L 512 with e | e
  · rw [h5 d e]; exact ⟨⟨2, by omega, rfl⟩, by omega, by omega, by omega⟩
  rcases Nat.lt_or_ge L 1024 with f | f
  · rw [h6 e f]; exact ⟨⟨1, by omega, rfl⟩, by omega, by omega, by omega⟩
  · rw [h7 f]; exact ⟨⟨0, by omega, by simp⟩, by omega, by omega, by omega⟩

example : calcPlotResolution 100 = 800 := by decide

/-- C40. It is not monotone: bandlimit 128 is plotted at half the resolution of bandlimit 127. -/
theorem C40_not_monotone : ∃ L L', L < L' ∧ calcPlotResolution L' < calcPlotResolution L :=
  ⟨127, 128, by norm_num, by decide⟩

/-! ### C41 -/

/-- C41. For every bandlimit and every requested position (as fractions of π): the result is a sample position, in each
coordinate no sample is nearer, and of equally near samples it is the first. -/
theorem C41_nearest_grid_point (L : ℕ) (h : 1 ≤ L) (a b : ℝ) :
    ∃ (p t : ℕ), p < 2 * L ∧ t ≤ L ∧
      calcNearestGridPoint L a b = .ok (p * Real.pi / L, t * Real.pi / L) ∧
      (∀ q < 2 * L, |p * Real.pi / L - a * Real.pi| ≤ |q * Real.pi / L - a * Real.pi|) ∧
      (∀ q < p, |p * Real.pi / L - a * Real.pi| < |q * Real.pi / L - a * Real.pi|) ∧
      (∀ s ≤ L, |t * Real.pi / L - b * Real.pi| ≤ |s * Real.pi / L - b * Real.pi|) ∧
      (∀ s < t, |t * Real.pi / L - b * Real.pi| < |s * Real.pi / L - b * Real.pi|) := by
  have hL : (L : ℝ) ≠ 0 := by positivity
  have hphi : ∀ q, q < 2 * L → (Integration.phis L)[q]? = some (q * Real.pi / L) := by
    intro q hq
    simp only [Integration.phis, List.getElem?_map, List.getElem?_range hq, Option.map_some, Option.some.injEq]
    field_simp
  have hth : ∀ s, s < L + 1 → (Integration.thetas L)[s]? = some (s * Real.pi / L) := by
    intro q hq
    simp only [Integration.thetas, List.getElem?_map, List.getElem?_range hq, Option.map_some, Option.some.injEq]
    field_simp
  have lphi : (Integration.phis L).length = 2 * L := by simp [Integration.phis]
  have lth : (Integration.thetas L).length = L + 1 := by simp [Integration.thetas]
  obtain ⟨p, m, hp, hpm, hp1, hp2⟩ := argmin_spec (xs := (Integration.phis L).map fun phi => |phi - a * Real.pi|)
    (by intro h0; have := congrArg List.length h0; simp [lphi] at this; omega)
  obtain ⟨t, n, ht, htn, ht1, ht2⟩ := argmin_spec (xs := (Integration.thetas L).map fun phi => |phi - b * Real.pi|)
    (by intro h0; have := congrArg List.length h0; simp [lth] at this)
  have hpl : p < 2 * L := by
    have := (List.getElem?_eq_some_iff.1 hpm).1
    simpa [lphi] using this
  have htl : t < L + 1 := by
    have := (List.getElem?_eq_some_iff.1 htn).1
    simpa [lth] using this
  have em : m = |p * Real.pi / L - a * Real.pi| := by
    rw [List.getElem?_map, hphi p hpl] at hpm; simpa using hpm.symm
  have en : n = |t * Real.pi / L - b * Real.pi| := by
    rw [List.getElem?_map, hth t htl] at htn; simpa using htn.symm
  refine ⟨p, t, hpl, by omega, ?_, ?_, ?_, ?_, ?_⟩
  · simp only [calcNearestGridPoint, hp, ht, NumPy.item, hphi p hpl, hth t htl, bind, Except.bind, pure, Except.pure]
  · intro q hq
    rw [← em]
    exact hp1 q _ (by rw [List.getElem?_map, hphi q hq]; rfl)
  · intro q hq
    rw [← em]
    exact hp2 q _ hq (by rw [List.getElem?_map, hphi q (by omega)]; rfl)
  · intro s hs
    rw [← en]
    exact ht1 s _ (by rw [List.getElem?_map, hth s (by omega)]; rfl)
  · intro s hs
    rw [← en]
    exact ht2 s _ hs (by rw [List.getElem?_map, hth s (by omega)]; rfl)

/-- C41. Consequences: a request within the sampled range is moved by at most half a grid step, and a request that is a
grid point is returned unchanged. -/
theorem C41_error_bound (L : ℕ) (h : 1 ≤ L) (a b : ℝ) (ha0 : 0 ≤ a) (ha1 : a ≤ (2 * L - 1) / L) (hb0 : 0 ≤ b)
    (hb1 : b ≤ 1) (alpha beta : ℝ) (hr : calcNearestGridPoint L a b = .ok (alpha, beta)) :
    |alpha - a * Real.pi| ≤ Real.pi / (2 * L) ∧ |beta - b * Real.pi| ≤ Real.pi / (2 * L) ∧
    (∀ p < 2 * L, a = p / L → alpha = a * Real.pi) ∧ (∀ t ≤ L, b = t / L → beta = b * Real.pi) := by
  have hL : (1 : ℝ) ≤ L := by exact_mod_cast h
  have hpi := Real.pi_pos
  obtain ⟨p, t, hp, ht, hr', hp1, -, ht1, -⟩ := C41_nearest_grid_point L h a b
  rw [hr, Except.ok.injEq, Prod.mk.injEq] at hr'
  -- some grid point is within half a step
  have near : ∀ (n : ℕ) (c : ℝ), 0 ≤ c → c ≤ n / L → ∃ q ≤ n, |q * Real.pi / L - c * Real.pi| ≤ Real.pi / (2 * L) := by
    intro n c hc0 hc1
    have hcL : c * L ≤ n := by rwa [le_div_iff₀ (by linarith)] at hc1
    have hf := Nat.floor_le (show 0 ≤ c * L by positivity)
    have hf2 := Nat.lt_floor_add_one (c * L)
    have key : ∀ q : ℕ, |(q : ℝ) - c * L| ≤ 1 / 2 → |q * Real.pi / L - c * Real.pi| ≤ Real.pi / (2 * L) := by
      intro q hq
      have : q * Real.pi / L - c * Real.pi = ((q : ℝ) - c * L) * (Real.pi / L) := by field_simp
      rw [this, abs_mul, abs_of_pos (show 0 < Real.pi / L by positivity)]
      calc _ ≤ 1 / 2 * (Real.pi / L) := by gcongr
        _ = _ := by field_simp
    by_cases hcase : c * L - ⌊c * L⌋₊ ≤ 1 / 2
    · refine ⟨⌊c * L⌋₊, ?_, key _ ?_⟩
      · exact_mod_cast hf.trans hcL
      · rw [abs_le]; constructor <;> linarith
    · refine ⟨⌊c * L⌋₊ + 1, ?_, key _ ?_⟩
      · by_contra hgt
        push Not at hgt
        have : (n : ℝ) ≤ ⌊c * L⌋₊ := by exact_mod_cast Nat.lt_succ_iff.1 hgt
        linarith
      · push_cast
        rw [abs_le]; constructor <;> linarith
  rw [hr'.1, hr'.2]
  refine ⟨?_, ?_, ?_, ?_⟩
  · obtain ⟨q, hq, hqn⟩ := near (2 * L - 1) a ha0 (by rw [Nat.cast_sub (by omega)]; push_cast; exact ha1)
    exact (hp1 q (by omega)).trans hqn
  · obtain ⟨q, hq, hqn⟩ := near L b hb0 (by rw [div_self (by linarith)]; exact hb1)
    exact (ht1 q (by omega)).trans hqn
  · intro q hq e
    have := hp1 q hq
    rw [show (q : ℝ) * Real.pi / L - a * Real.pi = 0 by rw [e]; field_simp; ring, abs_zero, abs_nonpos_iff] at this
    linarith
  · intro q hq e
    have := ht1 q hq
    rw [show (q : ℝ) * Real.pi / L - b * Real.pi = 0 by rw [e]; field_simp; ring, abs_zero, abs_nonpos_iff] at this
    linarith

example : ∃ r, calcNearestGridPoint 4 (3 / 4) (1 / 8) = .ok r ∧ (3 / 4 : ℝ) ≤ (2 * (4 : ℕ) - 1) / (4 : ℕ) := by
  obtain ⟨p, t, -, -, h, -⟩ := C41_nearest_grid_point 4 (by norm_num) (3 / 4) (1 / 8)
  exact ⟨_, h, by norm_num⟩

/-- C41, negative part. Longitudes are not compared around the circle: just below 2π the last sample is chosen although
the sample at longitude 0 is nearer on the sphere. -/
theorem C41_wraparound_violation : ∃ (L : ℕ) (a alpha beta : ℝ), 0 ≤ a ∧ a < 2 ∧
    calcNearestGridPoint L a 0 = .ok (alpha, beta) ∧ |2 * Real.pi - a * Real.pi| < |alpha - a * Real.pi| := by
  obtain ⟨p, t, hp, ht, hr, hp1, -⟩ := C41_nearest_grid_point 1 le_rfl (19 / 10) 0
  refine ⟨1, 19 / 10, _, _, by norm_num, by norm_num, hr, ?_⟩
  have hpi := Real.pi_pos
  have : (p : ℝ) ≤ 1 := by exact_mod_cast (by omega : p ≤ 1)
  rw [abs_of_pos (by linarith), abs_of_neg (by push_cast; nlinarith)]
  push_cast
  nlinarith

/-! ### C42 -/

/-- C42. Scaling of the field before plotting, for every field: unchanged without normalisation; one half everywhere for
the zero field; otherwise with minimum `mn` and maximum `mx`, unless all values are within `10⁻⁸ + 10⁻⁵|mx|` of `mx`, the
values become `(x - mn)/(mx - mn)`, which lie between 0 and 1 with both ends attained; in the remaining case they
become `x/mx`, where dividing by zero gives a value that is not finite. -/
theorem C42_normalise (f : List ℝ) :
    normaliseFunction f false = .ok (f.map some) ∧
    ((∀ x ∈ f, x = 0) → normaliseFunction f true = .ok (f.map fun _ => some (1 / 2))) ∧
    (∀ mn mx, mn ∈ f → mx ∈ f → (∀ x ∈ f, mn ≤ x ∧ x ≤ mx) →
      ((∃ x ∈ f, 1 / 10 ^ 8 + 1 / 10 ^ 5 * |mx| < |x - mx|) →
        normaliseFunction f true = .ok (f.map fun x => some ((x - mn) / (mx - mn))) ∧ mn < mx ∧
        ∀ x ∈ f, 0 ≤ (x - mn) / (mx - mn) ∧ (x - mn) / (mx - mn) ≤ 1) ∧
      ((∀ x ∈ f, |x - mx| ≤ 1 / 10 ^ 8 + 1 / 10 ^ 5 * |mx|) → (∃ x ∈ f, x ≠ 0) →
        normaliseFunction f true = .ok (f.map fun x => if mx = 0 then none else some (x / mx)))) := by
  refine ⟨rfl, ?_, ?_⟩
  · intro h
    have : (f.all fun x => decide (x = 0)) = true := by
      rw [List.all_eq_true]; intro x hx; simpa using h x hx
    simp only [normaliseFunction, this, Bool.not_true, Bool.false_eq_true, if_false, if_true, Except.ok.injEq]
    apply List.map_congr_left
    intro x hx
    rw [h x hx]; norm_num
  · intro mn mx hmn hmx hb
    have e1 := amax_eq hmx fun x hx => (hb x hx).2
    have e2 := amin_eq hmn fun x hx => (hb x hx).1
    constructor
    · rintro ⟨y, hy, hyc⟩
      have hc : allclose f mx = false := by
        unfold allclose
        rw [List.all_eq_false]
        exact ⟨y, hy, by simpa using hyc⟩
      have hlt := amin_lt_amax e1 e2 hc
      have hz : (f.all fun x => decide (x = 0)) = false := by
        rw [List.all_eq_false]
        by_cases h0 : mx = 0
        · exact ⟨mn, hmn, by simp; linarith⟩
        · exact ⟨mx, hmx, by simpa using h0⟩
      refine ⟨?_, hlt, ?_⟩
      · simp only [normaliseFunction, hz, Bool.not_true, Bool.false_eq_true, if_false, e1, e2, hc, bind, Except.bind,
          pure, Except.pure, fdiv, if_neg (show mx - mn ≠ 0 by intro h; linarith)]
      · intro x hx
        have := hb x hx
        constructor
        · exact div_nonneg (by linarith) (by linarith)
        · rw [div_le_one (by linarith)]; linarith
    · rintro hall ⟨y, hy, hy0⟩
      have hc : allclose f mx = true := by
        unfold allclose
        rw [List.all_eq_true]
        intro x hx; simpa using hall x hx
      have hz : (f.all fun x => decide (x = 0)) = false := by
        rw [List.all_eq_false]
        exact ⟨y, hy, by simpa using hy0⟩
      simp only [normaliseFunction, hz, Bool.not_true, Bool.false_eq_true, if_false, e1, hc, bind, Except.bind, pure,
        Except.pure, fdiv, if_true]

example : normaliseFunction [1, 3, 2] true = .ok [some 0, some 1, some (1 / 2)] := by
  have := ((C42_normalise [1, 3, 2]).2.2 1 3 (by simp) (by simp) (by simp; norm_num)).1 ⟨1, by simp, by norm_num⟩
  rw [this.1]
  norm_num

/-- C42. In particular a constant field other than zero is plotted as 1 everywhere, and normalised values of a
nonnegative field always lie in [0,1]. -/
theorem C42_constant_and_nonnegative (f : List ℝ) :
    (∀ c, c ≠ 0 → f ≠ [] → (∀ x ∈ f, x = c) → normaliseFunction f true = .ok (f.map fun _ => some 1)) ∧
    ((∀ x ∈ f, 0 ≤ x) → ∃ g : List ℝ, normaliseFunction f true = .ok (g.map some) ∧ g.length = f.length ∧
      ∀ y ∈ g, 0 ≤ y ∧ y ≤ 1) := by
  constructor
  · intro c hc hne h
    obtain ⟨y, hy⟩ := List.exists_mem_of_ne_nil f hne
    have hcf : c ∈ f := by rw [← h y hy]; exact hy
    rw [(((C42_normalise f).2.2 c c hcf hcf (fun x hx => by simp [h x hx])).2
      (fun x hx => by rw [h x hx, sub_self, abs_zero]; positivity) ⟨c, hcf, hc⟩)]
    simp only [hc, if_false, Except.ok.injEq]
    apply List.map_congr_left
    intro x hx
    rw [h x hx, div_self hc]
  · intro h
    by_cases hz : ∀ x ∈ f, x = 0
    · refine ⟨f.map fun _ => 1 / 2, ?_, by simp, ?_⟩
      · rw [(C42_normalise f).2.1 hz, List.map_map]; rfl
      · intro y hy
        rw [List.mem_map] at hy
        obtain ⟨_, _, rfl⟩ := hy; norm_num
    · push Not at hz
      obtain ⟨y, hy, hy0⟩ := hz
      have hne : f ≠ [] := by rintro rfl; simp at hy
      obtain ⟨mx, -, m1, m2⟩ := exists_amax hne
      obtain ⟨mn, -, n1, n2⟩ := exists_amin hne
      obtain ⟨c1, c2⟩ := (C42_normalise f).2.2 mn mx n1 m1 fun x hx => ⟨n2 x hx, m2 x hx⟩
      by_cases hcl : ∀ x ∈ f, |x - mx| ≤ 1 / 10 ^ 8 + 1 / 10 ^ 5 * |mx|
      · have hpos : 0 < mx := lt_of_lt_of_le (lt_of_le_of_ne (h y hy) (Ne.symm hy0)) (m2 y hy)
        refine ⟨f.map fun x => x / mx, ?_, by simp, ?_⟩
        · rw [c2 hcl ⟨y, hy, hy0⟩, List.map_map]
          simp only [hpos.ne', if_false]; rfl
        · intro z hz
          rw [List.mem_map] at hz
          obtain ⟨x, hx, rfl⟩ := hz
          exact ⟨div_nonneg (h x hx) hpos.le, (div_le_one hpos).2 (m2 x hx)⟩
      · push Not at hcl
        obtain ⟨d1, d2, d3⟩ := c1 hcl
        refine ⟨f.map fun x => (x - mn) / (mx - mn), ?_, by simp, ?_⟩
        · rw [d1, List.map_map]; rfl
        · intro z hz
          rw [List.mem_map] at hz
          obtain ⟨x, hx, rfl⟩ := hz
          exact d3 x hx

example : normaliseFunction [-2, -2] true = .ok [some 1, some 1] :=
  (C42_constant_and_nonnegative [-2, -2]).1 (-2) (by norm_num) (by simp) (by simp)

/-- C42, negative part. Fields that are small everywhere can leave [0,1] or become non-finite under normalisation: the
closeness test compares with an absolute tolerance of `10⁻⁸`. -/
theorem C42_small_field_violation :
    (∃ f g : List ℝ, normaliseFunction f true = .ok (g.map some) ∧ -3 ∈ g) ∧
    (∃ f : List ℝ, ∃ g, normaliseFunction f true = .ok g ∧ none ∈ g) := by
  constructor
  · refine ⟨[1 / 10 ^ 9, -3 / 10 ^ 9], [1, -3], ?_, by simp⟩
    have := ((C42_normalise [1 / 10 ^ 9, -3 / 10 ^ 9]).2.2 (-3 / 10 ^ 9) (1 / 10 ^ 9) (by simp) (by simp)
      (by norm_num)).2 (by
        intro x hx
        simp only [List.mem_cons, List.not_mem_nil, or_false] at hx
        rcases hx with rfl | rfl
        · rw [sub_self, abs_zero]; positivity
        · rw [abs_of_neg (by norm_num), abs_of_pos (by norm_num)]; norm_num)
      ⟨1 / 10 ^ 9, by simp, by norm_num⟩
    rw [this]
    norm_num
  · have := ((C42_normalise [0, -1 / 10 ^ 9]).2.2 (-1 / 10 ^ 9) 0 (by simp) (by simp)
      (by norm_num)).2 (by
        intro x hx
        simp only [List.mem_cons, List.not_mem_nil, or_false] at hx
        rcases hx with rfl | rfl
        · norm_num
        · rw [abs_of_neg (by norm_num), abs_zero]; norm_num)
      ⟨-1 / 10 ^ 9, by simp, by norm_num⟩
    exact ⟨_, _, this, by simp⟩

/-! ### C43 -/

/-- C43. A field of the right shape is prepared without error: every row gets its first value again at the end, and
the limits are the smallest and largest value. -/
theorem C43_closing {b : ℕ} (R : ℕ) (hb : 2 * R = b + 1) (F : Fin (R + 1) → Fin (b + 1) → ℝ) :
    ∃ S, setupPlot (rows F) R = .ok S ∧ S.fPlot = closedRows F ∧ (∃ t p, F t p = S.vmin) ∧ (∃ t p, F t p = S.vmax) ∧
      ∀ t p, S.vmin ≤ F t p ∧ F t p ≤ S.vmax := by
  have hlen := flatten_rows_length F
  have hne : (rows F).flatten ≠ [] := by
    intro h0; rw [h0] at hlen; simp at hlen
  obtain ⟨mx, m1, m2, m3⟩ := exists_amax hne
  obtain ⟨mn, n1, n2, n3⟩ := exists_amin hne
  refine ⟨⟨closedRows F, mn, mx⟩, ?_, rfl, (mem_flatten_rows F _).1 n2, (mem_flatten_rows F _).1 m2, ?_⟩
  · unfold setupPlot
    rw [if_neg (by rw [hlen, hb]; simp), hb]
    simp only [m1, n1, closeRows_rows, bind, Except.bind, pure, Except.pure]
  · intro t p
    have : F t p ∈ (rows F).flatten := (mem_flatten_rows F _).2 ⟨t, p, rfl⟩
    exact ⟨n3 _ this, m3 _ this⟩

/-- C43. A field with the wrong number of values is rejected with `AttributeError`. -/
theorem C43_wrong_size (R : ℕ) (f : List (List ℝ)) (h : f.flatten.length ≠ (R + 1) * (2 * R)) :
    setupPlot f R = .error .attributeError := by
  unfold setupPlot
  rw [if_pos (Ne.symm h)]

/-- C43. A field with the right number of values in rows that are too short (a transposed one, say) is rejected with `IndexError`. -/
theorem C43_short_rows (R : ℕ) (f : List (List ℝ)) (h : f.flatten.length = (R + 1) * (2 * R)) (hR : 0 < R) (hrow : ∀ r ∈ f, r.length < 2 * R) :
    setupPlot f R = .error .indexError := by
  have hne : f.flatten ≠ [] := by
    intro h0
    rw [h0] at h
    simp at h
    omega
  obtain ⟨mx, m1, -, -⟩ := exists_amax hne
  obtain ⟨mn, n1, -, -⟩ := exists_amin hne
  have hclose : closeRows (2 * R) f = .error .indexError := by
    rcases f with _ | ⟨r, f⟩
    · simp at hne
    · have hr := hrow r List.mem_cons_self
      have : closeRow (2 * R) r = .error .indexError := by
        unfold closeRow
        rcases r with _ | ⟨x, xs⟩
        · rfl
        · simp only
          rw [if_neg (by omega)]
      simp only [closeRows, List.mapM_cons, this, bind, Except.bind]
  unfold setupPlot
  rw [if_neg (by rw [h]; simp)]
  simp only [m1, n1, hclose, bind, Except.bind]

/-- the transposed field of resolution two, four rows of three values. -/
example : setupPlot [[0, 1, 2], [3, 4, 5], [6, 7, 8], [9, 10, 11]] 2 = .error .indexError :=
  C43_short_rows 2 _ rfl (by decide) (by simp)

/-- C43. Masking a prepared field: samples inside the region keep their value, samples outside get the 'unseen'
value, and the closing meridian shows the same as the first one. -/
theorem C43_masking {b : ℕ} (R : ℕ) (hb : 2 * R = b + 1) (F : Fin (R + 1) → Fin (b + 1) → ℝ)
    (M : Fin (R + 1) → Fin (b + 1) → Bool) :
    setOutsideRegion (closedRows F) R (rows M) = .ok (closedRows fun t p => if M t p then F t p else sphereUnseen) := by
  unfold setOutsideRegion
  rw [hb]
  simp only [closeRows_rows, bind, Except.bind]
  rw [NumPy.broadcast_of_length_eq _ _ _ (by simp [closedRows])]
  simp only [closedRows, zipWith_ofFn]
  apply mapM_ofFn_ok
  intro t
  simp only [id, whereRow]
  rw [NumPy.broadcast_of_length_eq _ _ _ (by simp), List.zipWith_append (by simp), zipWith_ofFn]
  simp

example : ∃ (F : Fin 2 → Fin (1 + 1) → ℝ) (M : Fin 2 → Fin (1 + 1) → Bool),
    setOutsideRegion (closedRows F) 1 (rows M) = .ok [[5, sphereUnseen, 5], [sphereUnseen, 7, sphereUnseen]] := by
  refine ⟨fun t p => if t = 0 then 5 else 7, fun t p => decide (t = p), ?_⟩
  rw [C43_masking 1 rfl]
  simp [closedRows, List.ofFn_succ]

/-! ### C39 -/

/-- C39. Each face is marked 1 if all its vertices are in the region, otherwise 0. -/
theorem C39_faces (region : List Bool) (faces : List (ℕ × ℕ × ℕ)) :
    (convertRegionToFaces region faces).length = faces.length ∧
    ∀ (i : ℕ) (t : ℕ × ℕ × ℕ), faces[i]? = some t →
      ((convertRegionToFaces region faces)[i]? = some 1 ↔
        region[t.1]? = some true ∧ region[t.2.1]? = some true ∧ region[t.2.2]? = some true) ∧
      ((convertRegionToFaces region faces)[i]? = some 0 ∨ (convertRegionToFaces region faces)[i]? = some 1) := by
  have hmem : ∀ v, ((List.range region.length).filter fun v => region.getD v false).contains v = true ↔
      region[v]? = some true := by
    intro v
    rw [List.contains_iff_mem, List.mem_filter, List.mem_range, List.getD_eq_getElem?_getD]
    constructor
    · rintro ⟨h1, h2⟩
      rw [List.getElem?_eq_getElem h1] at h2 ⊢
      simpa using h2
    · intro h
      refine ⟨(List.getElem?_eq_some_iff.1 h).1, by rw [h]; rfl⟩
  refine ⟨by simp [convertRegionToFaces], ?_⟩
  intro i t ht
  simp only [convertRegionToFaces, List.getElem?_map, ht, Option.map_some, Option.some.injEq]
  constructor
  · rw [← hmem, ← hmem, ← hmem]
    split
    · rename_i h
      simp only [Bool.and_eq_true] at h
      simp only [true_iff]; exact ⟨h.1.1, h.1.2, h.2⟩
    · rename_i h
      simp only [Bool.and_eq_true] at h
      simp only [Nat.zero_ne_one, false_iff]
      rintro ⟨h1, h2, h3⟩; exact h ⟨⟨h1, h2⟩, h3⟩
  · split <;> simp

/-- C39. In the plot exactly the faces with a vertex outside the region get the 'unseen' value, all others keep
theirs. -/
theorem C39_plot (region : List Bool) (faces : List (ℕ × ℕ × ℕ)) (f : List ℝ) (hf : f.length = faces.length) :
    ∃ g, setOutsideRegionMesh region faces f = .ok g ∧ g.length = faces.length ∧
      ∀ (i : ℕ) (t : ℕ × ℕ × ℕ), faces[i]? = some t →
        ((region[t.1]? = some true ∧ region[t.2.1]? = some true ∧ region[t.2.2]? = some true) → g[i]? = f[i]?) ∧
        (¬ (region[t.1]? = some true ∧ region[t.2.1]? = some true ∧ region[t.2.2]? = some true) →
          g[i]? = some meshUnseen) := by
  obtain ⟨hl, hc⟩ := C39_faces region faces
  unfold setOutsideRegionMesh
  rw [NumPy.broadcast_of_length_eq _ _ _ (by rw [hl, hf])]
  refine ⟨_, rfl, by simp [hl, hf], ?_⟩
  intro i t ht
  have hi : i < f.length := by rw [hf]; exact (List.getElem?_eq_some_iff.1 ht).1
  obtain ⟨h1, h2⟩ := hc i t ht
  rw [List.getElem?_zipWith]
  constructor
  · intro h
    rw [h1.2 h, List.getElem?_eq_getElem hi]; simp
  · intro h
    have h0 : (convertRegionToFaces region faces)[i]? = some 0 := h2.resolve_right fun h' => h (h1.1 h')
    rw [h0, List.getElem?_eq_getElem hi]; simp

example : convertRegionToFaces [true, true, false, true] [(0, 1, 2), (3, 1, 0)] = [0, 1] := by decide

end Sleplet.Props
