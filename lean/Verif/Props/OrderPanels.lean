import Verif.Model.OrderPanels
import Verif.Props.CacheOrders
import Verif.Props.KeptEigenvalues
import Verif.Props.PolarFigures

/-!
C131: the figure of the eigenvalues of four polar caps, marked by order.
-/
namespace Sleplet.Props

open Complex Sleplet.Spec Sleplet.Gaunt Sleplet.RealMat Sleplet.Eigen Sleplet.LatLon Sleplet.PolarFigures

/-- the attributes `s` and the eigenvectors `v` of a polar cap of `deg` degrees, for some workers, solver and sorting within their contracts. -/
def SolvedCap (L deg : ℕ) (s : CapSolution) (v : List (List ℂ)) : Prop :=
  s.N = (Region.Slepian.polarCap L (deg * Real.pi / 180) false).shannon 0 ∧
  ∃ (plm : List ℝ) (M : ℤ → ℕ → ℕ → ℝ) (sol : ℤ → OrderSolution),
    plm.length = (2 * L) ^ 2 ∧ (∀ n < 2 * L, plm.getD (elm2ind n 0) 0 = (sphHarm n 0 (deg * Real.pi / 180) 0).re) ∧
    (∀ m : ℤ, m.natAbs < L → ∃ ncpu we, 1 ≤ ncpu ∧ CreatesOrder L false plm m ncpu we (.ok (M m))) ∧
    (∀ m : ℤ, m.natAbs < L → IsEighOrder (L - m.natAbs) (M m) (sol m)) ∧ SolvesAll L sol (.ok (s.evals, v, s.orders))

theorem SolvedCap.polar {L deg : ℕ} {s : CapSolution} {v : List (List ℂ)} (h : SolvedCap L deg s v) :
    PolarEigenvalues L false (deg * Real.pi / 180) s.evals := by
  obtain ⟨-, plm, M, sol, a, b, c, d, e⟩ := h
  exact ⟨plm, M, sol, v, s.orders, a, b, c, d, e⟩

/-- the matrices of opposite orders are the same. -/
theorem opposite_orders (L : ℕ) (gap : Bool) (t : ℝ)
    (plm : List ℝ) (hlen : plm.length = (2 * L) ^ 2) (hplm : ∀ n < 2 * L, plm.getD (elm2ind n 0) 0 = (sphHarm n 0 t 0).re)
    (M : ℤ → ℕ → ℕ → ℝ) (hM : ∀ m : ℤ, m.natAbs < L → ∃ ncpu we, 1 ≤ ncpu ∧ CreatesOrder L gap plm m ncpu we (.ok (M m)))
    (sol : ℤ → OrderSolution) (hsol : ∀ m : ℤ, m.natAbs < L → IsEighOrder (L - m.natAbs) (M m) (sol m)) :
    ∀ m : ℤ, m.natAbs < L → IsEighOrder (L - m.natAbs) ((fun k : ℕ => M (k : ℤ)) m.natAbs) (sol m) := by
  have hcap : ∀ m : ℤ, m.natAbs < L → ∀ i j, m.natAbs + i < L → m.natAbs + j < L →
      (M m i j : ℂ) = capIntegral gap t fun th ph =>
        sphHarm (m.natAbs + i) m th ph * (starRingEnd ℂ) (sphHarm (m.natAbs + j) m th ph) := by
    intro m hm
    obtain ⟨ncpu, we, hpos, hc⟩ := hM m hm
    obtain ⟨-, N, h1, h2⟩ := C65_polar_matrix_is_surface_integral L gap t plm hlen hplm m ncpu hpos we _ hc
    injection h1 with h1
    subst h1
    exact h2
  have hsame : ∀ m : ℤ, m.natAbs < L → ∀ i j, m.natAbs + i < L → m.natAbs + j < L → M m i j = M (m.natAbs : ℤ) i j := by
    intro m hm i j hi hj
    have b1 : |m| ≤ ((m.natAbs + i : ℕ) : ℤ) := by rw [Int.abs_eq_natAbs]; push_cast; omega
    have b2 : |m| ≤ ((m.natAbs + j : ℕ) : ℤ) := by rw [Int.abs_eq_natAbs]; push_cast; omega
    have h1 := hcap m hm i j hi hj
    have h2 := hcap (m.natAbs : ℤ) (by omega) i j (by omega) (by omega)
    simp only [Int.natAbs_natCast] at h2
    rw [cap_sphHarm b1 b2, if_pos rfl] at h1
    rw [cap_sphHarm (by rw [Int.abs_eq_natAbs]; simp) (by rw [Int.abs_eq_natAbs]; simp), if_pos rfl] at h2
    simp only [Int.natAbs_natCast] at h2
    exact_mod_cast h1.trans h2.symm
  intro m hm
  obtain ⟨a, b, c⟩ := hsol m hm
  refine ⟨a, fun k hk r hr => ?_, c⟩
  rw [← b k hk r hr]
  refine Finset.sum_congr rfl fun j hj => ?_
  rw [Finset.mem_range] at hj
  simp only
  rw [hsame m hm r j (by omega) (by omega)]

/-- what a panel shows. -/
theorem panel_shows {L ranks deg row col : ℕ} {s : CapSolution} {v : List (List ℂ)} (hs : SolvedCap L deg s v) :
    (L ^ 2 < ranks → createPanel ranks s deg row col = .error .valueError) ∧
    (ranks ≤ L ^ 2 → ∃ q, createPanel ranks s deg row col = .ok q ∧ q.row = row ∧ q.col = col ∧
      q.caption = "$\\Theta={" ++ toString deg ++ "}^\\circ$" ∧
      q.points.length = ranks ∧
      (∀ p < ranks, ∃ m : ℤ, m.natAbs < L ∧
        q.points[p]? = some (p, s.evals.getD p 0, if m = 0 then "0" else "$\\pm$" ++ toString m.natAbs) ∧
        ∀ (l : ℕ) (m' : ℤ), l < L → |m'| ≤ (l : ℤ) → m' ≠ m → (v.getD p []).getD (elm2ind l m') 0 = 0) ∧
      (∃ ms : List ℕ, ms.Pairwise (· ≤ ·) ∧ q.hueOrder = ms.map (fun m => if m = 0 then "0" else "$\\pm$" ++ toString m) ∧
        q.hueOrder.Perm (q.points.map fun x => x.2.2)) ∧
      q.legend = decide (row = 0 ∧ col = 0) ∧ q.xLabel = decide (row = 1) ∧ q.yLabel = decide (col = 0) ∧
      q.line = s.N - 1 ∧ q.text = "N=" ++ toString s.N) := by
  obtain ⟨-, plm, M, sol, a, b, c, d, e⟩ := hs
  have hl : ∀ m : ℕ, orderLabel m = if m = 0 then "0" else "$\\pm$" ++ toString m := by
    intro m
    unfold orderLabel
    by_cases h : m = 0
    · subst h; rfl
    · rw [if_pos h, if_neg h]
  have hsol := opposite_orders L false _ plm a b M c sol d
  obtain ⟨h1, h2, -, -⟩ := C93_order_marks L (fun k : ℕ => M (k : ℤ)) sol hsol s.evals v s.orders e ranks
  obtain ⟨e', v', o', hr, he, -, ho, -, -, -, hrow, -⟩ := C19_polar_all_orders L (fun k : ℕ => M (k : ℤ)) sol hsol _ e
  simp only [Except.ok.injEq, Prod.mk.injEq] at hr
  obtain ⟨rfl, rfl, rfl⟩ := hr
  refine ⟨fun hlt => ?_, fun hle => ?_⟩
  · unfold createPanel
    rw [h1 hlt]
    rfl
  · have hp : orderPoints s.evals s.orders ranks =
        .ok ((List.range ranks).zip ((s.evals.take ranks).zip ((s.orders.take ranks).map Int.natAbs))) := by
      unfold orderPoints
      simp only
      rw [if_pos]
      constructor
      · rw [List.length_take, he]; omega
      · rw [List.length_map, List.length_take, ho]; omega
    unfold createPanel
    rw [hp]
    refine ⟨_, rfl, rfl, rfl, rfl, ?_, ?_, ?_, rfl, rfl, rfl, rfl, rfl⟩
    · simp [he, ho]; omega
    · intro p hpr
      obtain ⟨-, hμ, hz, -⟩ := hrow p (by omega)
      have hpe : p < s.evals.length := by omega
      have hpo : p < s.orders.length := by omega
      refine ⟨s.orders.getD p 0, hμ, ?_, hz⟩
      have hz : ((List.range ranks).zip ((s.evals.take ranks).zip ((s.orders.take ranks).map Int.natAbs)))[p]? =
          some (p, s.evals.getD p 0, (s.orders.getD p 0).natAbs) := by
        rw [List.getElem?_zip_eq_some]
        refine ⟨by simp [hpr], ?_⟩
        rw [List.getElem?_zip_eq_some]
        constructor
        · simp [hpr, List.getD_eq_getElem?_getD, List.getElem?_eq_getElem hpe]
        · simp [hpr, List.getD_eq_getElem?_getD, List.getElem?_eq_getElem hpo]
      rw [List.getElem?_map, hz]
      simp only [Option.map_some, hl, Int.natAbs_eq_zero]
    · refine ⟨((s.orders.take ranks).map Int.natAbs).mergeSort fun a b => decide (a ≤ b), ?_, ?_, ?_⟩
      · have := List.pairwise_mergeSort (le := fun a b : ℕ => decide (a ≤ b)) (by simpa using fun a b c h1 h2 => le_trans h1 h2)
          (by simpa using fun a b => le_total a b) ((s.orders.take ranks).map Int.natAbs)
        exact this.imp fun h => by simpa using h
      · exact List.map_congr_left fun m _ => hl m
      · dsimp only
        have hm : List.map (fun x : ℕ × ℝ × String => x.2.2) (List.map (fun x : ℕ × ℝ × ℕ => (x.1, x.2.1, orderLabel x.2.2))
            ((List.range ranks).zip ((s.evals.take ranks).zip ((s.orders.take ranks).map Int.natAbs)))) =
            ((s.orders.take ranks).map Int.natAbs).map orderLabel := by
          rw [List.map_map]
          have : ((fun x : ℕ × ℝ × String => x.2.2) ∘ fun x : ℕ × ℝ × ℕ => (x.1, x.2.1, orderLabel x.2.2)) =
              orderLabel ∘ Prod.snd ∘ Prod.snd := rfl
          rw [this, ← List.map_map, ← List.map_map, List.map_snd_zip, List.map_snd_zip]
          · simp [he, ho]
          · simp [he, ho]
        rw [hm]
        exact (List.mergeSort_perm _ _).map _

/-- a label tells the order without its sign. -/
theorem label_injective (a b : ℤ) (h : (if a = 0 then "0" else "$\\pm$" ++ toString a.natAbs) =
    if b = 0 then "0" else "$\\pm$" ++ toString b.natAbs) : a.natAbs = b.natAbs := by
  have hne : ∀ n : ℕ, ("0" : String) ≠ "$\\pm$" ++ toString n := by
    intro n h
    have := congrArg String.toList h
    simp at this
  split_ifs at h with h1 h2 h2
  · rw [h1, h2]
  · exact absurd h (hne _)
  · exact absurd h.symm (hne _)
  · have h3 : toString a.natAbs = toString b.natAbs := by
      have := congrArg String.toList h
      simp only [String.toList_append, List.append_cancel_left_eq] at this
      exact String.toList_injective this
    exact Nat.repr_injective h3

/-- the numbers of a panel: the line separates the ranks below the Shannon number from the others; the heights are between 0 and 1 and do not
increase; the points up to the line are above zero; all eigenvalues together are within a half of the number written. -/
theorem panel_numbers {L deg : ℕ} (hdeg : deg ≤ 180) {s : CapSolution} {v : List (List ℂ)} (hs : SolvedCap L deg s v) :
    (∀ p < L ^ 2, 0 ≤ s.evals.getD p 0 ∧ s.evals.getD p 0 ≤ 1) ∧
    (∀ p p', p ≤ p' → p' < L ^ 2 → s.evals.getD p' 0 ≤ s.evals.getD p 0) ∧
    (∀ p : ℕ, (p : ℤ) ≤ s.N - 1 → p < L ^ 2 ∧ 1 ≤ 2 * (L : ℝ) ^ 2 * s.evals.getD p 0) ∧
    |(s.N : ℝ) - ∑ p ∈ Finset.range (L ^ 2), s.evals.getD p 0| ≤ 1 / 2 := by
  have hpi := Real.pi_pos
  have h0 : 0 ≤ (deg : ℝ) * Real.pi / 180 := by positivity
  have h1 : (deg : ℝ) * Real.pi / 180 ≤ Real.pi := by
    have : (deg : ℝ) ≤ 180 := by exact_mod_cast hdeg
    nlinarith
  have hpol := hs.polar
  have hN := hs.1
  obtain ⟨-, plm, M, sol, a, b, c, d, e⟩ := hs
  obtain ⟨e', v', o', hr, hl, -, -, -, hnn, hle, hsum, hdec⟩ := C50_polar_energy_ratio L false _ h0 h1 plm a b M c sol d _ e
  simp only [Except.ok.injEq, Prod.mk.injEq] at hr
  obtain ⟨rfl, rfl, rfl⟩ := hr
  refine ⟨fun p hp => ⟨hnn p hp, hle (by simp) p hp⟩, fun p p' hpp hp' => ?_, fun p hp => ?_, ?_⟩
  · rcases hpp.eq_or_lt with rfl | hlt
    · exact le_rfl
    · have hp1 : p < s.evals.length := by omega
      have hp2 : p' < s.evals.length := by omega
      simpa [List.getD_eq_getElem?_getD, List.getElem?_eq_getElem hp1, List.getElem?_eq_getElem hp2] using
        List.pairwise_iff_getElem.1 hdec p p' hp1 hp2 hlt
  · obtain ⟨x, -, y, -⟩ := C130_polar L false _ h0 h1 (by simp) s.evals hpol 0 p (by rw [← hN]; omega)
    exact ⟨x, y⟩
  · rw [hN, hsum]
    unfold Region.Slepian.shannon
    have hx : (Region.Slepian.polarCap L (deg * Real.pi / 180) false).area 0 *
        ((Region.Slepian.polarCap L (deg * Real.pi / 180) false).L : ℝ) ^ 2 / (4 * Real.pi) =
        (L : ℝ) ^ 2 / (4 * Real.pi) * ((if false = true then 2 else 1) * (2 * Real.pi * (1 - Real.cos (deg * Real.pi / 180)))) := by
      simp only [Region.Slepian.area, Region.Slepian.L]
      simp
      ring
    rw [← hx, abs_le]
    have h1 := Py.round_le_add_half ((Region.Slepian.polarCap L (deg * Real.pi / 180) false).area 0 *
      ((Region.Slepian.polarCap L (deg * Real.pi / 180) false).L : ℝ) ^ 2 / (4 * Real.pi))
    have h2 := Py.sub_half_le_round ((Region.Slepian.polarCap L (deg * Real.pi / 180) false).area 0 *
      ((Region.Slepian.polarCap L (deg * Real.pi / 180) false).L : ℝ) ^ 2 / (4 * Real.pi))
    constructor <;> linarith

/-- C131.  The figure of the eigenvalues of the four caps.  For any bandlimit with at least as many functions as ranks asked for:
* there are four panels, in rows of two, for caps of 10, 20, 30 and 40 degrees, with the angle written in each; only the first explains the
  marks, only the left ones name the vertical and only the lower ones the horizontal axis;
* panel `i` has one point for each rank, at the height of its eigenvalue, between 0 and 1 and never rising, labelled with the order of the
  harmonics that its eigenvector uses, without the sign; two points have the same label only if these orders agree up to sign; the labels are
  explained by increasing order;
* a point on or left of the line belongs to a function that is kept, and is above zero; a point right of it does not; the number written is
  within a half of the sum of all eigenvalues;
* and of two panels the later has the higher point at every rank. -/
theorem C131_panels (L ranks : ℕ) (hr : ranks ≤ L ^ 2) (solve : ℕ → CapSolution) (vec : ℕ → List (List ℂ))
    (hs : ∀ i < 4, SolvedCap L (10 * (i + 1)) (solve (10 * (i + 1))) (vec (10 * (i + 1)))) :
    ∃ P : ℕ → OrderPanel, orderFigure ranks solve = .ok [P 0, P 1, P 2, P 3] ∧
    (∀ i < 4, (P i).row = i / 2 ∧ (P i).col = i % 2 ∧ (P i).caption = "$\\Theta={" ++ toString (10 * (i + 1)) ++ "}^\\circ$" ∧
      (P i).legend = decide (i = 0) ∧ (P i).yLabel = decide (i = 0 ∨ i = 2) ∧ (P i).xLabel = decide (i = 2 ∨ i = 3) ∧
      (P i).points.length = ranks ∧
      (∃ o : ℕ → ℤ, (∀ p < ranks, ∃ y, (P i).points[p]? = some (p, y, if o p = 0 then "0" else "$\\pm$" ++ toString (o p).natAbs) ∧
          y = (solve (10 * (i + 1))).evals.getD p 0 ∧ 0 ≤ y ∧ y ≤ 1 ∧
          ∀ (l : ℕ) (m' : ℤ), l < L → |m'| ≤ (l : ℤ) → m' ≠ o p → ((vec (10 * (i + 1))).getD p []).getD (elm2ind l m') 0 = 0) ∧
        ∀ p < ranks, ∀ p' < ranks, (P i).points[p]?.map (·.2.2) = (P i).points[p']?.map (·.2.2) ↔ |o p| = |o p'|) ∧
      (∀ (p p' : ℕ) (y y' : ℝ) (s s' : String), p ≤ p' → (P i).points[p]? = some (p, y, s) → (P i).points[p']? = some (p', y', s') → y' ≤ y) ∧
      (∃ ms : List ℕ, ms.Pairwise (· ≤ ·) ∧ (P i).hueOrder = ms.map (fun m => if m = 0 then "0" else "$\\pm$" ++ toString m) ∧
        (P i).hueOrder.Perm ((P i).points.map fun x => x.2.2)) ∧
      (P i).text = "N=" ++ toString ((P i).line + 1) ∧
      (P i).line + 1 = (Region.Slepian.polarCap L ((10 * (i + 1) : ℕ) * Real.pi / 180) false).shannon 0 ∧
      |(((P i).line + 1 : ℤ) : ℝ) - ∑ p ∈ Finset.range (L ^ 2), (solve (10 * (i + 1))).evals.getD p 0| ≤ 1 / 2 ∧
      ∀ (p : ℕ) (y : ℝ) (s : String), (P i).points[p]? = some (p, y, s) → (p : ℤ) ≤ (P i).line → 0 < y) ∧
    ∀ i j, i < j → j < 4 → ∀ (p : ℕ) (y y' : ℝ) (s s' : String), (P i).points[p]? = some (p, y, s) → (P j).points[p]? = some (p, y', s') → y < y' := by
  have hq : ∀ i, ∃ q : OrderPanel, i < 4 → createPanel ranks (solve (10 * (i + 1))) (10 * (i + 1)) (i / 2) (i % 2) = .ok q := by
    intro i
    by_cases hi : i < 4
    · obtain ⟨q, h, -⟩ := (panel_shows (ranks := ranks) (row := i / 2) (col := i % 2) (hs i hi)).2 hr
      exact ⟨q, fun _ => h⟩
    · exact ⟨⟨0, 0, "", [], [], false, 0, "", false, false⟩, fun h => absurd h hi⟩
  choose P hP using hq
  have hval : ∀ i < 4, ∀ (p : ℕ) (y : ℝ) (s : String), (P i).points[p]? = some (p, y, s) → p < ranks ∧ y = (solve (10 * (i + 1))).evals.getD p 0 := by
    intro i hi p y s h
    obtain ⟨q, h1, -, -, -, h2, h3, -⟩ := (panel_shows (ranks := ranks) (row := i / 2) (col := i % 2) (hs i hi)).2 hr
    rw [hP i hi] at h1
    injection h1 with h1
    subst h1
    have hp : p < ranks := by
      rw [← h2]
      exact (List.getElem?_eq_some_iff.1 h).1
    obtain ⟨m, -, h4, -⟩ := h3 p hp
    rw [h] at h4
    simp only [Option.some.injEq, Prod.mk.injEq] at h4
    exact ⟨hp, h4.2.1⟩
  refine ⟨P, ?_, fun i hi => ?_, fun i j hij hj p y y' s s' h1 h2 => ?_⟩
  · have h0 := hP 0 (by norm_num)
    have h1 := hP 1 (by norm_num)
    have h2 := hP 2 (by norm_num)
    have h3 := hP 3 (by norm_num)
    norm_num at h0 h1 h2 h3
    simp [orderFigure, thetaRange, List.mapM_cons, h0, h1, h2, h3, bind, Except.bind, pure, Except.pure]
  · obtain ⟨q, h1, hrow, hcol, hcap, hlen, hpts, hhue, hleg, hx, hy, hline, htext⟩ :=
      (panel_shows (ranks := ranks) (row := i / 2) (col := i % 2) (hs i hi)).2 hr
    rw [hP i hi] at h1
    injection h1 with h1
    subst h1
    obtain ⟨n1, n2, n3, n4⟩ := panel_numbers (by omega) (hs i hi)
    have hl1 : (P i).line + 1 = (solve (10 * (i + 1))).N := by omega
    refine ⟨hrow, hcol, hcap, ?_, ?_, ?_, hlen, ?_, ?_, hhue, ?_, ?_, ?_, ?_⟩
    · rw [hleg]
      congr 1
      exact propext ⟨fun h => by omega, fun h => by omega⟩
    · rw [hy]
      congr 1
      exact propext ⟨fun h => by omega, fun h => by omega⟩
    · rw [hx]
      congr 1
      exact propext ⟨fun h => by omega, fun h => by omega⟩
    · choose o _ ho hz using hpts
      have key : ∀ p (hp : p < ranks), (fun p => if hp : p < ranks then o p hp else 0) p = o p hp := fun p hp => by simp [hp]
      refine ⟨fun p => if hp : p < ranks then o p hp else 0, fun p hp => ?_, fun p hp p' hp' => ?_⟩
      · simp only [hp, dif_pos]
        exact ⟨_, ho p hp, rfl, (n1 p (by omega)).1, (n1 p (by omega)).2, hz p hp⟩
      · simp only [hp, hp', dif_pos, ho p hp, ho p' hp', Option.map_some, Option.some.injEq]
        constructor
        · intro h
          rw [Int.abs_eq_natAbs, Int.abs_eq_natAbs, label_injective _ _ h]
        · intro h
          rw [Int.abs_eq_natAbs, Int.abs_eq_natAbs] at h
          have h' : (o p hp).natAbs = (o p' hp').natAbs := by exact_mod_cast h
          rw [h']
          have : o p hp = 0 ↔ o p' hp' = 0 := by rw [← Int.natAbs_eq_zero, h', Int.natAbs_eq_zero]
          simp only [this]
    · intro p p' y y' s s' hpp a b
      obtain ⟨a1, rfl⟩ := hval i hi p y s a
      obtain ⟨b1, rfl⟩ := hval i hi p' y' s' b
      exact n2 p p' hpp (by omega)
    · rw [htext, hl1]
    · rw [hl1]
      exact (hs i hi).1
    · rw [hl1]
      exact n4
    · intro p y s a b
      obtain ⟨a1, rfl⟩ := hval i hi p y s a
      have := (n3 p (by omega)).2
      by_contra hneg
      have : 2 * (L : ℝ) ^ 2 * (solve (10 * (i + 1))).evals.getD p 0 ≤ 0 := mul_nonpos_of_nonneg_of_nonpos (by positivity) (not_lt.1 hneg)
      linarith
  · obtain ⟨a1, rfl⟩ := hval i (by omega) p y s h1
    obtain ⟨b1, rfl⟩ := hval j hj p y' s' h2
    have hpi := Real.pi_pos
    refine C111_polar_strict L L le_rfl false _ _ (by positivity) ?_ ?_ _ _ (hs i (by omega)).polar (hs j hj).polar p (by omega)
    · have : ((10 * (i + 1) : ℕ) : ℝ) < ((10 * (j + 1) : ℕ) : ℝ) := by exact_mod_cast (by omega : 10 * (i + 1) < 10 * (j + 1))
      have := mul_lt_mul_of_pos_right this hpi
      linarith
    · have : ((10 * (j + 1) : ℕ) : ℝ) ≤ 40 := by exact_mod_cast (by omega : 10 * (j + 1) ≤ 40)
      nlinarith

/-- C131.  With fewer functions than ranks the figure fails. -/
theorem C131_too_few (L ranks : ℕ) (hr : L ^ 2 < ranks) (solve : ℕ → CapSolution) (v : List (List ℂ))
    (hs : SolvedCap L 10 (solve 10) v) : orderFigure ranks solve = .error .valueError := by
  have h := (panel_shows (ranks := ranks) (row := 0) (col := 0) hs).1 hr
  simp [orderFigure, thetaRange, List.mapM_cons, h, bind, Except.bind]

/-- C131.  At the bandlimit of the script the lines are at 1, 7, 16 and 29, in the picture with its 60 ranks. -/
theorem C131_lines :
    (Region.Slepian.polarCap 16 ((10 : ℕ) * Real.pi / 180) false).shannon 0 = 2 ∧
    (Region.Slepian.polarCap 16 ((20 : ℕ) * Real.pi / 180) false).shannon 0 = 8 ∧
    (Region.Slepian.polarCap 16 ((30 : ℕ) * Real.pi / 180) false).shannon 0 = 17 ∧
    (Region.Slepian.polarCap 16 ((40 : ℕ) * Real.pi / 180) false).shannon 0 = 30 := by
  have hpi := Real.pi_pos
  have hlo := Real.pi_gt_d4
  have hhi := Real.pi_lt_d4
  have key : ∀ (deg : ℕ) (k : ℤ), |128 * (1 - Real.cos (deg * Real.pi / 180)) - k| < 1 / 2 →
      (Region.Slepian.polarCap 16 (deg * Real.pi / 180) false).shannon 0 = k := by
    intro deg k h
    simp only [Region.Slepian.shannon, Region.Slepian.area, Region.Slepian.L]
    refine round_near ?_
    rw [show 2 * Real.pi * (1 - Real.cos (deg * Real.pi / 180)) * ((16 : ℕ) : ℝ) ^ 2 / (4 * Real.pi) =
      128 * (1 - Real.cos (deg * Real.pi / 180)) by push_cast; field_simp; ring]
    exact h
  have bound : ∀ (x lo hi : ℝ), 0 ≤ lo → lo ≤ x → x ≤ hi → hi ≤ 1 →
      1 - hi ^ 2 / 2 ≤ Real.cos x ∧ Real.cos x ≤ 1 - lo ^ 2 / 2 + hi ^ 4 * (5 / 96) := by
    intro x lo hi h0 h1 h2 h3
    have hx : 0 ≤ x := h0.trans h1
    have a := Real.one_sub_sq_div_two_le_cos (x := x)
    have b := (abs_le.1 (Real.cos_bound (x := x) (by rw [abs_of_nonneg hx]; linarith))).2
    rw [abs_of_nonneg hx] at b
    have c : x ^ 2 ≤ hi ^ 2 := by gcongr
    have d : lo ^ 2 ≤ x ^ 2 := by gcongr
    have f : x ^ 4 ≤ hi ^ 4 := by gcongr
    constructor <;> linarith
  have c10 := bound ((10 : ℕ) * Real.pi / 180) 0.1745 0.1746 (by norm_num) (by push_cast; linarith) (by push_cast; linarith) (by norm_num)
  have c20 := bound ((20 : ℕ) * Real.pi / 180) 0.3490 0.3491 (by norm_num) (by push_cast; linarith) (by push_cast; linarith) (by norm_num)
  norm_num at c10 c20
  refine ⟨key 10 2 ?_, key 20 8 ?_, key 30 17 ?_, key 40 30 ?_⟩
  · rw [abs_lt]
    constructor <;> norm_num <;> linarith
  · rw [abs_lt]
    constructor <;> norm_num <;> linarith
  · have h3 : Real.cos ((30 : ℕ) * Real.pi / 180) = √3 / 2 := by
      rw [← Real.cos_pi_div_six]
      congr 1
      push_cast
      ring
    have s1 : 1.732 < √3 := Real.lt_sqrt_of_sq_lt (by norm_num)
    have s2 : √3 < 1.733 := (Real.sqrt_lt' (by norm_num)).2 (by norm_num)
    rw [h3, abs_lt]
    constructor <;> norm_num at s1 s2 ⊢ <;> linarith
  · have h4 : Real.cos ((40 : ℕ) * Real.pi / 180) = 2 * Real.cos (20 * Real.pi / 180) ^ 2 - 1 := by
      rw [← Real.cos_two_mul]
      congr 1
      push_cast
      ring
    rw [h4, abs_lt]
    have hc := c20.1
    have hd := c20.2
    constructor <;> norm_num <;> nlinarith

/-- the attributes of the four caps exist at the bandlimit of the script, where 60 ranks are fewer than the 256 functions. -/
example : 60 ≤ 16 ^ 2 ∧ ∃ (solve : ℕ → CapSolution) (vec : ℕ → List (List ℂ)), ∀ i < 4, SolvedCap 16 (10 * (i + 1)) (solve (10 * (i + 1))) (vec (10 * (i + 1))) := by
  have h : ∀ deg : ℕ, ∃ s v, deg ≤ 180 → SolvedCap 16 deg s v := by
    intro deg
    by_cases hdeg : deg ≤ 180
    · have hpi := Real.pi_pos
      have h0 : 0 ≤ (deg : ℝ) * Real.pi / 180 := by positivity
      have h1 : (deg : ℝ) * Real.pi / 180 ≤ Real.pi := by
        have : (deg : ℝ) ≤ 180 := by exact_mod_cast hdeg
        nlinarith
      obtain ⟨plm, M, sol, r, a, b, c, d, e⟩ := C50_polar_runs_exist 16 false ((deg : ℝ) * Real.pi / 180)
      obtain ⟨ev, v, o, rfl, -⟩ := C50_polar_energy_ratio 16 false _ h0 h1 plm a b M c sol d _ e
      exact ⟨⟨ev, o, _⟩, v, fun _ => ⟨rfl, plm, M, sol, a, b, c, d, e⟩⟩
    · exact ⟨⟨[], [], 0⟩, [], fun h => absurd h hdeg⟩
  choose s v h using h
  exact ⟨by norm_num, s, v, fun i hi => h _ (by omega)⟩

end Sleplet.Props
