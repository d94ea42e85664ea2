import Verif.Lemmas.SlepianTransform
import Verif.Model.Experiments
import Verif.Props.SlepianWavelets

/-!
Progressive reconstructions: what the loop computes.
-/
namespace Sleplet.Experiments

open Complex NumPy Wavelets

theorem sum_mul_right (l : List (List ℂ)) (p : ℕ) (c : ℂ) :
    (l.map fun r => r.getD p 0 * c).sum = (l.map fun r => r.getD p 0).sum * c := by
  induction l with
  | nil => simp
  | cons a l ih => simp only [List.map_cons, List.sum_cons, ih, add_mul]

theorem prod_getD {r w : List ℂ} {n p : ℕ} (hr : n ≤ r.length) (hw : n ≤ w.length) (hp : p < n) :
    (prod (r.take n) (w.take n)).getD p 0 = r.getD p 0 * (starRingEnd ℂ) (w.getD p 0) := by
  have h1 : p < r.length := by omega
  have h2 : p < w.length := by omega
  simp [prod, List.getD_eq_getElem?_getD, hp, h1, h2]

/-- a row of coefficients goes with the sum of the first wavelets. -/
theorem inverseOfRow_ok (w : List ℂ) (wavelets : Array2 ℂ) (hw : wavelets.WF) (n : ℕ) (hl : w.length = n) (hc : n ≤ wavelets.cols) :
    inverseOfRow w wavelets n = .ok ((List.range n).map fun p =>
      ((wavelets.rows.take n).map fun r => r.getD p 0).sum * (starRingEnd ℂ) (w.getD p 0)) := by
  unfold inverseOfRow
  rw [sift2_vector ⟨wavelets.cols, wavelets.rows.take w.length⟩ (fun r hr => hw r (List.mem_of_mem_take hr)) w n hc hl.ge]
  simp only [bind, Except.bind, pure, Except.pure, Array2.sumRows, Except.ok.injEq, List.map_map]
  refine List.map_congr_left fun p hp => ?_
  have hp : p < n := by simpa using hp
  rw [hl, ← sum_mul_right]
  congr 1
  refine List.map_congr_left fun r hr => ?_
  exact prod_getD (by rw [hw r (List.mem_of_mem_take hr)]; exact hc) hl.ge hp

theorem progressiveFrom_ok (wavelets : Array2 ℂ) (hw : wavelets.WF) (n : ℕ) (hc : n ≤ wavelets.cols) (ws : List (List ℂ))
    (hl : ∀ w ∈ ws, w.length = n) (f : ℕ → ℂ) :
    progressiveFrom wavelets n ((List.range n).map f) ws = .ok ((List.range ws.length).map fun i => (List.range n).map fun p =>
      f p + ((wavelets.rows.take n).map fun r => r.getD p 0).sum * (starRingEnd ℂ) ((ws.take (i + 1)).map fun w => w.getD p 0).sum) := by
  induction ws generalizing f with
  | nil => rfl
  | cons w ws ih =>
    have h1 := inverseOfRow_ok w wavelets hw n (hl w (by simp)) hc
    have h2 : addInPlace ((List.range n).map f) ((List.range n).map fun p =>
        ((wavelets.rows.take n).map fun r => r.getD p 0).sum * (starRingEnd ℂ) (w.getD p 0)) =
        .ok ((List.range n).map fun p => f p +
          ((wavelets.rows.take n).map fun r => r.getD p 0).sum * (starRingEnd ℂ) (w.getD p 0)) := by
      unfold addInPlace
      rw [if_pos (by simp), broadcast_of_length_eq _ _ _ (by simp), List.zipWith_map, List.zipWith_self]
    rw [progressiveFrom, h1]
    simp only [bind, Except.bind]
    rw [h2]
    simp only
    rw [ih fun w h => hl w (by simp [h])]
    simp only [pure, Except.pure, List.length_cons, List.range_succ_eq_map, List.map_cons, List.map_map, Except.ok.injEq]
    refine List.cons_eq_cons.2 ⟨by simp, ?_⟩
    refine List.map_congr_left fun i _ => List.map_congr_left fun p _ => ?_
    simp only [List.take_succ_cons, List.map_cons, List.sum_cons, map_add]
    ring

/-- wavelets that do not overlap: the product of the sums is the sum of squares. -/
theorem sum_mul_conj {l s : List ℂ} (hs : s.Sublist l) (hl : l.Pairwise fun a b => a * b = 0) :
    l.sum * (starRingEnd ℂ) s.sum = ((s.map fun a => ‖a‖ ^ 2).sum : ℝ) := by
  have hz : ∀ (a : ℂ) (t : List ℂ), (∀ b ∈ t, a * b = 0) → a * (starRingEnd ℂ) t.sum = 0 ∧ t.sum * (starRingEnd ℂ) a = 0 := by
    intro a t ht
    rcases eq_or_ne a 0 with rfl | ha
    · simp
    · have : t.sum = 0 := List.sum_eq_zero fun b hb => (mul_eq_zero.1 (ht b hb)).resolve_left ha
      simp [this]
  induction hs with
  | slnil => simp
  | @cons s l a h ih =>
    obtain ⟨h1, h2⟩ := List.pairwise_cons.1 hl
    rw [List.sum_cons, add_mul, ih h2, (hz a s fun b hb => h1 b (h.subset hb)).1, zero_add]
  | @cons_cons s l a h ih =>
    obtain ⟨h1, h2⟩ := List.pairwise_cons.1 hl
    have e1 := (hz a s fun b hb => h1 b (h.subset hb)).1
    have e2 := (hz a l h1).2
    have e3 := ih h2
    simp only [List.sum_cons, List.map_cons, map_add]
    have e4 : a * (starRingEnd ℂ) a = ((‖a‖ ^ 2 : ℝ) : ℂ) := by rw [mul_conj, normSq_eq_norm_sq]
    rw [ofReal_add, ← e3, ← e4]
    linear_combination e1 + e2

theorem sum_squares_le : ∀ l : List ℝ, (∀ a ∈ l, 0 ≤ a) → 0 ≤ l.sum ∧ (l.map fun a => a ^ 2).sum ≤ l.sum ^ 2 := by
  intro l
  induction l with
  | nil => simp
  | cons a l ih =>
    intro h
    obtain ⟨i1, i2⟩ := ih fun b hb => h b (by simp [hb])
    have ha := h a (by simp)
    simp only [List.sum_cons, List.map_cons]
    refine ⟨by positivity, ?_⟩
    nlinarith [mul_nonneg ha i1]

/-- real wavelets of square sum one have sum at least one. -/
theorem one_le_sum {l : List ℝ} (h0 : ∀ a ∈ l, 0 ≤ a) (h1 : (l.map fun a => a ^ 2).sum = 1) : 1 ≤ l.sum := by
  obtain ⟨k1, k2⟩ := sum_squares_le l h0
  nlinarith

theorem one_lt_sum {l : List ℝ} (h0 : ∀ a ∈ l, 0 ≤ a) (h1 : (l.map fun a => a ^ 2).sum = 1) {i j : ℕ} (hij : i < j) {a b : ℝ}
    (hi : l[i]? = some a) (hj : l[j]? = some b) (ha : a ≠ 0) (hb : b ≠ 0) : 1 < l.sum := by
  have strict : ∀ (l : List ℝ) (i j : ℕ), (∀ a ∈ l, 0 ≤ a) → i < j → l[i]? = some a → l[j]? = some b →
      (l.map fun a => a ^ 2).sum < l.sum ^ 2 := by
    intro l
    induction l with
    | nil => simp
    | cons c l ih =>
      intro i j h hij hi hj
      have hc := h c (by simp)
      obtain ⟨i1, i2⟩ := sum_squares_le l fun b hb => h b (by simp [hb])
      simp only [List.sum_cons, List.map_cons]
      obtain ⟨j, rfl⟩ : ∃ k, j = k + 1 := ⟨j - 1, by omega⟩
      rw [List.getElem?_cons_succ] at hj
      match i with
      | 0 =>
        rw [List.getElem?_cons_zero, Option.some.injEq] at hi
        subst hi
        have hb' : b ≤ l.sum := List.single_le_sum (fun b hb => h b (by simp [hb])) b (List.mem_of_getElem? hj)
        have hb0 : 0 < b := lt_of_le_of_ne (h b (by simp [List.mem_of_getElem? hj])) (Ne.symm hb)
        have hc0 : 0 < c := lt_of_le_of_ne hc (Ne.symm ha)
        nlinarith [mul_pos hc0 (lt_of_lt_of_le hb0 hb')]
      | i + 1 =>
        rw [List.getElem?_cons_succ] at hi
        have := ih i j (fun b hb => h b (by simp [hb])) (by omega) hi hj
        nlinarith [mul_nonneg hc i1]
  have := strict l i j h0 hij hi hj
  rw [h1] at this
  nlinarith [(sum_squares_le l h0).1]

end Sleplet.Experiments
