import Mathlib.Analysis.Convex.StrictConvexSpace
import Mathlib.Analysis.InnerProductSpace.Convex
import Mathlib.Analysis.Complex.Basic
import Verif.Model.ErrorFigure
import Verif.Lemmas.Integration
import Verif.Props.SlepianTransform

/-!
C99: the figure of the errors of the Slepian coefficients.
-/
namespace Sleplet.Props

open Transform ErrorFigure

variable {L : ℕ} {Pix : Type} [Fintype Pix]

private theorem ratio_le {G F : ℂ} (hF : F ≠ 0) : ∃ y : ℝ, ratio G F = some y ∧ 0 ≤ y ∧ y ≤ ‖G - F‖ / ‖F‖ ∧ (y = ‖G - F‖ / ‖F‖ ↔ SameRay ℝ G F) ∧
    (y = 0 ↔ ‖G‖ = ‖F‖) := by
  have h0 : ‖F‖ ≠ 0 := norm_ne_zero_iff.2 hF
  have hp : 0 < ‖F‖ := norm_pos_iff.2 hF
  refine ⟨|‖G‖ - ‖F‖| / ‖F‖, by simp [ratio, h0], by positivity, ?_, ?_, ?_⟩
  · exact div_le_div_of_nonneg_right (abs_norm_sub_norm_le G F) hp.le
  · rw [div_left_inj' h0, sameRay_iff_norm_sub, eq_comm]
  · rw [div_eq_zero_iff, abs_eq_zero, sub_eq_zero]
    simp [h0]

private theorem dot (n : ℕ) (g : ℕ → Option ℝ) {p : ℕ} (hp : p < n) : ((List.range n).zip ((List.range n).map g))[p]? = some (p, g p) := by
  simp [List.getElem?_zip_eq_some, List.getElem?_range hp]

/-- The forward transforms behind the two series: dot `p` compares `G p` with `F p`. -/
private theorem errors_ok (sl : Slepian (L ^ 2)) (synth : (Fin (L ^ 2) → ℂ) → Pix → ℂ) (w : Pix → ℝ) (mask : Option (Pix → ℝ)) (f : Pix → ℂ)
    (flm : Fin (L ^ 2) → ℂ) (G F : ℕ → ℂ)
    (hG : ∀ p < sl.N, decompose sl synth w { f := some f, mask := mask } p = .ok (G p))
    (hF : ∀ p < sl.N, decompose sl synth w { flm := some flm } p = .ok (F p)) :
    errors sl synth w mask f flm = .ok ((List.range sl.N).map fun p => ratio (G p) (F p)) := by
  unfold errors slepianForward
  rw [decomposeAll_ok sl synth w { f := some f, mask := mask } G _ fun r hr => hG r (List.mem_range.1 (by simpa using hr)),
    decomposeAll_ok sl synth w { flm := some flm } F _ fun r hr => hF r (List.mem_range.1 (by simpa using hr))]
  have hd : detectMethod (some f).isSome (none : Option (Fin (L ^ 2) → ℂ)).isSome mask.isSome =
      .ok (if mask.isSome then .integrateRegion else .integrateSphere) := by
    cases mask <;> rfl
  have hd2 : detectMethod (none : Option (Pix → ℂ)).isSome (some flm).isSome (none : Option (Pix → ℝ)).isSome = .ok .harmonicSum := rfl
  simp only [hd, hd2, bind, Except.bind, Option.getD_none]
  rw [NumPy.broadcast_of_length_eq _ _ _ (by simp), List.zipWith_map, List.zipWith_self]

/-- C99. The figure has one dot per rank below the Shannon number in each series.  Dot `p` is missing when the coefficient `F` given by the harmonics is zero;
else its ordinate is at most the relative error `|G - F| / |F|` of the coefficient `G` found by integrating, over the sphere or over the region, and equal
to it exactly when the two numbers have the same phase.  Missing from the full property (and false, see below): equality. -/
theorem C99_dots_partial (sl : Slepian (L ^ 2)) (synth : (Fin (L ^ 2) → ℂ) → Pix → ℂ) (w mask : Pix → ℝ) (flm : Fin (L ^ 2) → ℂ)
    (hN : sl.N ≤ L ^ 2) (v : ℕ → Fin (L ^ 2) → ℂ) (e : ℕ → ℝ) (hv : ∀ p < sl.N, sl.evecs[p]? = some (v p)) (he : ∀ p < sl.N, sl.evals[p]? = some (e p)) :
    ∃ fig, figure sl synth w mask flm = .ok fig ∧ fig.region.length = sl.N ∧ fig.sphere.length = sl.N ∧
      ∀ p < sl.N, ∃ yr ys : Option ℝ, fig.region[p]? = some (p, yr) ∧ fig.sphere[p]? = some (p, ys) ∧
        let F : ℂ := ∑ i, flm i * (starRingEnd ℂ) (v p i)
        let G : ℂ := ∑ x, synth flm x * (starRingEnd ℂ) (synth (v p) x) * (w x : ℂ)
        let R : ℂ := (∑ x, synth flm x * (starRingEnd ℂ) (synth (v p) x) * (w x : ℂ) * (mask x : ℂ)) / (e p : ℂ)
        (F = 0 → yr = none ∧ ys = none) ∧
        (F ≠ 0 → (∃ y : ℝ, yr = some y ∧ 0 ≤ y ∧ y ≤ ‖R - F‖ / ‖F‖ ∧ (y = ‖R - F‖ / ‖F‖ ↔ SameRay ℝ R F)) ∧
          ∃ y : ℝ, ys = some y ∧ 0 ≤ y ∧ y ≤ ‖G - F‖ / ‖F‖ ∧ (y = ‖G - F‖ / ‖F‖ ↔ SameRay ℝ G F)) := by
  have key := fun p (hp : p < sl.N) => C33_method_selection sl synth w p (v p) (e p) (hv p hp) (he p hp) (lt_of_lt_of_le hp hN)
  have h1 := errors_ok sl synth w (some mask) (synth flm) flm _ _ (fun p hp => (key p hp).2.1 (synth flm) mask) (fun p hp => (key p hp).1 flm none none)
  have h2 := errors_ok sl synth w none (synth flm) flm _ _ (fun p hp => (key p hp).2.2 (synth flm)) (fun p hp => (key p hp).1 flm none none)
  refine ⟨_, by simp only [figure, h1, h2, bind, Except.bind, pure, Except.pure]; rfl, by simp, by simp, fun p hp => ?_⟩
  refine ⟨_, _, dot _ _ hp, dot _ _ hp, ?_⟩
  dsimp only
  constructor
  · intro hF
    rw [hF]
    simp [ratio]
  · intro hF
    obtain ⟨y, a1, a2, a3, a4, -⟩ := ratio_le (G := (∑ x, synth flm x * (starRingEnd ℂ) (synth (v p) x) * (w x : ℂ) * (mask x : ℂ)) / (e p : ℂ)) hF
    obtain ⟨z, b1, b2, b3, b4, -⟩ := ratio_le (G := ∑ x, synth flm x * (starRingEnd ℂ) (synth (v p) x) * (w x : ℂ)) hF
    exact ⟨⟨y, a1, a2, a3, a4⟩, z, b1, b2, b3, b4⟩

/-- C99. When the harmonics are orthonormal under the quadrature and the Slepian functions solve the eigenproblem of the same quadrature with eigenvalues other than zero,
every dot that is there has ordinate zero. -/
theorem C99_exact (sl : Slepian (L ^ 2)) (synth : (Fin (L ^ 2) → ℂ) → Pix → ℂ) (w mask : Pix → ℝ) (flm : Fin (L ^ 2) → ℂ)
    (hN : sl.N ≤ L ^ 2) (v : ℕ → Fin (L ^ 2) → ℂ) (e : ℕ → ℝ) (hv : ∀ p < sl.N, sl.evecs[p]? = some (v p)) (he : ∀ p < sl.N, sl.evals[p]? = some (e p))
    (Y : Fin (L ^ 2) → Pix → ℂ) (hY : ∀ c x, synth c x = ∑ i, c i * Y i x)
    (horth : ∀ i j, ∑ x, Y i x * (starRingEnd ℂ) (Y j x) * (w x : ℂ) = if i = j then 1 else 0) (hne : ∀ p < sl.N, e p ≠ 0)
    (heig : ∀ p < sl.N, ∀ r, ∑ c, (∑ x, (starRingEnd ℂ) (Y r x) * Y c x * (w x : ℂ) * (mask x : ℂ)) * v p c = e p * v p r) :
    ∃ fig, figure sl synth w mask flm = .ok fig ∧ ∀ p < sl.N, ∑ i, flm i * (starRingEnd ℂ) (v p i) ≠ 0 →
      fig.region[p]? = some (p, some 0) ∧ fig.sphere[p]? = some (p, some 0) := by
  have key := fun p (hp : p < sl.N) => C33_method_selection sl synth w p (v p) (e p) (hv p hp) (he p hp) (lt_of_lt_of_le hp hN)
  have ag := fun p (hp : p < sl.N) => C34_three_methods_agree sl synth w mask Y hY horth p (lt_of_lt_of_le hp hN) (v p) (e p) (hv p hp) (he p hp) (hne p hp)
    (heig p hp) flm
  have h1 := errors_ok sl synth w (some mask) (synth flm) flm _ _ (fun p hp => (ag p hp).2.trans ((key p hp).1 flm none none)) (fun p hp => (key p hp).1 flm none none)
  have h2 := errors_ok sl synth w none (synth flm) flm _ _ (fun p hp => (ag p hp).1.trans ((key p hp).1 flm none none)) (fun p hp => (key p hp).1 flm none none)
  refine ⟨_, by simp only [figure, h1, h2, bind, Except.bind, pure, Except.pure]; rfl, fun p hp hF => ?_⟩
  obtain ⟨y, a1, -, -, -, a5⟩ := ratio_le (G := ∑ i, flm i * (starRingEnd ℂ) (v p i)) hF
  rw [a5.2 rfl] at a1
  constructor <;> simp [List.getElem?_zip_eq_some, List.getElem?_range hp, a1]

/-- one harmonic on one pixel. -/
example : ∃ fig, figure (L := 1) (Pix := Unit) ⟨1, [1], [fun _ => 1]⟩ (fun c _ => ∑ i, c i * 1) (fun _ => 1) (fun _ => 1) (fun _ => 3) = .ok fig ∧
    ∀ p < 1, ∑ _i : Fin (1 ^ 2), (3 : ℂ) * (starRingEnd ℂ) 1 ≠ 0 → fig.region[p]? = some (p, some 0) ∧ fig.sphere[p]? = some (p, some 0) := by
  refine C99_exact (L := 1) (Pix := Unit) ⟨1, [1], [fun _ => 1]⟩ _ _ _ (fun _ => 3) (by simp) (fun _ _ => 1) (fun _ => 1) ?_ ?_ (fun _ _ => 1) (fun _ _ => rfl) ?_
    (by simp) ?_
  · intro p hp; obtain rfl : p = 0 := by simpa using hp
    rfl
  · intro p hp; obtain rfl : p = 0 := by simpa using hp
    rfl
  · intro i j
    have : i = j := Subsingleton.elim (α := Fin 1) i j
    simp [this]
  · simp

/-- C99, negative part. On the grid and with the weights of the program at bandlimit three, a Slepian object whose first function is the constant: there are coefficients for
which the first dot of the sphere stands at zero although the coefficient found by integration is wrong by twice its magnitude. -/
theorem C99_phase_violation (sl : Slepian (3 ^ 2)) (hN : 1 ≤ sl.N) (hN9 : sl.N ≤ 3 ^ 2) (mask : Integration.Grid 3 → ℝ)
    (Y : Fin (3 ^ 2) → Integration.Grid 3 → ℂ) (h0 : ∀ x, Y 0 x = ((1 / Real.sqrt (4 * Real.pi) : ℝ) : ℂ))
    (h6 : ∀ x, Y 6 x = ((Real.sqrt (5 / (16 * Real.pi)) * (3 * Real.cos (Integration.theta x) ^ 2 - 1) : ℝ) : ℂ))
    (v : ℕ → Fin (3 ^ 2) → ℂ) (e : ℕ → ℝ) (hv : ∀ p < sl.N, sl.evecs[p]? = some (v p)) (he : ∀ p < sl.N, sl.evals[p]? = some (e p))
    (hv0 : v 0 = fun i => if i = 0 then 1 else 0) :
    ∃ (flm : Fin (3 ^ 2) → ℂ) (fig : Figure), figure sl (fun c x => ∑ i, c i * Y i x) (Integration.weight 3) mask flm = .ok fig ∧
      fig.sphere[0]? = some (0, some 0) ∧
      decompose sl (fun c x => ∑ i, c i * Y i x) (Integration.weight 3) { flm := some flm } 0 = .ok 1 ∧
      decompose sl (fun c x => ∑ i, c i * Y i x) (Integration.weight 3) { f := some fun x => ∑ i, flm i * Y i x } 0 = .ok (-1) := by
  classical
  set synth : (Fin (3 ^ 2) → ℂ) → Integration.Grid 3 → ℂ := fun c x => ∑ i, c i * Y i x with hsynth
  set w := Integration.weight 3 with hw
  set k0 : ℝ := 1 / Real.sqrt (4 * Real.pi) with hk0
  set y6 : Integration.Grid 3 → ℝ := fun x => Real.sqrt (5 / (16 * Real.pi)) * (3 * Real.cos (Integration.theta x) ^ 2 - 1) with hy6
  have h6' : ∀ x, Y 6 x = (y6 x : ℂ) := h6
  have hpi := Real.pi_pos
  have hk0p : 0 < k0 := by rw [hk0]; positivity
  set a : ℝ := ∑ x, k0 * k0 * w x with ha
  set c : ℝ := ∑ x, y6 x * k0 * w x with hc
  have hcos : ∀ x : Integration.Grid 3, 0 < w x → Real.cos (Integration.theta x) ^ 2 = 1 / 4 := by
    intro x hx
    rw [hw, Integration.weight_eq (by norm_num)] at hx
    rw [Integration.theta_eq (by norm_num)]
    obtain ⟨t, q⟩ := x
    dsimp only at hx ⊢
    have h13 : Real.cos (Real.pi / 3) ^ 2 = 1 / 4 := by rw [Real.cos_pi_div_three]; norm_num
    fin_cases t
    · simp at hx
    · simpa using h13
    · have : ((2 : ℕ) : ℝ) * (Real.pi / (3 : ℕ)) = Real.pi - Real.pi / 3 := by push_cast; ring
      simp only [] at *
      rw [show (((⟨2, by norm_num⟩ : Fin (3 + 1)) : ℕ) : ℝ) * (Real.pi / (3 : ℕ)) = Real.pi - Real.pi / 3 from this, Real.cos_pi_sub, neg_sq, h13]
    · exfalso
      have : ((3 : ℕ) : ℝ) * (Real.pi / (3 : ℕ)) = Real.pi := by push_cast; ring
      simp only [this, Real.sin_pi, zero_mul, lt_self_iff_false] at hx
  have hwn : ∀ x, 0 ≤ w x := Integration.weight_nonneg (by norm_num)
  have hcneg : c < 0 := by
    have hs : 0 < Real.sqrt (5 / (16 * Real.pi)) := Real.sqrt_pos.2 (by positivity)
    have hterm : ∀ x, 0 < w x → y6 x * k0 * w x < 0 := by
      intro x hx
      have : y6 x < 0 := by
        simp only [hy6]
        rw [hcos x hx]
        exact mul_neg_of_pos_of_neg hs (by norm_num)
      exact mul_neg_of_neg_of_pos (mul_neg_of_neg_of_pos this hk0p) hx
    rw [hc]
    refine Finset.sum_neg' (fun x _ => ?_) ⟨((1 : Fin 4), (0 : Fin 6)), Finset.mem_univ _, hterm _ ?_⟩
    · rcases (hwn x).lt_or_eq with h | h
      · exact (hterm x h).le
      · rw [← h, mul_zero]
    · rw [hw, Integration.weight_eq (by norm_num)]
      have : 0 < Real.sin (Real.pi / 3) := Real.sin_pos_of_pos_of_lt_pi (by positivity) (by linarith)
      have h1 : (((1 : Fin 4) : ℕ) : ℝ) * (Real.pi / (3 : ℕ)) = Real.pi / 3 := by simp
      dsimp only
      rw [h1]
      positivity
  set b : ℝ := -(1 + a) / c with hb
  have hbc : a + b * c = -1 := by rw [hb, div_mul_cancel₀ _ hcneg.ne]; ring
  set flm : Fin (3 ^ 2) → ℂ := fun i => if i = 0 then 1 else if i = 6 then (b : ℂ) else 0 with hflm
  have key := C33_method_selection sl synth w 0 (v 0) (e 0) (hv 0 (by omega)) (he 0 (by omega)) (by norm_num)
  have hv0' : ∀ x, synth (v 0) x = (k0 : ℂ) := by
    intro x
    simp only [hsynth, hv0]
    rw [Finset.sum_eq_single 0 (fun i _ hi => by simp [hi]) (by simp)]
    simp [h0]
  have hfl : ∀ x, synth flm x = ((k0 + b * y6 x : ℝ) : ℂ) := by
    intro x
    simp only [hsynth, hflm]
    have hne : (6 : Fin (3 ^ 2)) ≠ 0 := by decide
    rw [Finset.sum_eq_add (0 : Fin (3 ^ 2)) 6 hne.symm (fun i _ hi => by simp [hi.1, hi.2]) (by simp) (by simp)]
    simp only [if_true, if_neg hne, h0, h6', one_mul]
    push_cast
    ring
  have hF : ∑ i, flm i * (starRingEnd ℂ) (v 0 i) = 1 := by
    rw [hv0, Finset.sum_eq_single 0 (fun i _ hi => by simp [hi]) (by simp)]
    simp [hflm]
  have hG : ∑ x, synth flm x * (starRingEnd ℂ) (synth (v 0) x) * (w x : ℂ) = -1 := by
    have : ∀ x, synth flm x * (starRingEnd ℂ) (synth (v 0) x) * (w x : ℂ) = ((k0 * k0 * w x + b * (y6 x * k0 * w x) : ℝ) : ℂ) := by
      intro x
      rw [hfl, hv0', Complex.conj_ofReal]
      push_cast
      ring
    rw [Finset.sum_congr rfl fun x _ => this x, ← Complex.ofReal_sum, Finset.sum_add_distrib, ← Finset.mul_sum _ _ b, ← ha, ← hc, hbc]
    simp
  have d1 := key.1 flm none none
  have d2 := key.2.2 (synth flm)
  rw [hF] at d1
  rw [hG] at d2
  obtain ⟨fig, hfig, -, -, hd⟩ := C99_dots_partial sl synth w mask flm hN9 v e hv he
  refine ⟨flm, fig, hfig, ?_, d1, d2⟩
  have keyp := fun p (hp : p < sl.N) => C33_method_selection sl synth w p (v p) (e p) (hv p hp) (he p hp) (lt_of_lt_of_le hp hN9)
  have e1 := errors_ok sl synth w (some mask) (synth flm) flm _ _ (fun p hp => (keyp p hp).2.1 (synth flm) mask) (fun p hp => (keyp p hp).1 flm none none)
  have e2 := errors_ok sl synth w none (synth flm) flm _ _ (fun p hp => (keyp p hp).2.2 (synth flm)) (fun p hp => (keyp p hp).1 flm none none)
  simp only [figure, e1, e2, bind, Except.bind, pure, Except.pure] at hfig
  cases hfig
  dsimp only
  rw [dot _ _ (show 0 < sl.N by omega), hF, hG]
  simp [ratio]

example : ∃ (sl : Slepian (3 ^ 2)) (Y : Fin (3 ^ 2) → Integration.Grid 3 → ℂ) (v : ℕ → Fin (3 ^ 2) → ℂ) (e : ℕ → ℝ), 1 ≤ sl.N ∧ sl.N ≤ 3 ^ 2 ∧
    (∀ x, Y 0 x = ((1 / Real.sqrt (4 * Real.pi) : ℝ) : ℂ)) ∧
    (∀ x, Y 6 x = ((Real.sqrt (5 / (16 * Real.pi)) * (3 * Real.cos (Integration.theta x) ^ 2 - 1) : ℝ) : ℂ)) ∧
    (∀ p < sl.N, sl.evecs[p]? = some (v p)) ∧ (∀ p < sl.N, sl.evals[p]? = some (e p)) ∧ v 0 = fun i => if i = 0 then 1 else 0 := by
  refine ⟨⟨1, [1], [fun i => if i = 0 then 1 else 0]⟩, fun i x => if i = 0 then ((1 / Real.sqrt (4 * Real.pi) : ℝ) : ℂ) else
    ((Real.sqrt (5 / (16 * Real.pi)) * (3 * Real.cos (Integration.theta x) ^ 2 - 1) : ℝ) : ℂ), fun _ i => if i = 0 then 1 else 0, fun _ => 1, le_rfl, by norm_num,
    fun x => if_pos rfl, fun x => if_neg (by decide), ?_, ?_, rfl⟩
  · intro p hp; obtain rfl : p = 0 := by simpa using hp
    rfl
  · intro p hp; obtain rfl : p = 0 := by simpa using hp
    rfl

end Sleplet.Props
