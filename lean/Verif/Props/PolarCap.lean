import Verif.Model.PolarMatrix
import Verif.Lemmas.SphHarm
import Verif.Lemmas.EigenClean
import Verif.Props.DMatrixReal
import Verif.Props.EigenClean
import Verif.Props.Region

/-!
C65: the polar-cap matrices are the surface integrals of products of spherical harmonics, and C50 for polar caps.
-/
namespace Sleplet.Props

open Sleplet.Gaunt Sleplet.Spec Sleplet.RealMat Sleplet.Wigner Sleplet.Eigen Complex

/-! ### the table -/

private theorem filter_orders (N : ℕ) :
    (List.range (N ^ 2)).filter (fun i => decide ((ind2elm i).2 = 0)) = (List.range N).map fun n : ℕ => elm2ind n 0 := by
  induction N with
  | zero => simp
  | succ N ih =>
    have e : (N + 1) ^ 2 = N ^ 2 + (2 * N + 1) := by ring
    rw [e, List.range_add, List.filter_append, ih, List.range_succ (n := N), List.map_append]
    congr 1
    rw [List.filter_map]
    have hf : (List.range (2 * N + 1)).filter ((fun i => decide ((ind2elm i).2 = 0)) ∘ fun x => N ^ 2 + x) =
        (List.range (2 * N + 1)).filter (fun t => t == N) := by
      apply List.filter_congr
      intro t ht
      have ht : t < 2 * N + 1 := by simpa using ht
      have hb : |(t : ℤ) - (N : ℤ)| ≤ N := by rw [abs_le]; omega
      have : N ^ 2 + t = elm2ind N ((t : ℤ) - N) := by
        zify
        rw [elm2ind_cast hb]
        ring
      change decide ((ind2elm (N ^ 2 + t)).2 = 0) = _
      rw [this, ind2elm_elm2ind hb]
      by_cases h : t = N
      · simp [h]
      · have : ¬ ((t : ℤ) - N = 0) := by omega
        simp [h, this]
    rw [hf, List.filter_beq, List.count_eq_one_of_mem List.nodup_range (by simp; omega)]
    simp only [List.replicate_one, List.map_cons, List.map_nil]
    congr 1
    have hb : |(0 : ℤ)| ≤ (N : ℤ) := by simp
    zify
    rw [elm2ind_cast hb]
    ring

/-- The table of Legendre polynomials never fails and holds, at degree `n`, the scaled entry of order zero. -/
theorem C65_legendre_table (L : ℕ) (plm : List ℝ) (h : plm.length = (2 * L) ^ 2) :
    ∃ T, legendreTable L (createEmmVector L) plm = .ok T ∧ T.length = 2 * L ∧
      ∀ n < 2 * L, T.getD n 0 = Real.sqrt (4 * Real.pi / (2 * n + 1)) * plm.getD (elm2ind n 0) 0 := by
  have hemm : createEmmVector L = (List.range ((2 * L) ^ 2)).map fun i => (ind2elm i).2 := by
    apply List.ext_getElem?
    intro i
    rcases lt_or_ge i ((2 * L) ^ 2) with hi | hi
    · rw [List.getElem?_map, List.getElem?_range hi]
      have := (C21_emm_vector L).2 (ind2elm i).1 (ind2elm i).2 (ind2elm_fst_lt hi) (ind2elm_abs_le i)
      rw [elm2ind_ind2elm] at this
      rw [this]; rfl
    · rw [List.getElem?_eq_none (by rw [(C21_emm_vector L).1]; exact hi)]
      simp [hi]
  have hpl : plm = (List.range ((2 * L) ^ 2)).map fun i => plm.getD i 0 := by
    apply List.ext_getElem?
    intro i
    rcases lt_or_ge i ((2 * L) ^ 2) with hi | hi
    · rw [List.getElem?_map, List.getElem?_range hi]
      simp [List.getD_eq_getElem?_getD, List.getElem?_eq_getElem (h ▸ hi)]
    · simp [hi, h]
  have hsel : boolSelect ((createEmmVector L).map fun m => decide (m = 0)) plm =
      .ok ((List.range (2 * L)).map fun n : ℕ => plm.getD (elm2ind n 0) 0) := by
    unfold boolSelect
    rw [if_pos (by rw [List.length_map, (C21_emm_vector L).1, h])]
    congr 1
    rw [hemm, List.map_map]
    conv_lhs => rw [hpl]
    rw [List.zip_map', List.filterMap_map]
    have : (List.range (2 * L)).map (fun n : ℕ => plm.getD (elm2ind n 0) 0) =
        ((List.range (2 * L)).map fun n : ℕ => elm2ind n 0).map fun i => plm.getD i 0 := by rw [List.map_map]; rfl
    rw [this, ← filter_orders, ← List.filterMap_eq_map, List.filterMap_filter]
    apply List.filterMap_congr
    intro i _
    simp [Function.comp]
  refine ⟨List.zipWith (· * ·) ((List.range (2 * L)).map fun ell : ℕ => Real.sqrt (4 * Real.pi / (2 * ell + 1)))
    ((List.range (2 * L)).map fun n : ℕ => plm.getD (elm2ind n 0) 0), ?_, ?_, ?_⟩
  · unfold legendreTable
    rw [hsel]
    simp only [bind, Except.bind, pure, Except.pure]
    rw [if_pos (by simp)]
  · simp
  · intro n hn
    rw [List.getD_eq_getElem?_getD, List.getElem?_zipWith]
    simp [hn]

/-! ### Gaunt's formula -/

/-- C66. For all degrees and all orders `|mᵢ| ≤ lᵢ` that add up to zero, the two symbols computed by the program give the
integral of the product of three associated Legendre functions. -/
theorem C66_gaunt (l1 l2 l3 : ℕ) (m1 m2 m3 : ℤ) (hm : m1 + m2 + m3 = 0) (h1 : |m1| ≤ l1) (h2 : |m2| ≤ l2) (h3 : |m3| ≤ l3)
    (w0 w : ℝ) (hw0 : wigner3j l1 l2 l3 0 0 0 = .ok w0) (hw : wigner3j l1 l2 l3 m1 m2 m3 = .ok w) :
    ∫ x in (-1 : ℝ)..1, assocLegendre l1 m1 x * assocLegendre l2 m2 x * assocLegendre l3 m3 x =
      2 * w0 * w * (Real.sqrt (((l1 + m1).toNat.factorial : ℝ) / ((l1 - m1).toNat.factorial : ℝ)) *
        Real.sqrt (((l2 + m2).toNat.factorial : ℝ) / ((l2 - m2).toNat.factorial : ℝ)) *
        Real.sqrt (((l3 + m3).toNat.factorial : ℝ) / ((l3 - m3).toNat.factorial : ℝ))) := by
  obtain rfl : m3 = -m1 - m2 := by omega
  rw [wigner3j_eq] at hw0 hw
  injection hw0 with hw0
  injection hw with hw
  subst hw0 hw
  have ht := triple_eq h1 h2 h3
  rw [abs_le] at h1 h2 h3
  have hf1 : (l1.factorial : ℝ) ≠ 0 := by positivity
  have hf2 : (l2.factorial : ℝ) ≠ 0 := by positivity
  have hf3 : (l3.factorial : ℝ) ≠ 0 := by positivity
  have hint : ∫ x in (-1 : ℝ)..1, assocLegendre l1 m1 x * assocLegendre l2 m2 x * assocLegendre l3 (-m1 - m2) x =
      1 / (2 ^ (l1 + l2 + l3) * ((l1.factorial : ℝ) * l2.factorial * l3.factorial)) * triple l1 l2 l3 m1 m2 := by
    unfold triple intg
    rw [← intervalIntegral.integral_const_mul]
    refine intervalIntegral.integral_congr_Ioo_of_le (by norm_num) fun x hx => ?_
    have hs : 0 < Real.sqrt (1 - x ^ 2) := Real.sqrt_pos.2 (by nlinarith [hx.1, hx.2])
    unfold assocLegendre
    simp only [Polynomial.eval_mul]
    rw [dz_of_nonneg (by omega), dz_of_nonneg (by omega), dz_of_nonneg (by omega)]
    rw [show (l3 : ℤ) - m1 - m2 = l3 + (-m1 - m2) by ring]
    change _ * (dq l1 _).eval x * (_ * (dq l2 _).eval x) * (_ * (dq l3 _).eval x) = _
    set s := Real.sqrt (1 - x ^ 2)
    have e1 : s ^ m1 * s ^ m2 * s ^ (-m1 - m2) = 1 := by
      rw [← zpow_add₀ hs.ne', ← zpow_add₀ hs.ne', show m1 + m2 + (-m1 - m2) = 0 by ring, zpow_zero]
    have e2 : (-1 : ℝ) ^ m1 * (-1) ^ m2 * (-1) ^ (-m1 - m2) = 1 := by
      rw [← zpow_add₀ (by norm_num), ← zpow_add₀ (by norm_num), show m1 + m2 + (-m1 - m2) = 0 by ring, zpow_zero]
    calc _ = (s ^ m1 * s ^ m2 * s ^ (-m1 - m2)) * ((-1 : ℝ) ^ m1 * (-1) ^ m2 * (-1) ^ (-m1 - m2)) /
          (2 ^ (l1 + l2 + l3) * ((l1.factorial : ℝ) * l2.factorial * l3.factorial)) *
          ((dq l1 ((l1 : ℤ) + m1).toNat).eval x * (dq l2 ((l2 : ℤ) + m2).toNat).eval x *
            (dq l3 ((l3 : ℤ) + (-m1 - m2)).toNat).eval x) := by
          rw [pow_add, pow_add]; field_simp
      _ = _ := by rw [e1, e2, one_mul]
  rw [hint, ht]
  have hz : ∀ n : ℤ, zf n = (n.toNat.factorial : ℝ) := fun n => rfl
  simp only [hz]
  field_simp

/-- the hypotheses are met with values that are not zero: `∫ x · x · 1 = 2/3`. -/
example : ∃ w0, wigner3j 1 1 0 0 0 0 = .ok w0 ∧ w0 ≠ 0 := by
  refine ⟨_, wigner3j_eq 1 1 0 0 0 0, fun h0 => ?_⟩
  have := C66_gaunt 1 1 0 0 0 0 (by norm_num) (by simp) (by simp) (by simp) _ _ (wigner3j_eq 1 1 0 0 0 0) (wigner3j_eq 1 1 0 0 0 0)
  simp only [Nat.cast_one, Nat.cast_zero] at this
  rw [h0] at this
  simp [assocLegendre] at this
  have h2 : ∫ x in (-1 : ℝ)..1, x ^ 2 = 0 := by
    refine Eq.trans (intervalIntegral.integral_congr fun x _ => ?_) this
    ring
  norm_num at h2

private theorem re_sphHarm_zero (n : ℕ) (t : ℝ) :
    Real.sqrt (4 * Real.pi / (2 * n + 1)) * (sphHarm n 0 t 0).re = (legP n).eval (Real.cos t) := by
  have hpi := Real.pi_pos
  have h1 : sphHarm n 0 t 0 = ((thetaPart n 0 t : ℝ) : ℂ) := by rw [sphHarm_eq]; simp
  have h2 := assocLegendre_nat n 0 (Real.cos t)
  have h3 := nrm_nat (Nat.zero_le n)
  simp only [Nat.cast_zero, add_zero, pow_zero, Nat.sub_zero, one_div, mul_one] at h2 h3
  rw [h1, ofReal_re]
  unfold thetaPart legP
  rw [h2, h3, div_self (by positivity), Real.sqrt_one, mul_one, ← mul_assoc, ← Real.sqrt_mul (by positivity),
    show 4 * Real.pi / (2 * (n : ℝ) + 1) * ((2 * n + 1) / (4 * Real.pi)) = 1 by field_simp, Real.sqrt_one, one_mul,
    Polynomial.eval_mul, Polynomial.eval_C, one_div]

private theorem simons_eq_cap {el p : ℕ} {m : ℤ} (h1 : |m| ≤ el) (h2 : |m| ≤ p) (gap : Bool) (t : ℝ) (Pl : ℕ → ℝ)
    (hPl : ∀ n ≤ el + p + 1, Pl n = (legP n).eval (Real.cos t)) :
    ((simonsFormula w3j Pl gap m.natAbs el p : ℝ) : ℂ) =
      capIntegral gap t (fun th ph => sphHarm el m th ph * (starRingEnd ℂ) (sphHarm p m th ph)) := by
  rw [cap_sphHarm h1 h2, if_pos rfl]
  congr 1
  unfold simonsFormula
  congr 1
  rw [sum_Icc_cast el p (fun n => w3j el n p 0 0 0 * w3j el n p m.natAbs 0 (-m.natAbs) *
    ((if n = 0 then 1 else Pl (n - 1).toNat) - Pl (n + 1).toNat))]
  · refine Finset.sum_congr rfl fun n hn => ?_
    rw [Finset.mem_range] at hn
    rw [show ((n : ℤ) + 1).toNat = n + 1 by omega, hPl (n + 1) (by omega)]
    by_cases h0 : n = 0
    · simp [h0]
    · rw [if_neg (by omega), if_neg h0, show ((n : ℤ) - 1).toNat = n - 1 by omega, hPl (n - 1) (by omega)]
  · intro n hn
    have hw : w3j el n p 0 0 0 = 0 := by
      rw [w3j, if_neg]
      intro h
      have := h.linear
      rw [lt_abs] at hn
      omega
    rw [hw]; ring

/-- C65.  For every bandlimit, order, cap angle (any real number), gap flag, worker count and interleaving: if the external
routine returned the spherical harmonics at the boundary of the cap, no worker raises and the matrix that is built for order
`m` holds the integrals of `Y_{lm} conj(Y_{l'm})` over the cap (both caps for a polar gap). -/
theorem C65_polar_matrix_is_surface_integral (L : ℕ) (gap : Bool) (t : ℝ) (plm : List ℝ) (hlen : plm.length = (2 * L) ^ 2)
    (hplm : ∀ n < 2 * L, plm.getD (elm2ind n 0) 0 = (sphHarm n 0 t 0).re)
    (m : ℤ) (ncpu : ℕ) (hpos : 1 ≤ ncpu) (we : ℕ → Option Err) (r : Except Err (ℕ → ℕ → ℝ))
    (h : CreatesOrder L gap plm m ncpu we r) :
    (∀ k, we k = none) ∧ ∃ M, r = .ok M ∧ ∀ i j, m.natAbs + i < L → m.natAbs + j < L →
      (M i j : ℂ) = capIntegral gap t fun th ph =>
        sphHarm (m.natAbs + i) m th ph * (starRingEnd ℂ) (sphHarm (m.natAbs + j) m th ph) := by
  obtain ⟨T, hT, -, hTn⟩ := C65_legendre_table L plm hlen
  unfold CreatesOrder at h
  rw [hT] at h
  obtain ⟨h1, M, hM, h2, -⟩ :=
    C06_polar_matrix_schedule_independent L gap (fun n => T.getD n 0) m.natAbs w3j wigner3j_eq ncpu hpos we r h
  refine ⟨h1, M, hM, fun i j hi hj => ?_⟩
  rw [h2 i j hi hj]
  refine simons_eq_cap (by rw [Int.abs_eq_natAbs]; push_cast; omega) (by rw [Int.abs_eq_natAbs]; push_cast; omega) gap t _ fun n hn => ?_
  rw [hTn n (by omega), hplm n (by omega), re_sphHarm_zero]

/-- C65: harmonics of different orders are orthogonal over the caps, so no other matrix is needed. -/
theorem C65_orders_decouple (gap : Bool) (t : ℝ) (l p : ℕ) (m k : ℤ) (h1 : |m| ≤ l) (h2 : |k| ≤ p) (h : m ≠ k) :
    capIntegral gap t (fun th ph => sphHarm l m th ph * (starRingEnd ℂ) (sphHarm p k th ph)) = 0 := by
  rw [cap_sphHarm h1 h2, if_neg h]

/-- C65: harmonics computed for another bandlimit are rejected, not used. -/
theorem C65_table_mismatch (L : ℕ) (gap : Bool) (plm : List ℝ) (hlen : plm.length ≠ (2 * L) ^ 2) (m : ℤ) (ncpu : ℕ)
    (we : ℕ → Option Err) (r : Except Err (ℕ → ℕ → ℝ)) (h : CreatesOrder L gap plm m ncpu we r) : r = .error .indexError := by
  have hemm : (createEmmVector L).length = (2 * L) ^ 2 := (C21_emm_vector L).1
  have ht : legendreTable L (createEmmVector L) plm = .error .indexError := by
    unfold legendreTable boolSelect
    rw [if_neg (by rw [List.length_map, hemm]; exact fun e => hlen e.symm)]
    rfl
  unfold CreatesOrder at h
  rw [ht] at h
  exact h

example : CreatesOrder 1 false [] 0 1 (fun _ => none) (.error .indexError) := by
  have ht : legendreTable 1 (createEmmVector 1) [] = .error .indexError := by
    unfold legendreTable boolSelect
    rw [if_neg (by rw [List.length_map, (C21_emm_vector 1).1]; simp)]
    rfl
  unfold CreatesOrder
  rw [ht]

/-- C65: the harmonics used in these statements are the orthonormal ones. -/
theorem C65_harmonics_orthonormal (l p : ℕ) (m k : ℤ) (h1 : |m| ≤ l) (h2 : |k| ≤ p) :
    surface 0 Real.pi 0 (2 * Real.pi) (fun th ph => sphHarm l m th ph * (starRingEnd ℂ) (sphHarm p k th ph)) =
      if l = p ∧ m = k then 1 else 0 := sphHarm_orthonormal h1 h2

end Sleplet.Props
