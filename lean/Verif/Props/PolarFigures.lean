import Verif.Lemmas.PolarFigures
import Verif.Props.ConcentrationPolar
import Verif.Props.Upsampling
import Verif.Lemmas.Convolution

/-!
C93: the figures of polar-cap Slepian functions show what they say.
-/
namespace Sleplet.Props

open Complex Sleplet.Spec Sleplet.Gaunt Sleplet.RealMat Sleplet.Eigen Sleplet.PolarFigures

/-! ### The field of one row -/

private theorem row_field (L m : ℕ) (gl : ℕ → ℕ → ℝ) (k : ℕ) (th ph : ℝ) :
    synthesis L (rowOf L m gl k) th ph = ∑ j ∈ Finset.range (L - m), (gl j k : ℂ) * unitOf L m gl k * sphHarm (m + j) m th ph := by
  unfold synthesis
  have hin : ∀ l ∈ Finset.range L, (∑ m' ∈ Finset.Icc (-(l : ℤ)) l, (rowOf L m gl k).getD ((l : ℤ) ^ 2 + l + m').toNat 0 * sphHarm l m' th ph) =
      if m ≤ l then (gl (l - m) k : ℂ) * unitOf L m gl k * sphHarm l m th ph else 0 := by
    intro l hl
    rw [Finset.mem_range] at hl
    have hoff : ∀ m' ∈ Finset.Icc (-(l : ℤ)) l, m' ≠ m → (rowOf L m gl k).getD ((l : ℤ) ^ 2 + l + m').toNat 0 * sphHarm l m' th ph = 0 := by
      intro m' hm' hne
      rw [Finset.mem_Icc] at hm'
      have := rowOf_off L m m' gl k l hl (abs_le.2 hm') hne
      unfold elm2ind at this
      rw [← sq] at this
      rw [this, zero_mul]
    split_ifs with h
    · rw [Finset.sum_eq_single (m : ℤ) hoff (fun hn => absurd (Finset.mem_Icc.2 ⟨by omega, by omega⟩) hn)]
      have := rowOf_on L m gl k l hl (by simpa using h)
      unfold elm2ind at this
      rw [← sq] at this
      rw [this]
      simp
    · refine Finset.sum_eq_zero fun m' hm' => hoff m' hm' ?_
      rintro rfl
      rw [Finset.mem_Icc] at hm'
      omega
  rw [Finset.sum_congr rfl hin]
  by_cases hmL : m ≤ L
  · rw [← Finset.sum_range_add_sum_Ico _ hmL, Finset.sum_eq_zero, zero_add, Finset.sum_Ico_eq_sum_range]
    · refine Finset.sum_congr rfl fun j _ => ?_
      rw [if_pos (by omega), Nat.add_sub_cancel_left]
    · intro l hl
      rw [Finset.mem_range] at hl
      rw [if_neg (by omega)]
  · rw [Finset.sum_eq_zero, show L - m = 0 by omega]
    · simp
    · intro l hl
      rw [Finset.mem_range] at hl
      rw [if_neg (by omega)]

/-- integrals of the square of a combination of harmonics of one order along a meridian. -/
private theorem meridian_energy (n m : ℕ) (c : ℕ → ℝ) (t0 t1 : ℝ) :
    2 * Real.pi * ∫ th in t0..t1, (∑ j ∈ Finset.range n, c j * thetaPart (m + j) m th) ^ 2 * Real.sin th =
      ∑ r ∈ Finset.range n, c r * ∑ j ∈ Finset.range n, c j *
        (2 * Real.pi * ∫ th in t0..t1, thetaPart (m + j) m th * thetaPart (m + r) m th * Real.sin th) := by
  have hc : ∀ j, Continuous (thetaPart (m + j) (m : ℤ)) := fun j => continuous_thetaPart (by simp)
  have h1 : ∀ th, (∑ j ∈ Finset.range n, c j * thetaPart (m + j) m th) ^ 2 * Real.sin th =
      ∑ r ∈ Finset.range n, ∑ j ∈ Finset.range n, (c r * c j) * (thetaPart (m + j) m th * thetaPart (m + r) m th * Real.sin th) := by
    intro th
    rw [sq, Finset.sum_mul_sum, Finset.sum_mul]
    refine Finset.sum_congr rfl fun r _ => ?_
    rw [Finset.sum_mul]
    exact Finset.sum_congr rfl fun j _ => by ring
  simp only [h1]
  have hint : ∀ r j, IntervalIntegrable (fun th => (c r * c j) * (thetaPart (m + j) m th * thetaPart (m + r) m th * Real.sin th)) MeasureTheory.volume t0 t1 := by
    intro r j
    have := hc r
    have := hc j
    exact Continuous.intervalIntegrable (by fun_prop) _ _
  have hint2 : ∀ r, IntervalIntegrable (fun th => ∑ j ∈ Finset.range n, (c r * c j) * (thetaPart (m + j) m th * thetaPart (m + r) m th * Real.sin th))
      MeasureTheory.volume t0 t1 := by
    intro r
    have := hc r
    exact Continuous.intervalIntegrable (continuous_finsetSum _ fun j _ => by have := hc j; fun_prop) _ _
  rw [intervalIntegral.integral_finset_sum fun r _ => hint2 r, Finset.mul_sum]
  refine Finset.sum_congr rfl fun r _ => ?_
  rw [intervalIntegral.integral_finset_sum fun j _ => hint r j, Finset.mul_sum, Finset.mul_sum]
  refine Finset.sum_congr rfl fun j _ => ?_
  rw [intervalIntegral.integral_const_mul]
  ring

private theorem order_integral (m i j : ℕ) (t0 t1 : ℝ) :
    surface t0 t1 0 (2 * Real.pi) (fun th ph => sphHarm (m + i) m th ph * (starRingEnd ℂ) (sphHarm (m + j) m th ph)) =
      ((2 * Real.pi * ∫ th in t0..t1, thetaPart (m + i) m th * thetaPart (m + j) m th * Real.sin th : ℝ) : ℂ) := by
  rw [surface_sphHarm, if_pos rfl]
  push_cast
  rfl

open Classical in
private theorem split_sorted (x : List ℝ) (hx : x.Pairwise (· < ·)) (a : ℝ) :
    (∀ b ∈ x.take (splitAt x a), b < a) ∧ ∀ b ∈ x.drop (splitAt x a), a ≤ b := by
  induction x with
  | nil => simp
  | cons y x ih =>
    obtain ⟨h1, h2⟩ := List.pairwise_cons.1 hx
    obtain ⟨i1, i2⟩ := ih h2
    by_cases hy : y < a
    · have : splitAt (y :: x) a = splitAt x a + 1 := by simp [splitAt, hy]
      rw [this]
      simp only [List.take_succ_cons, List.drop_succ_cons, List.mem_cons, forall_eq_or_imp]
      exact ⟨⟨hy, i1⟩, i2⟩
    · have hn : ∀ b ∈ x, ¬ b < a := fun b hb => by have := h1 b hb; linarith
      have : splitAt (y :: x) a = 0 := by
        unfold splitAt
        rw [List.length_eq_zero_iff, List.filter_eq_nil_iff]
        intro b hb
        rcases List.mem_cons.1 hb with rfl | hb
        · simpa using hy
        · simpa using hn b hb
      rw [this]
      simp only [List.take_zero, List.drop_zero, List.not_mem_nil, false_imp_iff, implies_true, true_and, List.mem_cons, forall_eq_or_imp]
      exact ⟨not_lt.1 hy, fun b hb => not_lt.1 (hn b hb)⟩

private theorem colatitudes_eq (R : ℕ) : colatitudes R = (List.range (R + 1)).map fun k : ℕ => 180 * (k : ℝ) / R := by
  unfold colatitudes linspace
  refine List.map_congr_left fun k _ => ?_
  have : Py.rad2deg Real.pi = 180 := by
    unfold Py.rad2deg
    field_simp
  rw [this, Nat.add_sub_cancel]
  ring

/-- C93. One panel of the figures of eigenfunctions, for an order `m ≥ 0` of a polar cap solved from scratch.  The panel is drawn without error; its two lines
together are the points `(θ, g(θ))` at the colatitudes `0, 180/R, …, 180` degrees, those inside the cap in the first line and the others in the second; the
Slepian function of that rank is `± g(θ) e^{imφ}` on the whole sphere, the sign being the one in the script; and the number in the text box, the eigenvalue of that
rank, is the part of the energy of the curve inside the cap. -/
theorem C93_panel (L m R : ℕ) (hm : m < L) (hR : L ≤ R) (thetaMax : ℝ)
    (plm : List ℝ) (hlen : plm.length = (2 * L) ^ 2)
    (hplm : ∀ n < 2 * L, plm.getD (elm2ind n 0) 0 = (sphHarm n 0 (thetaMax * Real.pi / 180) 0).re)
    (M : ℕ → ℕ → ℝ) (ncpu : ℕ) (we : ℕ → Option Err) (hncpu : 1 ≤ ncpu) (hM : CreatesOrder L false plm m ncpu we (.ok M))
    (sol : ℤ → OrderSolution) (hsol : IsEighOrder (L - m) M (sol m)) (idx : ℤ → List ℕ) (hidx : IsArgsortList (sol m).1 (idx m))
    (inverse : ℕ → List ℂ → List (List ℂ)) (hY : Evaluates (fun i => sphHarm (ind2elm i).1 (ind2elm i).2) inverse)
    (sign : ℤ) (hs : sign = 1 ∨ sign = -1) (rank : ℕ) (hrank : rank < L - m) :
    ∃ (e : List ℝ) (v : List (List ℂ)) (pan : Panel) (g : ℝ → ℝ), solveOrder L sol idx m = .ok (e, v) ∧
      panel inverse e v sign L R thetaMax rank = .ok pan ∧
      pan.inside ++ pan.outside = (List.range (R + 1)).map (fun k : ℕ => (180 * (k : ℝ) / R, g (k * Real.pi / R))) ∧
      (∀ q ∈ pan.inside, q.1 < thetaMax) ∧ (∀ q ∈ pan.outside, thetaMax ≤ q.1) ∧
      Continuous g ∧ (∀ th ph, synthesis L (v.getD rank []) th ph = sign * g th * exp (I * m * ph)) ∧
      pan.mu = e.getD rank 0 ∧ e.Pairwise (· ≥ ·) ∧
      2 * Real.pi * (∫ th in (0)..Real.pi, g th ^ 2 * Real.sin th) = 1 ∧
      2 * Real.pi * (∫ th in (0)..(thetaMax * Real.pi / 180), g th ^ 2 * Real.sin th) = pan.mu := by
  set t := thetaMax * Real.pi / 180 with ht
  obtain ⟨-, M', hM', hcap⟩ := C65_polar_matrix_is_surface_integral L false t plm hlen hplm m ncpu hncpu we _ hM
  obtain rfl := Except.ok.inj hM'
  simp only [Int.natAbs_natCast] at hcap
  obtain ⟨hw, heig, horth⟩ := hsol
  set gl := (sol m).2 with hgl
  have hperm := hidx.1
  have hsolve : solveOrder L sol idx m = .ok ((idx m).reverse.map (fun k => (sol m).1.getD k 0), (idx m).reverse.map (rowOf L m gl)) :=
    polarClean_eq L m _ _ _ (by simpa using hw) hperm
  have hrl : rank < (idx m).reverse.length := by rw [List.length_reverse, hperm.length_eq, List.length_range, hw]; exact hrank
  set k := (idx m).reverse[rank] with hk
  have hkL : k < L - m := by
    have h1 : k ∈ idx m := List.mem_reverse.1 (List.getElem_mem hrl)
    have := hperm.subset h1
    rw [List.mem_range, hw] at this
    exact this
  -- the unit factor is a sign
  obtain ⟨u, hu, hu2⟩ : ∃ u : ℝ, unitOf L m gl k = (u : ℂ) ∧ u ^ 2 = 1 := by
    unfold unitOf signOf
    rw [if_neg (show ¬ ((m : ℤ) < 0) by omega), mul_one]
    split_ifs
    · exact ⟨-1, by simp, by norm_num⟩
    · exact ⟨1, by simp, by norm_num⟩
  have hsr : ((sign : ℝ)) ^ 2 = 1 := by rcases hs with rfl | rfl <;> norm_num
  set c : ℕ → ℝ := fun j => sign * u * gl j k with hc
  set g : ℝ → ℝ := fun th => ∑ j ∈ Finset.range (L - m), c j * thetaPart (m + j) m th with hg
  have hfield : ∀ th ph, synthesis L (rowOf L m gl k) th ph = sign * g th * exp (I * m * ph) := by
    intro th ph
    rw [row_field, hg]
    push_cast
    rw [Finset.mul_sum, Finset.sum_mul]
    refine Finset.sum_congr rfl fun j _ => ?_
    rw [hu, sphHarm_eq, hc]
    have : (sign : ℂ) * sign = 1 := by have := hsr; rw [sq] at this; exact_mod_cast this
    push_cast
    linear_combination (-(gl j k : ℂ) * u * thetaPart (m + j) m th * exp (I * m * ph)) * this
  -- energies
  have hval : (sol m).1.getD k 0 = ((idx m).reverse.map fun k => (sol m).1.getD k 0).getD rank 0 := by
    rw [List.getD_eq_getElem?_getD (l := (idx m).reverse.map _), List.getElem?_map, List.getElem?_eq_getElem hrl]
    rfl
  have hsq : ∑ r ∈ Finset.range (L - m), c r ^ 2 = 1 := by
    have := horth k hkL k hkL
    rw [if_pos rfl] at this
    rw [← this]
    refine Finset.sum_congr rfl fun r _ => ?_
    have : c r ^ 2 = (sign : ℝ) ^ 2 * u ^ 2 * gl r k ^ 2 := by rw [hc]; ring
    rw [this, hsr, hu2]
    ring
  have hwhole : ∀ j ∈ Finset.range (L - m), ∀ r ∈ Finset.range (L - m),
      2 * Real.pi * (∫ th in (0)..Real.pi, thetaPart (m + j) m th * thetaPart (m + r) m th * Real.sin th) = if j = r then 1 else 0 := by
    intro j _ r _
    have h1 := order_integral m j r 0 Real.pi
    rw [C65_harmonics_orthonormal _ _ _ _ (by simp) (by simp)] at h1
    simp only [Nat.add_left_cancel_iff, and_true] at h1
    split_ifs at h1 ⊢ with h
    · exact_mod_cast h1.symm
    · exact_mod_cast h1.symm
  have hcapv : ∀ j ∈ Finset.range (L - m), ∀ r ∈ Finset.range (L - m),
      2 * Real.pi * (∫ th in (0)..t, thetaPart (m + j) m th * thetaPart (m + r) m th * Real.sin th) = M r j := by
    intro j hj r hr
    rw [Finset.mem_range] at hj hr
    have h1 := hcap r j (by omega) (by omega)
    unfold capIntegral at h1
    simp only [Bool.false_eq_true, if_false, add_zero] at h1
    rw [order_integral] at h1
    have h2 : M r j = 2 * Real.pi * ∫ th in (0)..t, thetaPart (m + r) m th * thetaPart (m + j) m th * Real.sin th := by exact_mod_cast h1
    rw [h2]
    congr 2
    funext th
    ring
  have hg1 : 2 * Real.pi * (∫ th in (0)..Real.pi, g th ^ 2 * Real.sin th) = 1 := by
    rw [hg]
    rw [meridian_energy, ← hsq]
    refine Finset.sum_congr rfl fun r hr => ?_
    rw [Finset.sum_congr rfl fun j hj => by rw [hwhole j hj r hr]]
    simp only [mul_ite, mul_one, mul_zero, Finset.sum_ite_eq', hr, if_true]
    ring
  have hg2 : 2 * Real.pi * (∫ th in (0)..t, g th ^ 2 * Real.sin th) = (sol m).1.getD k 0 := by
    rw [hg]
    rw [meridian_energy, ← mul_one ((sol m).1.getD k 0), ← hsq, Finset.mul_sum]
    refine Finset.sum_congr rfl fun r hr => ?_
    rw [Finset.sum_congr rfl fun j hj => by rw [hcapv j hj r hr]]
    have h1 := heig k hkL r (Finset.mem_range.1 hr)
    have h2 : ∑ j ∈ Finset.range (L - m), c j * M r j = sign * u * ∑ j ∈ Finset.range (L - m), M r j * gl j k := by
      rw [Finset.mul_sum]
      exact Finset.sum_congr rfl fun j _ => by rw [hc]; ring
    rw [h2, h1, hc]
    ring
  have hgc : Continuous g := by
    rw [hg]
    exact continuous_finsetSum _ fun j _ => continuous_const.mul (continuous_thetaPart (by simp))
  -- the lines
  have hrow : ((idx m).reverse.map (rowOf L m gl))[rank]? = some (rowOf L m gl k) := by
    rw [List.getElem?_map, List.getElem?_eq_getElem hrl]
    rfl
  have hev : ((idx m).reverse.map fun k => (sol m).1.getD k 0)[rank]? = some ((sol m).1.getD k 0) := by
    rw [List.getElem?_map, List.getElem?_eq_getElem hrl]
    rfl
  have hL1 : 1 ≤ L := by omega
  have hinv : invertFlmBoosted inverse ((rowOf L m gl k).map fun z => z * (sign : ℂ)) L R =
      .ok (Plot.rows fun (t : Fin (R + 1)) (p : Fin (2 * R)) => (sign : ℂ) * synthesis L (rowOf L m gl k) (t * Real.pi / R) (p * Real.pi / R)) := by
    have h1 := boostField_eq (forward := fun _ _ => (rowOf L m gl k).map fun z => z * (sign : ℂ)) hY L R hL1 hR
      ((rowOf L m gl k).map fun z => z * (sign : ℂ)) (by rw [List.length_map, rowOf_length]) rfl
    simp only [Plot.boostField, Bool.not_true, Bool.false_eq_true, if_false] at h1
    rw [h1]
    congr 2
    funext a b
    rw [Gaunt.synthesis_eq, Finset.mul_sum, ← Fin.sum_univ_eq_sum_range (fun i => ((rowOf L m gl k).map fun z => z * (sign : ℂ)).getD i 0 *
      sphHarm (ind2elm i).1 (ind2elm i).2 (a * Real.pi / R) (b * Real.pi / R))]
    refine Finset.sum_congr rfl fun i _ => ?_
    have : ((rowOf L m gl k).map fun z => z * (sign : ℂ)).getD i 0 = (rowOf L m gl k).getD i 0 * sign := by
      simp only [List.getD_eq_getElem?_getD, List.getElem?_map]
      cases (rowOf L m gl k)[(i : ℕ)]? <;> simp
    rw [this]
    unfold Gaunt.harm
    ring
  set f := Plot.rows fun (t : Fin (R + 1)) (p : Fin (2 * R)) => (sign : ℂ) * synthesis L (rowOf L m gl k) (t * Real.pi / R) (p * Real.pi / R) with hf
  have hcol : (f.map fun r => r.map re).mapM (fun r => index r 0) = .ok ((List.range (R + 1)).map fun k : ℕ => g (k * Real.pi / R)) := by
    have h1 : (f.map fun r => r.map re).mapM (fun r => index r 0) = .ok ((f.map fun r => r.map re).map fun r => r.getD 0 0) := by
      apply mapM_eq_ok
      intro r hr
      rw [hf] at hr
      simp only [Plot.rows, List.mem_map, List.mem_ofFn] at hr
      obtain ⟨r', ⟨a, rfl⟩, rfl⟩ := hr
      have : 0 < 2 * R := by omega
      simp [index, List.getElem?_ofFn, this]
    rw [h1]
    congr 1
    apply List.ext_getElem
    · simp [hf, Plot.rows]
    · intro i h2 h3
      have hi : i < R + 1 := by simpa using h3
      have : 0 < 2 * R := by omega
      simp only [hf, Plot.rows, List.map_map, List.getElem_map, List.getElem_ofFn, Function.comp_apply, List.getElem_range, List.getD_eq_getElem?_getD,
        List.getElem?_map, List.getElem?_ofFn, this, dif_pos, Option.map_some, Option.getD_some]
      rw [hfield]
      have h4 : (sign : ℂ) * sign = 1 := by have := hsr; rw [sq] at this; exact_mod_cast this
      have h5 : (sign : ℂ) * (sign * g (i * Real.pi / R) * exp (I * m * ((0 : ℕ) * Real.pi / R : ℝ))) = (g (i * Real.pi / R) : ℂ) := by
        have : exp (I * m * (((0 : ℕ) * Real.pi / R : ℝ) : ℂ)) = 1 := by simp
        rw [this]
        linear_combination (g (i * Real.pi / R) : ℂ) * h4
      have h6 := congrArg re h5
      rw [ofReal_re] at h6
      exact h6
  refine ⟨_, _, ⟨((colatitudes R).take (splitAt (colatitudes R) thetaMax)).zip
      (((List.range (R + 1)).map fun k : ℕ => g (k * Real.pi / R)).take (splitAt (colatitudes R) thetaMax)),
    ((colatitudes R).drop (splitAt (colatitudes R) thetaMax)).zip
      (((List.range (R + 1)).map fun k : ℕ => g (k * Real.pi / R)).drop (splitAt (colatitudes R) thetaMax)), (sol m).1.getD k 0⟩, g, hsolve, ?_, ?_, ?_, ?_,
    hgc, ?_, hval, ?_, hg1, hg2⟩
  · have l1 : ∀ n, ((colatitudes R).take n).length = (((List.range (R + 1)).map fun k : ℕ => g (k * Real.pi / R)).take n).length := by
      intro n; simp [colatitudes_eq]
    have l2 : ∀ n, ((colatitudes R).drop n).length = (((List.range (R + 1)).map fun k : ℕ => g (k * Real.pi / R)).drop n).length := by
      intro n; simp [colatitudes_eq]
    unfold panel
    simp only [index, hrow, hev, bind, Except.bind, pure, Except.pure]
    rw [hinv]
    simp only
    have hcol' := hcol
    unfold index at hcol'
    rw [hcol']
    simp only [line, l1, l2, if_true]
  · simp only
    rw [← List.zip_append (by simp [colatitudes_eq]), List.take_append_drop, List.take_append_drop, colatitudes_eq, List.zip_map']
  · intro q hq
    have hx : (colatitudes R).Pairwise (· < ·) := by
      rw [colatitudes_eq, List.pairwise_map]
      refine List.pairwise_lt_range.imp fun {a b} hab => ?_
      have : (0 : ℝ) < R := by exact_mod_cast (by omega : 0 < R)
      have : (a : ℝ) < b := by exact_mod_cast hab
      gcongr
    exact (split_sorted _ hx thetaMax).1 _ (List.of_mem_zip (a := q.1) (b := q.2) hq).1
  · intro q hq
    have hx : (colatitudes R).Pairwise (· < ·) := by
      rw [colatitudes_eq, List.pairwise_map]
      refine List.pairwise_lt_range.imp fun {a b} hab => ?_
      have : (0 : ℝ) < R := by exact_mod_cast (by omega : 0 < R)
      have : (a : ℝ) < b := by exact_mod_cast hab
      gcongr
    exact (split_sorted _ hx thetaMax).2 _ (List.of_mem_zip (a := q.1) (b := q.2) hq).1
  · intro th ph
    rw [← hfield]
    congr 1
    rw [List.getD_eq_getElem?_getD, hrow]
    rfl
  · rw [List.map_reverse, List.pairwise_reverse]
    exact hidx.2

/-- C93. The number `p` in the label `μ_p` of the figure of order-0 functions (any order `m` here), read off the orders of the solution of all orders.  Rank
`r` of order `m` is found for exactly the ranks below `L - |m|`, with `IndexError` otherwise; at the position found, the whole list of eigenvalues has the eigenvalue of
rank `r` that solving order `m` alone gives, the function there has that order, and it is the `r`-th of that order.  Whatever the sorting does with equal eigenvalues. -/
theorem C93_label_index (L : ℕ) (D : ℕ → ℕ → ℕ → ℝ) (sol : ℤ → OrderSolution)
    (hsol : ∀ m : ℤ, m.natAbs < L → IsEighOrder (L - m.natAbs) (D m.natAbs) (sol m)) (e : List ℝ) (v : List (List ℂ)) (o : List ℤ)
    (h : SolvesAll L sol (.ok (e, v, o))) (m : ℤ) (hm : m.natAbs < L) (rank : ℕ) :
    (L - m.natAbs ≤ rank → findPValue o m rank = .error .indexError) ∧
    (rank < L - m.natAbs → ∃ p, findPValue o m rank = .ok p ∧ p < L ^ 2 ∧ o.getD p 0 = m ∧
      ((List.range p).filter fun q => decide (o.getD q 0 = m)).length = rank ∧
      ∀ (sol' : ℤ → OrderSolution) (idx : ℤ → List ℕ) (es : List ℝ) (vs : List (List ℂ)), IsEighOrder (L - m.natAbs) (D m.natAbs) (sol' m) →
        IsArgsortList (sol' m).1 (idx m) → solveOrder L sol' idx m = .ok (es, vs) → e.getD p 0 = es.getD rank 0) := by
  obtain ⟨e', v', o', hr, he, hv, ho, -, -, hcount, -, -⟩ := C19_polar_all_orders L D sol hsol _ h
  simp only [Except.ok.injEq, Prod.mk.injEq] at hr
  obtain ⟨rfl, rfl, rfl⟩ := hr
  obtain ⟨hl1, hl2, hvals⟩ := values_at_positions (fun m hm => (hsol m hm).1) h hm
  have hplen : (positions o m).length = L - m.natAbs := by
    rw [← hcount m hm, List.count_eq_length_filter]
    have h1 : o = (List.range o.length).map fun p => o.getD p 0 := (map_getD_range o 0).symm
    conv_rhs => rw [h1, List.filter_map, List.length_map]
    unfold positions
    congr 1
    refine List.filter_congr fun p hp => ?_
    rw [List.mem_range] at hp
    rw [Bool.eq_iff_iff]
    simp [List.getD_eq_getElem?_getD, List.getElem?_eq_getElem hp]
  constructor
  · intro hge
    unfold findPValue index
    have : (positions o m)[rank]? = none := List.getElem?_eq_none (by omega)
    unfold positions at this
    rw [this]
  · intro hlt
    have hlt' : rank < (positions o m).length := by omega
    have hmem := mem_positions.1 (List.getElem_mem hlt')
    set p := (positions o m)[rank] with hp
    have hpo : p < o.length := (List.getElem?_eq_some_iff.1 hmem).1
    refine ⟨p, ?_, by omega, by rw [List.getD_eq_getElem?_getD, hmem]; rfl, ?_, ?_⟩
    · unfold findPValue index
      have : (positions o m)[rank]? = some p := List.getElem?_eq_getElem hlt'
      unfold positions at this
      rw [this]
    · -- the positions before `p` are the first `rank` of them
      have hsplit : (positions o m).take rank = (List.range p).filter fun q => decide (o.getD q 0 = m) := by
        have hpw := positions_pairwise o m
        refine List.Perm.eq_of_pairwise (le := (· < ·)) (fun a b _ _ h1 h2 => absurd h1 (by omega)) (hpw.sublist (List.take_sublist _ _))
          (List.pairwise_lt_range.filter _) ?_
        rw [List.perm_ext_iff_of_nodup ((hpw.imp fun h => ne_of_lt h).sublist (List.take_sublist _ _)) (List.nodup_range.filter _)]
        intro q
        simp only [List.mem_filter, List.mem_range, decide_eq_true_eq]
        constructor
        · intro hq
          obtain ⟨i, hi, hiq⟩ := List.getElem_of_mem hq
          rw [List.length_take] at hi
          rw [List.getElem_take] at hiq
          have h1 : q < p := by rw [← hiq, hp]; exact List.pairwise_iff_getElem.1 hpw i rank _ _ (by omega)
          have h2 := mem_positions.1 (List.mem_of_mem_take hq)
          exact ⟨h1, by rw [List.getD_eq_getElem?_getD, h2]; rfl⟩
        · rintro ⟨hq1, hq2⟩
          have hqo : q < o.length := by omega
          have hq3 : q ∈ positions o m := by
            rw [mem_positions, List.getElem?_eq_getElem hqo]
            rw [List.getD_eq_getElem?_getD, List.getElem?_eq_getElem hqo] at hq2
            simpa using hq2
          obtain ⟨i, hi, hiq⟩ := List.getElem_of_mem hq3
          have hir : i < rank := by
            by_contra hn
            rcases eq_or_lt_of_le (not_lt.1 hn) with h1 | h1
            · subst h1; omega
            · have := List.pairwise_iff_getElem.1 hpw rank i hlt' hi h1
              omega
          rw [← hiq, List.mem_take_iff_getElem]
          exact ⟨i, by omega, rfl⟩
      rw [← hsplit, List.length_take]
      omega
    · intro sol' idx es vs hsol' hidx hsolve
      have hes : solveOrder L sol' idx m = .ok ((idx m).reverse.map (fun k => (sol' m).1.getD k 0), (idx m).reverse.map (rowOf L m (sol' m).2)) :=
        polarClean_eq L m _ _ _ hsol'.1 hidx.1
      rw [hsolve] at hes
      simp only [Except.ok.injEq, Prod.mk.injEq] at hes
      have h1 : es.Perm (sol' m).1 := by
        have h4 : ((List.range (sol' m).1.length).map fun k => (sol' m).1.getD k 0) = (sol' m).1 := map_getD_range _ _
        rw [hes.1]
        have := ((List.reverse_perm (idx m)).trans hidx.1).map fun k => (sol' m).1.getD k 0
        rwa [h4] at this
      have h2 : es.Pairwise (· ≥ ·) := by
        rw [hes.1, List.map_reverse, List.pairwise_reverse]
        exact hidx.2
      have h3 := hvals es (h1.trans (eigenvalues_perm hsol' (hsol m hm))) h2
      rw [← h3, List.getD_eq_getElem?_getD (l := List.map _ _), List.getElem?_map, List.getElem?_eq_getElem hlt']
      rfl

/-- C93. The figure of eigenvalues marked by order shows the ranks in order, each with its eigenvalue, non-increasing; the function of each rank lives on the order in its
mark up to sign; and a mark `±m` with `m ≠ 0` stands for pairs: the eigenvalues of order `m` and those of order `-m` are the same. -/
theorem C93_order_marks (L : ℕ) (D : ℕ → ℕ → ℕ → ℝ) (sol : ℤ → OrderSolution)
    (hsol : ∀ m : ℤ, m.natAbs < L → IsEighOrder (L - m.natAbs) (D m.natAbs) (sol m)) (e : List ℝ) (v : List (List ℂ)) (o : List ℤ)
    (h : SolvesAll L sol (.ok (e, v, o))) (ranks : ℕ) :
    (L ^ 2 < ranks → orderPoints e o ranks = .error .valueError) ∧
    (ranks ≤ L ^ 2 → ∃ pts, orderPoints e o ranks = .ok pts ∧ pts.length = ranks ∧
      ∀ p < ranks, ∃ μ, pts[p]? = some (p, e.getD p 0, μ) ∧ μ < L ∧
        ∃ m : ℤ, |m| = μ ∧ ∀ (l : ℕ) (m' : ℤ), l < L → |m'| ≤ (l : ℤ) → m' ≠ m → (v.getD p []).getD (elm2ind l m') 0 = 0) ∧
    e.Pairwise (· ≥ ·) ∧
    ∀ m : ℤ, ((List.range (L ^ 2)).filter fun p => decide (o.getD p 0 = m)).map (fun p => e.getD p 0) =
      ((List.range (L ^ 2)).filter fun p => decide (o.getD p 0 = -m)).map (fun p => e.getD p 0) := by
  obtain ⟨e', v', o', hr, he, hv, ho, hdec, -, -, hrow, -⟩ := C19_polar_all_orders L D sol hsol _ h
  simp only [Except.ok.injEq, Prod.mk.injEq] at hr
  obtain ⟨rfl, rfl, rfl⟩ := hr
  refine ⟨fun hlt => ?_, fun hle => ?_, hdec, fun m => ?_⟩
  · unfold orderPoints
    simp only
    rw [if_neg]
    rintro ⟨h1, -⟩
    rw [List.length_take, he] at h1
    omega
  · refine ⟨(List.range ranks).zip ((e.take ranks).zip ((o.take ranks).map Int.natAbs)), ?_, ?_, ?_⟩
    · unfold orderPoints
      simp only
      rw [if_pos]
      constructor
      · rw [List.length_take, he]; omega
      · rw [List.length_map, List.length_take, ho]; omega
    · simp [he, ho]; omega
    · intro p hp
      obtain ⟨-, hμ, hz, -⟩ := hrow p (by omega)
      have hpe : p < e.length := by omega
      have hpo : p < o.length := by omega
      refine ⟨(o.getD p 0).natAbs, ?_, hμ, o.getD p 0, Int.abs_eq_natAbs _, hz⟩
      rw [List.getElem?_zip_eq_some]
      refine ⟨by simp [hp], ?_⟩
      rw [List.getElem?_zip_eq_some]
      constructor
      · simp [hp, List.getD_eq_getElem?_getD, List.getElem?_eq_getElem hpe]
      · simp [hp, List.getD_eq_getElem?_getD, List.getElem?_eq_getElem hpo]
  · have hpos : ∀ m : ℤ, ((List.range (L ^ 2)).filter fun p => decide (o.getD p 0 = m)) = positions o m := by
      intro m
      unfold positions
      rw [ho]
      refine List.filter_congr fun p hp => ?_
      rw [List.mem_range, ← ho] at hp
      simp [List.getD_eq_getElem?_getD, List.getElem?_eq_getElem hp]
    rw [hpos, hpos]
    by_cases hm : m.natAbs < L
    · have h1 := eigenvalues_perm (hsol m hm) (by have := hsol (-m) (by simpa using hm); rwa [Int.natAbs_neg] at this)
      obtain ⟨-, -, hv1⟩ := values_at_positions (fun m hm => (hsol m hm).1) h hm
      obtain ⟨-, -, hv2⟩ := values_at_positions (fun m hm => (hsol m hm).1) h (m := -m) (by simpa using hm)
      have hs : ((sol m).1.mergeSort (fun a b => decide (a ≥ b))).Pairwise (· ≥ ·) := by
        have := List.pairwise_mergeSort (le := fun a b : ℝ => decide (a ≥ b)) (by simp; intro a b c h1 h2; linarith)
          (by simp; intro a b; exact le_total b a) (sol m).1
        simpa using this
      rw [hv1 _ (List.mergeSort_perm _ _) hs, hv2 _ ((List.mergeSort_perm _ _).trans h1) hs]
    · have hempty : ∀ m : ℤ, ¬ m.natAbs < L → positions o m = [] := by
        intro m hm
        rw [List.eq_nil_iff_forall_not_mem]
        intro p hp
        have hp' := mem_positions.1 hp
        have hpo : p < o.length := (List.getElem?_eq_some_iff.1 hp').1
        have := (hrow p (by omega)).2.1
        rw [List.getD_eq_getElem?_getD, hp'] at this
        exact hm this
      rw [hempty m hm, hempty (-m) (by simpa using hm)]

/-- the hypotheses of `C93_panel` are met for every cap, order, sign and rank: here order 1 of a cap at degree 3, at the resolution 8. -/
example (thetaMax : ℝ) : ∃ (plm : List ℝ) (M : ℕ → ℕ → ℝ) (ncpu : ℕ) (we : ℕ → Option Err) (sol : ℤ → OrderSolution) (idx : ℤ → List ℕ)
    (inverse : ℕ → List ℂ → List (List ℂ)) (e : List ℝ) (v : List (List ℂ)) (pan : Panel), plm.length = (2 * 3) ^ 2 ∧ 1 ≤ ncpu ∧
    CreatesOrder 3 false plm 1 ncpu we (.ok M) ∧ IsEighOrder 2 M (sol 1) ∧ IsArgsortList (sol 1).1 (idx 1) ∧
    Evaluates (fun i => sphHarm (ind2elm i).1 (ind2elm i).2) inverse ∧ solveOrder 3 sol idx 1 = .ok (e, v) ∧
    panel inverse e v (-1) 3 8 thetaMax 1 = .ok pan ∧ (pan.inside ++ pan.outside).length = 9 := by
  obtain ⟨plm, M, sol, -, h1, h2, h3, h4, -⟩ := C50_polar_runs_exist 3 false (thetaMax * Real.pi / 180)
  obtain ⟨ncpu, we, hn, hM⟩ := h3 1 (by decide)
  have hsol := h4 1 (by decide)
  choose idx hidx using fun m : ℤ => exists_argsortList (sol m).1
  let inverse : ℕ → List ℂ → List (List ℂ) := fun L c => Plot.rows fun (t : Fin (L + 1)) (p : Fin (2 * L)) =>
    ∑ i ∈ Finset.range (L ^ 2), c.getD i 0 * sphHarm (ind2elm i).1 (ind2elm i).2 (t * Real.pi / L) (p * Real.pi / L)
  have hY : Evaluates (fun i => sphHarm (ind2elm i).1 (ind2elm i).2) inverse := fun L c _ _ => rfl
  obtain ⟨e, v, pan, g, hs, hp, hl, -⟩ := C93_panel 3 1 8 (by decide) (by decide) thetaMax plm h1 h2 (M 1) ncpu we hn hM sol (by simpa using hsol) idx
    (hidx _) inverse hY (-1) (Or.inr rfl) 1 (by decide)
  exact ⟨plm, M 1, ncpu, we, sol, idx, inverse, e, v, pan, h1, hn, hM, by simpa using hsol, hidx 1, hY, hs, hp, by rw [hl]; simp⟩

/-- the hypotheses of `C93_label_index` and `C93_order_marks` are met: all orders of any symmetric matrices are solved. -/
example (L : ℕ) (D : ℕ → ℕ → ℕ → ℝ) (hD : ∀ m i j, D m i j = D m j i) : ∃ (sol : ℤ → OrderSolution) (e : List ℝ) (v : List (List ℂ)) (o : List ℤ),
    (∀ m : ℤ, m.natAbs < L → IsEighOrder (L - m.natAbs) (D m.natAbs) (sol m)) ∧ SolvesAll L sol (.ok (e, v, o)) := by
  choose sol hsol using fun m : ℤ => exists_eighOrder (L - m.natAbs) (D m.natAbs) (fun i _ j _ => hD _ i j)
  obtain ⟨r, hr⟩ := exists_solvesAll L sol
  obtain ⟨e, v, o, rfl, -⟩ := C19_polar_all_orders L D sol (fun m _ => hsol m) r hr
  exact ⟨sol, e, v, o, fun m _ => hsol m, hr⟩

/-- a whole list of orders, and the places of the second functions of orders 0 and 1 in it. -/
example : findPValue [0, 1, -1, 0] 0 1 = .ok 3 ∧ findPValue [0, 1, -1, 0] 1 1 = .error .indexError := by decide

end Sleplet.Props
