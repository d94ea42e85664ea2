import Mathlib.Analysis.SpecialFunctions.Trigonometric.ArctanDeriv
import Verif.Lemmas.GridHarmonics
import Verif.Lemmas.Pairs
import Verif.Lemmas.EigenExists
import Verif.Props.Concentration
import Verif.Props.Integration

/-!
C50 for arbitrary regions with the integration weights the program uses.
-/
namespace Sleplet.Props

open Complex Sleplet.Spec Sleplet.Arb Sleplet.Eigen Sleplet.Integration Sleplet.GridHarmonics

/-- the spherical harmonic number `i` at the samples. -/
noncomputable def sampledHarmonic (N : ℕ) (i : ℕ) : Grid N → ℂ :=
  fun x => sphHarm (ind2elm i).1 (ind2elm i).2 (theta x) (phi x)

/-- what an arbitrary region of bandlimit `L` computes with: the grid and weights of bandlimit `2L`, a mask, and the sampled
spherical harmonics (the inverse transform is external). -/
structure OnGrid (L : ℕ) (m : Grid (2 * L) → Bool) (P : Params (Grid (2 * L))) : Prop where
  bandlimit : P.L = L
  mask : P.mask = fun x => if m x then 1 else 0
  weight : P.weight = Integration.weight (2 * L)
  fields : ∀ i < L ^ 2, P.fieldOf i = .ok (sampledHarmonic (2 * L) i)

theorem sphHarm_neg {l : ℕ} {m : ℤ} (h : |m| ≤ l) (th ph : ℝ) :
    sphHarm l (-m) th ph = (-1 : ℂ) ^ m * (starRingEnd ℂ) (sphHarm l m th ph) := by
  have hn : ∀ k : ℕ, k ≤ l → Gaunt.thetaPart l (-(k : ℤ)) th = (-1) ^ k * Gaunt.thetaPart l k th := fun k hk =>
    Gaunt.thetaPart_neg hk th
  have h2 : (Gaunt.thetaPart l (-m) th : ℂ) = (-1 : ℂ) ^ m * (Gaunt.thetaPart l m th : ℂ) := by
    rw [abs_le] at h
    obtain ⟨k, rfl | rfl⟩ := m.eq_nat_or_neg
    · rw [hn k (by omega)]; push_cast; rw [zpow_natCast]
    · have h4 : ((-1 : ℂ)) ^ k * (-1) ^ k = 1 := by rw [← mul_pow]; simp
      rw [hn k (by omega), neg_neg, zpow_neg, zpow_natCast]
      push_cast
      rw [← mul_assoc, inv_mul_cancel₀ (by simp), one_mul]
  rw [Gaunt.sphHarm_eq, Gaunt.sphHarm_eq, h2, map_mul, conj_ofReal, ← exp_conj]
  simp only [map_mul, conj_I, conj_ofReal, map_intCast]
  push_cast
  rw [show I * -(m : ℂ) * (ph : ℂ) = -I * m * ph by ring]
  ring

theorem sampledHarmonic_symmetric (L N : ℕ) : ConjSymmetric L (sampledHarmonic N) := by
  intro l m _ hm x
  unfold sampledHarmonic
  rw [ind2elm_elm2ind hm, ind2elm_elm2ind (by rwa [abs_neg])]
  exact sphHarm_neg hm _ _

theorem gram_exact {L n : ℕ} (hn : n + 1 = L ^ 2) (a b : Fin (n + 1)) :
    regionInner (exactWeight L) (fun _ => 1) (sampledHarmonic (2 * L) a) (sampledHarmonic (2 * L) b) = if a = b then 1 else 0 := by
  have := gram (M := L) (ind2elm_fst_lt (i := a) (by omega)) (ind2elm_fst_lt (i := b) (by omega))
    (ind2elm_abs_le a) (ind2elm_abs_le b)
  unfold regionInner sampledHarmonic
  simp only [ofReal_one, mul_one]
  rw [this]
  by_cases hab : a = b
  · subst hab; simp
  · rw [if_neg hab, if_neg]
    rintro ⟨h4, h5⟩
    apply hab
    have := elm2ind_ind2elm a
    rw [h4, h5, elm2ind_ind2elm] at this
    exact Fin.ext this.symm

theorem sum_sampled {L n : ℕ} (hn : n + 1 = L ^ 2) (x : Grid (2 * L)) :
    ∑ i : Fin (n + 1), ‖sampledHarmonic (2 * L) i x‖ ^ 2 = (L : ℝ) ^ 2 / (4 * Real.pi) := by
  unfold sampledHarmonic
  rw [Fin.sum_univ_eq_sum_range (fun i : ℕ => ‖sphHarm (ind2elm i).1 (ind2elm i).2 (theta x) (phi x)‖ ^ 2) (n + 1), hn,
    sum_pairs L fun l m => ‖sphHarm l m (theta x) (phi x)‖ ^ 2]
  rw [Finset.sum_congr rfl fun l _ => Gaunt.sum_norm_sphHarm l _ _, ← Finset.sum_div, sum_odd]

/-- C50, arbitrary regions, with the weights and samples of the program.  Whatever the mask, the schedule of the workers and
the permutation that sorts the eigenvalues: the eigenvalues lie between 0 and 4/3, add up to `L²/4π` times the area the
program assigns to the mask, so that the Shannon number is their sum rounded, and the Slepian functions of nonzero eigenvalue
are orthogonal over the region.  Missing from the full property (and false, next theorem): at most 1. -/
theorem C50_arbitrary_bounded_partial (L n : ℕ) (hn : n + 1 = L ^ 2) (m : Grid (2 * L) → Bool) (P : Params (Grid (2 * L)))
    (hP : OnGrid L m P) (ncpu : ℕ) (hpos : 1 ≤ ncpu) (we : ℕ → Option Err) (M : ℕ → ℕ → ℂ) (h : CreatesD P ncpu we (.ok M))
    (w : Fin (n + 1) → ℂ) (V : Fin (n + 1) → Fin (n + 1) → ℂ) (hD : IsEigh (fun r c : Fin (n + 1) => M r c) w V)
    (e : Fin (n + 1) → ℝ) (S : Fin (n + 1) → Fin (n + 1) → ℂ) (hS : CleansArbitrary w V e S) :
    (∀ p, 0 ≤ e p ∧ e p ≤ 4 / 3) ∧
    (∑ p, e p = L ^ 2 / (4 * Real.pi) * maskArea L m) ∧
    (∀ name, |((Region.Slepian.arbitrary L name).shannon (maskArea L m) : ℝ) - ∑ p, e p| ≤ 1 / 2) ∧
    (∀ p q, ∑ x, (∑ i, S p i * sampledHarmonic (2 * L) i x) * (starRingEnd ℂ) (∑ i, S q i * sampledHarmonic (2 * L) i x) *
      (weight (2 * L) x : ℂ) * (if m x then 1 else 0) = if p = q then (e p : ℂ) else 0) := by
  have hL : 1 ≤ L := by
    rcases Nat.eq_zero_or_pos L with rfl | h
    · simp at hn
    · exact h
  obtain ⟨hPL, hmask, hw, hf⟩ := hP
  obtain ⟨h1, h2, h3, -⟩ := C50_arbitrary_energy_ratio P n (by rw [hPL]; exact hn) (sampledHarmonic (2 * L))
    (fun x hx => hf x (by rwa [hPL] at hx)) (sampledHarmonic_symmetric _ _)
    ncpu hpos we M h w V hD e S hS
  obtain ⟨-, horth⟩ := C18_arbitrary_orthonormal_eigenvectors _ w V hD e S hS
  have hsum : ∑ p, e p = L ^ 2 / (4 * Real.pi) * maskArea L m := by
    rw [h3, Finset.sum_comm]
    unfold maskArea
    rw [Finset.mul_sum]
    refine Finset.sum_congr rfl fun x _ => ?_
    rw [← sum_sampled hn x, Finset.sum_mul, hmask, hw]
    refine Finset.sum_congr rfl fun i _ => ?_
    ring
  refine ⟨fun p => ⟨?_, ?_⟩, hsum, fun name => ?_, fun p q => ?_⟩
  · rw [← h1 p, hmask, hw]
    refine Finset.sum_nonneg fun x _ => mul_nonneg (mul_nonneg (by positivity) (weight_nonneg (by omega) x)) ?_
    dsimp only
    split <;> norm_num
  · have htot : energy (exactWeight L) (fun _ => 1) (synth (fun i : Fin (n + 1) => sampledHarmonic (2 * L) i) (S p)) = 1 := by
      have := wholeInner_synth (exactWeight L) (fun i : Fin (n + 1) => sampledHarmonic (2 * L) i) (gram_exact hn) (S p) (S p)
      rw [regionInner_self, horth p p, if_pos rfl] at this
      exact_mod_cast this
    rw [← h1 p]
    calc ∑ x, ‖∑ i : Fin (n + 1), S p i * sampledHarmonic (2 * L) i x‖ ^ 2 * P.weight x * P.mask x
        ≤ ∑ x, 4 / 3 * (‖∑ i : Fin (n + 1), S p i * sampledHarmonic (2 * L) i x‖ ^ 2 * exactWeight L x * 1) := by
          refine Finset.sum_le_sum fun x _ => ?_
          obtain ⟨a, b⟩ := weight_le_exactWeight hL x
          have c := weight_nonneg (by omega : 1 ≤ 2 * L) x
          rw [hmask, hw]
          dsimp only
          have hn2 : 0 ≤ ‖∑ i : Fin (n + 1), S p i * sampledHarmonic (2 * L) i x‖ ^ 2 := by positivity
          split
          · have := mul_le_mul_of_nonneg_left a hn2
            linarith
          · have := mul_nonneg hn2 b
            linarith
      _ = 4 / 3 * 1 := by rw [← Finset.mul_sum]; exact congrArg (4 / 3 * ·) htot
      _ = 4 / 3 := by norm_num
  · rw [hsum]
    simp only [Region.Slepian.shannon, Region.Slepian.area, Region.Slepian.L]
    rw [show (L : ℝ) ^ 2 / (4 * Real.pi) * maskArea L m = maskArea L m * (L : ℝ) ^ 2 / (4 * Real.pi) by ring]
    rw [abs_le]
    constructor
    · linarith [Py.sub_half_le_round (maskArea L m * (L : ℝ) ^ 2 / (4 * Real.pi))]
    · linarith [Py.round_le_add_half (maskArea L m * (L : ℝ) ^ 2 / (4 * Real.pi))]
  · have hif : ∀ x, (if m x then (1 : ℂ) else 0) = ((P.mask x : ℝ) : ℂ) := by
      intro x; rw [hmask]; dsimp only; split <;> simp
    simp only [hif, ← hw]
    split
    · rename_i hpq
      subst hpq
      rw [← h1 p]
      push_cast
      refine Finset.sum_congr rfl fun x _ => ?_
      rw [mul_conj, normSq_eq_norm_sq]
      push_cast; ring
    · rename_i hpq
      exact h2 p q hpq

/-- every mask of every bandlimit is met. -/
theorem C50_arbitrary_runs_exist (L : ℕ) (hL : 1 ≤ L) (m : Grid (2 * L) → Bool) : ∃ (n : ℕ) (_ : n + 1 = L ^ 2) (P : Params (Grid (2 * L)))
    (we : ℕ → Option Err) (M : ℕ → ℕ → ℂ) (w : Fin (n + 1) → ℂ) (V : Fin (n + 1) → Fin (n + 1) → ℂ) (e : Fin (n + 1) → ℝ)
    (S : Fin (n + 1) → Fin (n + 1) → ℂ), OnGrid L m P ∧ CreatesD P 3 we (.ok M) ∧
      IsEigh (fun r c : Fin (n + 1) => M r c) w V ∧ CleansArbitrary w V e S := by
  have hpos : 0 < L ^ 2 := by positivity
  let P : Params (Grid (2 * L)) := ⟨L, fun x => if m x then 1 else 0, weight (2 * L), fun i => .ok (sampledHarmonic (2 * L) i)⟩
  obtain ⟨we, M, h⟩ := C03_run_exists P 3 (by norm_num)
  obtain ⟨-, M', h1, -, h3⟩ := C03_arbitrary_matrix_schedule_independent P (sampledHarmonic (2 * L)) (fun _ _ => rfl)
    (sampledHarmonic_symmetric _ _) 3 (by norm_num) we _ h
  injection h1 with h1
  subst h1
  obtain ⟨w, V, hE⟩ := exists_eigh (fun r c : Fin (L ^ 2 - 1 + 1) => M r c) (fun a b =>
    (h3 a (by have := a.2; change _ < L ^ 2; omega) b (by have := b.2; change _ < L ^ 2; omega)).symm)
  exact ⟨L ^ 2 - 1, by omega, P, we, M, w, V, _, _, ⟨rfl, rfl, rfl, fun _ _ => rfl⟩, h, hE,
    Tuple.sort (fun k => (w k).re), Tuple.monotone_sort _, rfl⟩

/-! ### an eigenvalue above one -/

theorem sub_cube_lt_arctan {t : ℝ} (ht : 0 < t) : t - t ^ 3 / 3 < Real.arctan t := by
  have hd : ∀ x : ℝ, HasDerivAt (fun x => Real.arctan x - x + x ^ 3 / 3) (x ^ 4 / (1 + x ^ 2)) x := by
    intro x
    have h := ((Real.hasDerivAt_arctan x).sub (hasDerivAt_id x)).add ((hasDerivAt_pow 3 x).div_const 3)
    refine HasDerivAt.congr_deriv (f := fun x => Real.arctan x - x + x ^ 3 / 3) h ?_
    have : 1 + x ^ 2 ≠ 0 := by positivity
    field_simp
    ring
  have hm : StrictMonoOn (fun x => Real.arctan x - x + x ^ 3 / 3) (Set.Ici 0) := by
    apply strictMonoOn_of_deriv_pos (convex_Ici 0)
    · exact fun x _ => (hd x).continuousAt.continuousWithinAt
    · intro x hx
      rw [interior_Ici, Set.mem_Ioi] at hx
      rw [(hd x).deriv]
      positivity
  have := hm (Set.mem_Ici.mpr le_rfl) (Set.mem_Ici.mpr ht.le) ht
  simp only [Real.arctan_zero] at this
  linarith

/-- the trapezium sum of `sin³`. -/
theorem sum_sin_cube {N : ℕ} (h : 4 ≤ N) :
    (N : ℝ) / (3 * (Real.pi / 4)) < ∑ t ∈ Finset.range (N + 1), Real.sin ((t : ℝ) * (Real.pi / N)) ^ 3 := by
  have hN : (4 : ℝ) ≤ N := by exact_mod_cast h
  have hpi := Real.pi_pos
  set y : ℝ := Real.pi / (2 * N) with hy
  have hy0 : 0 < y := by rw [hy]; positivity
  have hNy : (N : ℝ) = Real.pi / (2 * y) := by rw [hy]; field_simp
  have hy8 : y ≤ Real.pi / 8 := by
    rw [hy]; apply div_le_div_of_nonneg_left hpi.le (by norm_num); linarith
  have hs : 0 < Real.sin y := Real.sin_pos_of_pos_of_lt_pi hy0 (by linarith)
  have hc : 0 < Real.cos y := Real.cos_pos_of_mem_Ioo ⟨by linarith, by linarith⟩
  have hs3 : 0 < Real.sin (3 * y) := Real.sin_pos_of_pos_of_lt_pi (by linarith) (by linarith)
  have h1 := sum_sin (L := N) (by omega)
  have h3 : ∑ t ∈ Finset.range (N + 1), Real.sin (3 * ((t : ℝ) * (Real.pi / N))) = Real.cos (3 * y) / Real.sin (3 * y) := by
    have k := two_sin_mul_sum (3 * y) (N + 1)
    have e : (2 * ((N + 1 : ℕ) : ℝ) - 1) * (3 * y) = 3 * y + Real.pi + 2 * Real.pi := by
      rw [hy]; push_cast; field_simp; ring
    rw [e, Real.cos_add_two_pi, Real.cos_add_pi] at k
    have e2 : ∀ t ∈ Finset.range (N + 1), Real.sin (3 * ((t : ℝ) * (Real.pi / N))) = Real.sin (2 * t * (3 * y)) := by
      intro t _; congr 1; rw [hy]; field_simp
    rw [Finset.sum_congr rfl e2, eq_div_iff hs3.ne']
    linarith
  have hcube : ∀ x : ℝ, Real.sin x ^ 3 = 3 / 4 * Real.sin x - 1 / 4 * Real.sin (3 * x) := by
    intro x; rw [Real.sin_three_mul]; ring
  simp only [hcube]
  rw [Finset.sum_sub_distrib, ← Finset.mul_sum, ← Finset.mul_sum, h1, h3, ← hy]
  set c := Real.cos y
  set s := Real.sin y
  have hcs : s ^ 2 + c ^ 2 = 1 := Real.sin_sq_add_cos_sq y
  have hS3 : Real.sin (3 * y) = s * (3 * c ^ 2 - s ^ 2) := by
    rw [Real.sin_three_mul]; linear_combination (-3 * s) * hcs
  have hC3 : Real.cos (3 * y) = c * (c ^ 2 - 3 * s ^ 2) := by
    rw [Real.cos_three_mul]; linear_combination (3 * c) * hcs
  rw [hS3] at hs3
  have hq : 0 < 3 * c ^ 2 - s ^ 2 := by
    rcases pos_and_pos_or_neg_and_neg_of_mul_pos hs3 with ⟨-, h⟩ | ⟨h, -⟩
    · exact h
    · linarith
  have hval : 3 / 4 * (c / s) - 1 / 4 * (Real.cos (3 * y) / Real.sin (3 * y)) = 2 * c ^ 3 / (s * (3 * c ^ 2 - s ^ 2)) := by
    rw [hS3, hC3]
    field_simp
    ring
  rw [hval]
  have hat : Real.arctan (Real.tan y) = y := Real.arctan_tan (by linarith) (by linarith)
  have htan : Real.tan y = s / c := Real.tan_eq_sin_div_cos y
  have key := sub_cube_lt_arctan (t := Real.tan y) (by rw [htan]; positivity)
  rw [hat, htan] at key
  have key2 : s * (3 * c ^ 2 - s ^ 2) < 3 * y * c ^ 3 := by
    have : s / c - (s / c) ^ 3 / 3 = s * (3 * c ^ 2 - s ^ 2) / (3 * c ^ 3) := by field_simp
    rw [this, div_lt_iff₀ (by positivity)] at key
    linarith
  rw [hNy, div_div, div_lt_div_iff₀ (by positivity) hs3]
  calc Real.pi * (s * (3 * c ^ 2 - s ^ 2)) < Real.pi * (3 * y * c ^ 3) := mul_lt_mul_of_pos_left key2 hpi
    _ = _ := by ring

theorem norm_sphHarm_one_one (th ph : ℝ) : ‖sphHarm 1 1 th ph‖ ^ 2 = 3 / (8 * Real.pi) * Real.sin th ^ 2 := by
  have hpi := Real.pi_pos
  have h1 : sphHarm 1 1 th ph * (starRingEnd ℂ) (sphHarm 1 1 th ph) = ((Gaunt.thetaPart 1 1 th * Gaunt.thetaPart 1 1 th : ℝ) : ℂ) := by
    rw [Gaunt.sphHarm_mul_conj]; simp
  rw [mul_conj, normSq_eq_norm_sq] at h1
  have h2 : ‖sphHarm 1 1 th ph‖ ^ 2 = Gaunt.thetaPart 1 1 th * Gaunt.thetaPart 1 1 th := by exact_mod_cast h1
  have h3 : assocLegendre 1 1 (Real.cos th) = -Real.sqrt (1 - Real.cos th ^ 2) := by
    unfold assocLegendre
    rw [show (((1 : ℕ) : ℤ) + 1).toNat = 2 from rfl]
    simp
    ring
  have h4 : Gaunt.nrm 1 1 ^ 2 = 3 / (8 * Real.pi) := by
    unfold Gaunt.nrm
    rw [Real.sq_sqrt (by positivity), show ((((1 : ℕ) : ℤ) - 1).toNat) = 0 from rfl, show ((((1 : ℕ) : ℤ) + 1).toNat) = 2 from rfl]
    rw [show (Nat.factorial 0 : ℝ) = 1 by norm_num, show (Nat.factorial 2 : ℝ) = 2 by norm_num [Nat.factorial]]
    field_simp
    norm_num
  have h5 : Real.sqrt (1 - Real.cos th ^ 2) ^ 2 = Real.sin th ^ 2 := by
    rw [Real.sq_sqrt (by nlinarith [Real.cos_sq_le_one th]), Real.sin_sq]
  rw [h2, Gaunt.thetaPart, h3, ← h4, ← h5]
  ring

/-- a diagonal entry is an average of the eigenvalues. -/
theorem diagonal_average {n : ℕ} (D : Fin n → Fin n → ℂ) (e : Fin n → ℝ) (S : Fin n → Fin n → ℂ)
    (heig : ∀ p r, ∑ c, (starRingEnd ℂ) (D r c) * S p c = e p * S p r) (horth : OrthonormalRows S) (r : Fin n) :
    (starRingEnd ℂ) (D r r) = ((∑ p, e p * ‖S p r‖ ^ 2 : ℝ) : ℂ) ∧ ∑ p, ‖S p r‖ ^ 2 = 1 := by
  have hcol : ∀ r c, ∑ p, (starRingEnd ℂ) (S p r) * S p c = if r = c then 1 else 0 := by
    have h1 : (Matrix.of S) * (Matrix.of S).conjTranspose = 1 := by
      ext p q
      rw [Matrix.mul_apply, Matrix.one_apply]
      exact horth p q
    have h2 := mul_eq_one_comm.1 h1
    intro r c
    have := congrFun (congrFun h2 r) c
    rw [Matrix.mul_apply, Matrix.one_apply] at this
    exact this
  have hself : ∀ p, (starRingEnd ℂ) (S p r) * S p r = ((‖S p r‖ ^ 2 : ℝ) : ℂ) := by
    intro p; rw [mul_comm, mul_conj, normSq_eq_norm_sq]
  constructor
  · calc (starRingEnd ℂ) (D r r) = ∑ c, (starRingEnd ℂ) (D r c) * ∑ p, (starRingEnd ℂ) (S p r) * S p c := by simp [hcol]
      _ = ∑ p, (starRingEnd ℂ) (S p r) * ∑ c, (starRingEnd ℂ) (D r c) * S p c := by
        simp only [Finset.mul_sum]
        rw [Finset.sum_comm]
        exact Finset.sum_congr rfl fun p _ => Finset.sum_congr rfl fun c _ => by ring
      _ = _ := by
        push_cast
        refine Finset.sum_congr rfl fun p _ => ?_
        rw [heig, mul_left_comm, hself]; push_cast; ring
  · have := hcol r r
    simp only [hself, if_true] at this
    exact_mod_cast this

/-- C50 is violated by arbitrary regions: for every bandlimit from 2 on, when the mask is the whole sphere, the largest
eigenvalue exceeds one, whatever the schedule and the solver. -/
theorem C50_arbitrary_violation (L n : ℕ) (hL : 2 ≤ L) (hn : n + 1 = L ^ 2) (P : Params (Grid (2 * L)))
    (hP : OnGrid L (fun _ => true) P) (ncpu : ℕ) (hpos : 1 ≤ ncpu) (we : ℕ → Option Err) (M : ℕ → ℕ → ℂ)
    (h : CreatesD P ncpu we (.ok M)) (w : Fin (n + 1) → ℂ) (V : Fin (n + 1) → Fin (n + 1) → ℂ)
    (hD : IsEigh (fun r c : Fin (n + 1) => M r c) w V)
    (e : Fin (n + 1) → ℝ) (S : Fin (n + 1) → Fin (n + 1) → ℂ) (hS : CleansArbitrary w V e S) : 1 < e 0 := by
  obtain ⟨hanti, -⟩ := C17_arbitrary_sorted_and_paired w V e S hS
  suffices ∃ p, 1 < e p by
    obtain ⟨p, hp⟩ := this
    exact hp.trans_le (hanti (Fin.zero_le p))
  obtain ⟨hPL, hmask, hw, hf⟩ := hP
  have hn3 : 3 < n + 1 := by rw [hn]; nlinarith
  obtain ⟨-, M', h1, h2, -⟩ := C03_arbitrary_matrix_schedule_independent P (sampledHarmonic (2 * L))
    (fun x hx => hf x (by rwa [hPL] at hx)) (sampledHarmonic_symmetric _ _) ncpu hpos we _ h
  injection h1 with h1
  subst h1
  obtain ⟨heig, horth⟩ := C18_arbitrary_orthonormal_eigenvectors _ w V hD e S hS
  obtain ⟨hdiag, hone⟩ := diagonal_average _ e S heig horth ⟨3, hn3⟩
  have h33 : M 3 3 = ((∑ x : Grid (2 * L), ‖sampledHarmonic (2 * L) 3 x‖ ^ 2 * weight (2 * L) x : ℝ) : ℂ) := by
    rw [h2 3 (by rw [hPL]; omega) 3 (by rw [hPL]; omega), regionInner_self, hmask, hw]
    simp [energy]
  have hgt : 1 < ∑ x : Grid (2 * L), ‖sampledHarmonic (2 * L) 3 x‖ ^ 2 * weight (2 * L) x := by
    have hpi := Real.pi_pos
    have hi : ind2elm 3 = (1, 1) := ind2elm_elm2ind (l := 1) (m := 1) (by norm_num)
    have hLr : (2 : ℝ) ≤ L := by exact_mod_cast hL
    have e1 : ∀ x : Grid (2 * L), ‖sampledHarmonic (2 * L) 3 x‖ ^ 2 * weight (2 * L) x =
        3 / (8 * Real.pi) * (Real.pi / (2 * L : ℕ)) ^ 2 * Real.sin ((x.1 : ℕ) * (Real.pi / (2 * L : ℕ))) ^ 3 := by
      intro x
      unfold sampledHarmonic
      rw [hi, norm_sphHarm_one_one, weight_eq (by omega), theta_eq (by omega)]
      ring
    simp only [e1]
    rw [← Finset.mul_sum, Fintype.sum_prod_type]
    simp only [Finset.sum_const, Finset.card_univ, Fintype.card_fin, nsmul_eq_mul]
    rw [← Finset.mul_sum, ← Finset.sum_range (fun t : ℕ => Real.sin (t * (Real.pi / (2 * L : ℕ))) ^ 3)]
    have hs := sum_sin_cube (N := 2 * L) (by omega)
    have hpos2 : 0 < 3 / (8 * Real.pi) * (Real.pi / (2 * L : ℕ)) ^ 2 * ((2 * (2 * L) : ℕ) : ℝ) := by
      push_cast; positivity
    have := mul_lt_mul_of_pos_left hs hpos2
    calc (1 : ℝ) = 3 / (8 * Real.pi) * (Real.pi / (2 * L : ℕ)) ^ 2 * ((2 * (2 * L) : ℕ) : ℝ) *
          (((2 * L : ℕ) : ℝ) / (3 * (Real.pi / 4))) := by push_cast; field_simp; norm_num
      _ < _ := this.trans_eq (mul_assoc _ _ _)
  rw [h33, conj_ofReal] at hdiag
  have hdiag' := ofReal_injective hdiag
  rw [hdiag'] at hgt
  by_contra hno
  push Not at hno
  have : ∑ p, e p * ‖S p ⟨3, hn3⟩‖ ^ 2 ≤ ∑ p, ‖S p ⟨3, hn3⟩‖ ^ 2 :=
    Finset.sum_le_sum fun p _ => by
      have := mul_le_mul_of_nonneg_right (hno p) (sq_nonneg ‖S p ⟨3, hn3⟩‖)
      linarith
  linarith

end Sleplet.Props
