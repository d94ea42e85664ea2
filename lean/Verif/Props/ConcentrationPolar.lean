import Verif.Lemmas.CapEnergy
import Verif.Lemmas.EigenExists
import Verif.Props.PolarCap

/-!
C50 for polar caps, end to end (table, matrices of all orders, eigensolver, cleaning, merging).
-/
namespace Sleplet.Props

open Complex Sleplet.Spec Sleplet.Gaunt Sleplet.RealMat Sleplet.Eigen Sleplet.LatLon

/-- the function synthesised from row `p` of the eigenvectors. -/
noncomputable def slepianFunction (L : ℕ) (v : List (List ℂ)) (p : ℕ) (th ph : ℝ) : ℂ :=
  ∑ i : Fin (L ^ 2), (v.getD p []).getD i 0 * sphHarm (ind2elm i).1 (ind2elm i).2 th ph

/-- C50, polar caps and polar gaps.  Take any bandlimit, any cap angle in `[0, π]`, any worker counts and schedules for the
matrices of the orders, any eigendecomposition of those matrices by the solver and any sorting permutations.  If the external
routine returned the spherical harmonics at the boundary, the run returns `L²` eigenvalues `e` and vectors `v` whose
functions `s_p`
* are orthonormal over the sphere and orthogonal over the region, with `∫_R |s_p|² = e_p`, so `e_p` is the ratio of the
  energy in the region to the total energy;
* have `0 ≤ e_p`, and `e_p ≤ 1` unless it is a gap of two overlapping caps;
* the eigenvalues add up to `L²/4π` times the area of the cap (of both caps for a gap), and are in decreasing order. -/
theorem C50_polar_energy_ratio (L : ℕ) (gap : Bool) (t : ℝ) (ht0 : 0 ≤ t) (htpi : t ≤ Real.pi)
    (plm : List ℝ) (hlen : plm.length = (2 * L) ^ 2) (hplm : ∀ n < 2 * L, plm.getD (elm2ind n 0) 0 = (sphHarm n 0 t 0).re)
    (M : ℤ → ℕ → ℕ → ℝ) (hM : ∀ m : ℤ, m.natAbs < L → ∃ ncpu we, 1 ≤ ncpu ∧ CreatesOrder L gap plm m ncpu we (.ok (M m)))
    (sol : ℤ → OrderSolution) (hsol : ∀ m : ℤ, m.natAbs < L → IsEighOrder (L - m.natAbs) (M m) (sol m))
    (r : Except Err (List ℝ × List (List ℂ) × List ℤ)) (h : SolvesAll L sol r) :
    ∃ e v o, r = .ok (e, v, o) ∧ e.length = L ^ 2 ∧ v.length = L ^ 2 ∧
      (∀ p < L ^ 2, ∀ q < L ^ 2, surface 0 Real.pi 0 (2 * Real.pi)
        (fun th ph => slepianFunction L v p th ph * (starRingEnd ℂ) (slepianFunction L v q th ph)) = if p = q then 1 else 0) ∧
      (∀ p < L ^ 2, ∀ q < L ^ 2, capIntegral gap t
        (fun th ph => slepianFunction L v p th ph * (starRingEnd ℂ) (slepianFunction L v q th ph)) =
          if p = q then (e.getD p 0 : ℂ) else 0) ∧
      (∀ p < L ^ 2, 0 ≤ e.getD p 0) ∧
      ((gap = true → t ≤ Real.pi / 2) → ∀ p < L ^ 2, e.getD p 0 ≤ 1) ∧
      ∑ p ∈ Finset.range (L ^ 2), e.getD p 0 = L ^ 2 / (4 * Real.pi) * ((if gap then 2 else 1) * (2 * Real.pi * (1 - Real.cos t))) ∧
      e.Pairwise (· ≥ ·) := by
  have hcap : ∀ m : ℤ, m.natAbs < L → ∀ i j, m.natAbs + i < L → m.natAbs + j < L →
      (M m i j : ℂ) = capIntegral gap t fun th ph =>
        sphHarm (m.natAbs + i) m th ph * (starRingEnd ℂ) (sphHarm (m.natAbs + j) m th ph) := by
    intro m hm
    obtain ⟨ncpu, we, hpos, hc⟩ := hM m hm
    obtain ⟨-, N, h1, h2⟩ := C65_polar_matrix_is_surface_integral L gap t plm hlen hplm m ncpu hpos we _ hc
    injection h1 with h1
    subst h1
    exact h2
  -- the matrices of opposite orders are the same integrals
  have hsame : ∀ m : ℤ, m.natAbs < L → ∀ i j, m.natAbs + i < L → m.natAbs + j < L → M m i j = M (m.natAbs : ℤ) i j := by
    intro m hm i j hi hj
    have b1 : |m| ≤ ((m.natAbs + i : ℕ) : ℤ) := by rw [Int.abs_eq_natAbs]; push_cast; omega
    have b2 : |m| ≤ ((m.natAbs + j : ℕ) : ℤ) := by rw [Int.abs_eq_natAbs]; push_cast; omega
    have h1 := hcap m hm i j hi hj
    have h2 := hcap (m.natAbs : ℤ) (by omega) i j (by omega) (by omega)
    simp only [Int.natAbs_natCast] at h2
    rw [cap_sphHarm b1 b2, if_pos rfl] at h1
    rw [cap_sphHarm (by rw [Int.abs_eq_natAbs]; simp) (by rw [Int.abs_eq_natAbs]; simp), if_pos rfl] at h2
    simp only [Int.natAbs_natCast] at h2
    exact_mod_cast h1.trans h2.symm
  have hsol' : ∀ m : ℤ, m.natAbs < L → IsEighOrder (L - m.natAbs) ((fun k : ℕ => M (k : ℤ)) m.natAbs) (sol m) := by
    intro m hm
    obtain ⟨a, b, c⟩ := hsol m hm
    refine ⟨a, fun k hk r hr => ?_, c⟩
    rw [← b k hk r hr]
    refine Finset.sum_congr rfl fun j hj => ?_
    rw [Finset.mem_range] at hj
    simp only
    rw [hsame m hm r j (by omega) (by omega)]
  obtain ⟨e, v, o, hr, he, hv, -, hdec, -, -, hrow, horth⟩ := C19_polar_all_orders L (fun k : ℕ => M (k : ℤ)) sol hsol' r h
  let Y : Fin (L ^ 2) → ℝ → ℝ → ℂ := fun i => sphHarm (ind2elm i).1 (ind2elm i).2
  let S : Fin (L ^ 2) → Fin (L ^ 2) → ℂ := fun p i => (v.getD p []).getD i 0
  have hYc : ∀ i, Continuous fun x : ℝ × ℝ => Y i x.1 x.2 := fun i => continuous_sphHarm (ind2elm_abs_le _)
  have hS : OrthonormalRows S := by
    intro p q
    have := horth p p.2 q q.2
    rw [← Fin.sum_univ_eq_sum_range (fun i => (v.getD p []).getD i 0 * (starRingEnd ℂ) ((v.getD q []).getD i 0))] at this
    refine this.trans ?_
    simp only [Fin.ext_iff]
  -- the eigenvalue equation with the full block matrix
  have heig : ∀ p rr : Fin (L ^ 2), ∑ c, capIntegral gap t (fun th ph => Y c th ph * (starRingEnd ℂ) (Y rr th ph)) * S p c =
      (e.getD p 0 : ℂ) * S p rr := by
    intro p rr
    obtain ⟨-, hμ, hz, hev⟩ := hrow p p.2
    set μ := o.getD p 0 with hμdef
    have hrl := ind2elm_fst_lt (L := L) rr.2
    have hrb := ind2elm_abs_le (rr : ℕ)
    have hcl : ∀ c : Fin (L ^ 2), (ind2elm c).1 < L := fun c => ind2elm_fst_lt c.2
    have hSz : ∀ c : Fin (L ^ 2), (ind2elm c).2 ≠ μ → S p c = 0 := by
      intro c hc
      have := hz (ind2elm c).1 (ind2elm c).2 (hcl c) (ind2elm_abs_le _) hc
      rwa [elm2ind_ind2elm] at this
    by_cases hro : (ind2elm rr).2 = μ
    · -- on its own order
      set k := (ind2elm rr).1 - μ.natAbs with hk
      have hkl : (ind2elm rr).1 = μ.natAbs + k := by
        rw [hro, Int.abs_eq_natAbs] at hrb; omega
      have hrr : (rr : ℕ) = elm2ind (μ.natAbs + k) μ := by rw [← hkl, ← hro, elm2ind_ind2elm]
      have hb : ∀ j, |μ| ≤ ((μ.natAbs + j : ℕ) : ℤ) := by intro j; rw [Int.abs_eq_natAbs]; push_cast; omega
      have h1 := hev k (by omega)
      have hSr : S p rr = (v.getD p []).getD (elm2ind (μ.natAbs + k) μ) 0 := by simp only [S, hrr]
      rw [hSr, ← h1]
      symm
      let emb : ℕ → Fin (L ^ 2) := fun j => if hj : elm2ind (μ.natAbs + j) μ < L ^ 2 then ⟨_, hj⟩ else rr
      have hemb : ∀ j < L - μ.natAbs, (emb j : ℕ) = elm2ind (μ.natAbs + j) μ := by
        intro j hj
        have : elm2ind (μ.natAbs + j) μ < L ^ 2 := (elm2ind_lt_sq (hb j) L).2 (by omega)
        simp only [emb, this, dite_true]
      refine Finset.sum_of_injOn emb ?_ (fun j _ => Finset.mem_coe.2 (Finset.mem_univ _)) ?_ ?_
      · intro a ha b hb' hab
        simp only [Finset.coe_range, Set.mem_Iio] at ha hb'
        have h3 : elm2ind (μ.natAbs + a) μ = elm2ind (μ.natAbs + b) μ := by rw [← hemb a ha, ← hemb b hb', hab]
        have h4 := congrArg ind2elm h3
        rw [ind2elm_elm2ind (hb a), ind2elm_elm2ind (hb b)] at h4
        have := (Prod.mk.inj h4).1
        omega
      · intro c _ hc
        by_cases hco : (ind2elm c).2 = μ
        · exfalso
          have hcb := ind2elm_abs_le (c : ℕ)
          rw [hco, Int.abs_eq_natAbs] at hcb
          have := hcl c
          refine hc ⟨(ind2elm c).1 - μ.natAbs, ?_, ?_⟩
          · simp only [Finset.coe_range, Set.mem_Iio]; omega
          · apply Fin.ext
            rw [hemb _ (by omega), show μ.natAbs + ((ind2elm c).1 - μ.natAbs) = (ind2elm c).1 by omega, ← hco, elm2ind_ind2elm]
        · rw [hSz c hco, mul_zero]
      · intro j hj
        rw [Finset.mem_range] at hj
        have h5 := hcap μ hμ k j (by omega) (by omega)
        rw [hsame μ hμ k j (by omega) (by omega)] at h5
        have h6 := congrArg (starRingEnd ℂ) h5
        rw [conj_ofReal, conj_cap] at h6
        rw [h6]
        have hYe : Y (emb j) = sphHarm (μ.natAbs + j) μ := by
          simp only [Y, hemb j hj, ind2elm_elm2ind (hb j)]
        have hYr : Y rr = sphHarm (μ.natAbs + k) μ := by
          simp only [Y]; rw [hro, hkl]
        have hSe : S p (emb j) = (v.getD p []).getD (elm2ind (μ.natAbs + j) μ) 0 := by simp only [S, hemb j hj]
        rw [hYe, hYr, hSe]
    · rw [hSz rr hro, mul_zero]
      refine Finset.sum_eq_zero fun c _ => ?_
      by_cases hco : (ind2elm c).2 = μ
      · have : capIntegral gap t (fun th ph => Y c th ph * (starRingEnd ℂ) (Y rr th ph)) = 0 :=
          C65_orders_decouple gap t _ _ _ _ (ind2elm_abs_le _) hrb (by rw [hco]; exact fun h => hro h.symm)
        rw [this, zero_mul]
      · rw [hSz c hco, mul_zero]
  have hcapS : ∀ p q : Fin (L ^ 2), capIntegral gap t
      (fun th ph => slepianFunction L v p th ph * (starRingEnd ℂ) (slepianFunction L v q th ph)) =
        if p = q then (e.getD p 0 : ℂ) else 0 := by
    intro p q
    have := cap_synth Y hYc (S p) (S q) gap t
    refine this.trans ?_
    simp only [heig]
    calc ∑ r, (starRingEnd ℂ) (S q r) * (e.getD p 0 * S p r) = e.getD p 0 * ∑ r, S p r * (starRingEnd ℂ) (S q r) := by
          rw [Finset.mul_sum]; exact Finset.sum_congr rfl fun r _ => by ring
      _ = _ := by rw [hS]; split <;> simp
  have hfull : ∀ p q : Fin (L ^ 2), surface 0 Real.pi 0 (2 * Real.pi)
      (fun th ph => slepianFunction L v p th ph * (starRingEnd ℂ) (slepianFunction L v q th ph)) = if p = q then 1 else 0 := by
    intro p q
    refine (surface_synth Y hYc (S p) (S q) 0 Real.pi 0 (2 * Real.pi)).trans ?_
    have h3 : ∀ c r : Fin (L ^ 2), surface 0 Real.pi 0 (2 * Real.pi) (fun th ph => Y c th ph * (starRingEnd ℂ) (Y r th ph)) =
        if c = r then 1 else 0 := by
      intro c r
      have h4 := C65_harmonics_orthonormal (ind2elm c).1 (ind2elm r).1 (ind2elm c).2 (ind2elm r).2 (ind2elm_abs_le _) (ind2elm_abs_le _)
      refine h4.trans ?_
      have : ((ind2elm c).1 = (ind2elm r).1 ∧ (ind2elm c).2 = (ind2elm r).2) ↔ c = r := by
        constructor
        · rintro ⟨a, b⟩
          apply Fin.ext
          rw [← elm2ind_ind2elm c, a, b, elm2ind_ind2elm]
        · rintro rfl; exact ⟨rfl, rfl⟩
      simp only [this]
    simp only [h3, ite_mul, one_mul, zero_mul, Finset.sum_ite_eq', Finset.mem_univ, if_true]
    rw [← hS p q]
    exact Finset.sum_congr rfl fun r _ => by ring
  have hen : ∀ p : Fin (L ^ 2), e.getD p 0 = capEnergy gap t (slepianFunction L v p) := by
    intro p
    have := hcapS p p
    rw [cap_self, if_pos rfl] at this
    exact_mod_cast this.symm
  have htot : ∀ p : Fin (L ^ 2), surfaceEnergy 0 Real.pi 0 (2 * Real.pi) (slepianFunction L v p) = 1 := by
    intro p
    have := hfull p p
    rw [surface_self, if_pos rfl] at this
    exact_mod_cast this
  have hsc : ∀ p : ℕ, Continuous fun x : ℝ × ℝ => slepianFunction L v p x.1 x.2 := by
    intro p
    exact continuous_finsetSum _ fun i _ => continuous_const.mul (hYc i)
  refine ⟨e, v, o, hr, he, hv, ?_, ?_, ?_, ?_, ?_, hdec⟩
  · intro p hp q hq
    have := hfull ⟨p, hp⟩ ⟨q, hq⟩
    simpa only [Fin.mk.injEq] using this
  · intro p hp q hq
    have := hcapS ⟨p, hp⟩ ⟨q, hq⟩
    simpa only [Fin.mk.injEq] using this
  · intro p hp
    rw [hen ⟨p, hp⟩]
    exact capEnergy_nonneg ht0 htpi gap _
  · intro hg p hp
    have h1 := hen ⟨p, hp⟩
    have h2 := htot ⟨p, hp⟩
    simp only at h1 h2
    rw [h1, ← h2]
    exact capEnergy_le ht0 htpi gap hg (hsc p)
  · rw [← sum_capEnergy (n := L ^ 2) L rfl gap t]
    have h1 := sum_eigenvalues (fun a b => capIntegral gap t (fun th ph => Y a th ph * (starRingEnd ℂ) (Y b th ph)))
      (fun p => e.getD p 0) S (by
        intro p rr
        rw [← heig p rr]
        exact Finset.sum_congr rfl fun c _ => by rw [conj_cap]) hS
    simp only [cap_self, conj_ofReal] at h1
    rw [← Fin.sum_univ_eq_sum_range (fun p => e.getD p 0)]
    exact_mod_cast h1

/-- The hypotheses of C50 and C65 are met for every bandlimit, angle and gap flag: the external table exists, every order's
matrix is built by some run, the spectral theorem gives a decomposition the solver may return, and the results can be sorted. -/
theorem C50_polar_runs_exist (L : ℕ) (gap : Bool) (t : ℝ) : ∃ (plm : List ℝ) (M : ℤ → ℕ → ℕ → ℝ) (sol : ℤ → OrderSolution)
    (r : Except Err (List ℝ × List (List ℂ) × List ℤ)),
    plm.length = (2 * L) ^ 2 ∧ (∀ n < 2 * L, plm.getD (elm2ind n 0) 0 = (sphHarm n 0 t 0).re) ∧
    (∀ m : ℤ, m.natAbs < L → ∃ ncpu we, 1 ≤ ncpu ∧ CreatesOrder L gap plm m ncpu we (.ok (M m))) ∧
    (∀ m : ℤ, m.natAbs < L → IsEighOrder (L - m.natAbs) (M m) (sol m)) ∧ SolvesAll L sol r := by
  let plm : List ℝ := (List.range ((2 * L) ^ 2)).map fun i => (sphHarm (ind2elm i).1 (ind2elm i).2 t 0).re
  have hlen : plm.length = (2 * L) ^ 2 := by simp [plm]
  have hplm : ∀ n < 2 * L, plm.getD (elm2ind n 0) 0 = (sphHarm n 0 t 0).re := by
    intro n hn
    have hb : |(0 : ℤ)| ≤ (n : ℤ) := by simp
    have : elm2ind n 0 < (2 * L) ^ 2 := (elm2ind_lt_sq hb _).2 hn
    simp [plm, List.getD_eq_getElem?_getD, this, ind2elm_elm2ind hb]
  obtain ⟨T, hT, -, -⟩ := C65_legendre_table L plm hlen
  have hrun : ∀ m : ℤ, ∃ M we, CreatesOrder L gap plm m 1 we (.ok M) := by
    intro m
    obtain ⟨we, M, h⟩ := C05_run_exists (L - m.natAbs) (polarHelper (L - m.natAbs) (dmEntry L gap (fun n => T.getD n 0) m.natAbs))
      (polarPost m.natAbs) 1 le_rfl
    refine ⟨M, we, ?_⟩
    unfold CreatesOrder
    rw [hT]
    exact h
  choose M we hM using hrun
  have hsym : ∀ m : ℤ, ∀ i < L - m.natAbs, ∀ j < L - m.natAbs, M m i j = M m j i := by
    intro m i hi j hj
    have h := hM m
    unfold CreatesOrder at h
    rw [hT] at h
    obtain ⟨-, N, h1, -, h2⟩ :=
      C06_polar_matrix_schedule_independent L gap (fun n => T.getD n 0) m.natAbs w3j wigner3j_eq 1 le_rfl (we m) _ h
    injection h1 with h1
    subst h1
    exact h2 i j (by omega) (by omega)
  choose sol hsol using fun m : ℤ => exists_eighOrder (L - m.natAbs) (M m) (hsym m)
  obtain ⟨r, hr⟩ := exists_solvesAll L sol
  exact ⟨plm, M, sol, r, hlen, hplm, fun m _ => ⟨1, we m, le_rfl, hM m⟩, fun m _ => hsol m, hr⟩

/-- C50 is violated for polar gaps with caps that overlap, which the constructors accept: whatever the bandlimit, some
eigenvalue is greater than one. -/
theorem C50_polar_overlapping_gap_violation (L : ℕ) (hL : 1 ≤ L) (t : ℝ) (ht0 : Real.pi / 2 < t) (htpi : t ≤ Real.pi)
    (plm : List ℝ) (hlen : plm.length = (2 * L) ^ 2) (hplm : ∀ n < 2 * L, plm.getD (elm2ind n 0) 0 = (sphHarm n 0 t 0).re)
    (M : ℤ → ℕ → ℕ → ℝ) (hM : ∀ m : ℤ, m.natAbs < L → ∃ ncpu we, 1 ≤ ncpu ∧ CreatesOrder L true plm m ncpu we (.ok (M m)))
    (sol : ℤ → OrderSolution) (hsol : ∀ m : ℤ, m.natAbs < L → IsEighOrder (L - m.natAbs) (M m) (sol m))
    (e : List ℝ) (v : List (List ℂ)) (o : List ℤ) (h : SolvesAll L sol (.ok (e, v, o))) : ∃ p < L ^ 2, 1 < e.getD p 0 := by
  have hpi := Real.pi_pos
  obtain ⟨e', v', o', hr, -, -, -, -, -, -, hsum, -⟩ :=
    C50_polar_energy_ratio L true t (by linarith) htpi plm hlen hplm M hM sol hsol _ h
  injection hr with hr
  obtain rfl : e = e' := (Prod.mk.inj hr).1
  by_contra hneg
  push Not at hneg
  have h1 : ∑ p ∈ Finset.range (L ^ 2), e.getD p 0 ≤ ∑ p ∈ Finset.range (L ^ 2), (1 : ℝ) :=
    Finset.sum_le_sum fun p hp => hneg p (Finset.mem_range.1 hp)
  rw [hsum] at h1
  simp only [if_true, Finset.sum_const, Finset.card_range, nsmul_eq_mul, mul_one] at h1
  push_cast at h1
  have hcos : Real.cos t < 0 := by
    refine Real.cos_neg_of_pi_div_two_lt_of_lt ht0 (by linarith)
  have hL2 : (0 : ℝ) < L ^ 2 := by have : (1 : ℝ) ≤ L := by exact_mod_cast hL
                                   positivity
  have : (L : ℝ) ^ 2 / (4 * Real.pi) * (2 * (2 * Real.pi * (1 - Real.cos t))) = L ^ 2 * (1 - Real.cos t) := by
    field_simp; ring
  rw [this] at h1
  nlinarith

/-- such a region is accepted: a gap with caps of 120 degrees, with eigenvalues greater than one for the bandlimit 8. -/
theorem C50_polar_overlapping_gap_accepted : (∃ r, Region.mk { gap := true, thetaMax := 2 * Real.pi / 3 } = .ok r ∧
      ∃ r', Region.choose 8 r = .ok (.polarCap 8 (2 * Real.pi / 3) true, r')) ∧
    ∃ (plm : List ℝ) (M : ℤ → ℕ → ℕ → ℝ) (sol : ℤ → OrderSolution) (e : List ℝ) (v : List (List ℂ)) (o : List ℤ),
      plm.length = (2 * 8) ^ 2 ∧ (∀ n < 2 * 8, plm.getD (elm2ind n 0) 0 = (sphHarm n 0 (2 * Real.pi / 3) 0).re) ∧
      (∀ m : ℤ, m.natAbs < 8 → ∃ ncpu we, 1 ≤ ncpu ∧ CreatesOrder 8 true plm m ncpu we (.ok (M m))) ∧
      (∀ m : ℤ, m.natAbs < 8 → IsEighOrder (8 - m.natAbs) (M m) (sol m)) ∧ SolvesAll 8 sol (.ok (e, v, o)) ∧
      ∃ p < 8 ^ 2, 1 < e.getD p 0 := by
  have hpi := Real.pi_pos
  constructor
  · have hp : OnlyThetaMax { gap := true, thetaMax := 2 * Real.pi / 3 } := ⟨rfl, rfl, rfl, by simp; linarith⟩
    obtain ⟨r, h1, -, h2⟩ := ((C09_classification { gap := true, thetaMax := 2 * Real.pi / 3 }).2
      ⟨⟨by simp; positivity, le_rfl⟩, ⟨le_rfl, by simp; positivity⟩, ⟨by simp; positivity, by simp; linarith⟩, le_rfl, hpi.le⟩).1
      hp
    obtain ⟨r', h3, -⟩ := (C10_choose_preserves_region 8 _ r h1).2.1 hp (by simp)
    exact ⟨r, h1, r', h3⟩
  · obtain ⟨plm, M, sol, r, h1, h2, h3, h4, h5⟩ := C50_polar_runs_exist 8 true (2 * Real.pi / 3)
    obtain ⟨e, v, o, rfl, -⟩ := C50_polar_energy_ratio 8 true (2 * Real.pi / 3) (by positivity) (by linarith) plm h1 h2 M h3 sol h4 r h5
    exact ⟨plm, M, sol, e, v, o, h1, h2, h3, h4, h5,
      C50_polar_overlapping_gap_violation 8 (by norm_num) _ (by linarith) (by linarith) plm h1 h2 M h3 sol h4 e v o h5⟩

end Sleplet.Props
