import Mathlib.Algebra.BigOperators.Field
import Verif.Lemmas.Pairs
import Verif.Props.LimitLatLon
import Verif.Props.EigenClean
import Verif.Lemmas.EigenExists
import Verif.Props.Region

/-!
C50 for limited latitude/longitude regions, end to end (construction of the matrix, eigensolver, cleaning).
-/
namespace Sleplet.Props

open Complex Sleplet.LatLon Sleplet.Spec Sleplet.Eigen

/-- C50, limited latitude/longitude.  Whatever the threads do and whatever permutation sorts the eigenvalues: if the table
holds the Wigner-d values, the colatitudes lie between `0` and `π` and the solver returned an eigendecomposition of the matrix
it was given, the functions `s_p` synthesised from the returned rows with the spherical harmonics are orthonormal on the
sphere, orthogonal over the region, with `∫_R |s_p|² = e_p`, and the eigenvalues add up to `L²/4π` times the area of the
region, the number that is rounded to give the Shannon number.  When the bounds are in order, `e_p` is the ratio of the energy
in the region to the total energy, between zero and one. -/
theorem C50_lat_lon_energy_ratio (L : ℕ) (n : ℕ) (hn : n + 1 = L ^ 2) (B : Bounds) (dl : Table) (hdl : IsWigner L dl)
    (hB0 : B.tmin ∈ Set.Icc 0 Real.pi) (hB1 : B.tmax ∈ Set.Icc 0 Real.pi) (we : ℕ → Option Err)
    (K : Mat) (h : CreatesK L B dl we (.ok K)) (w : Fin (n + 1) → ℂ) (V : Fin (n + 1) → Fin (n + 1) → ℂ)
    (hD : IsEigh (fun r c : Fin (n + 1) => K r c) w V)
    (e : Fin (n + 1) → ℝ) (S : Fin (n + 1) → Fin (n + 1) → ℂ) (hS : CleansLatLon w V e S) :
    let Y : Fin (n + 1) → ℝ → ℝ → ℂ := fun i => sphHarm (ind2elm i).1 (ind2elm i).2
    let s : Fin (n + 1) → ℝ → ℝ → ℂ := fun p th ph => ∑ i, S p i * Y i th ph
    (∀ p, ∫ ph in B.pmin..B.pmax, ∫ th in B.tmin..B.tmax, ‖s p th ph‖ ^ 2 * Real.sin th = e p) ∧
    (∀ p q, p ≠ q → ∫ ph in B.pmin..B.pmax, ∫ th in B.tmin..B.tmax,
      s p th ph * (starRingEnd ℂ) (s q th ph) * (Real.sin th : ℂ) = 0) ∧
    (∀ p q, ∫ ph in (0 : ℝ)..2 * Real.pi, ∫ th in (0 : ℝ)..Real.pi,
      s p th ph * (starRingEnd ℂ) (s q th ph) * (Real.sin th : ℂ) = if p = q then 1 else 0) ∧
    (∑ p, e p = L ^ 2 / (4 * Real.pi) * ((B.pmax - B.pmin) * (Real.cos B.tmin - Real.cos B.tmax))) ∧
    (B.tmin ≤ B.tmax → B.pmin ≤ B.pmax → (∀ p, 0 ≤ e p) ∧
      (0 ≤ B.pmin → B.pmax ≤ 2 * Real.pi →
        ∀ p, e p ≤ 1 ∧ e p = (∫ ph in B.pmin..B.pmax, ∫ th in B.tmin..B.tmax, ‖s p th ph‖ ^ 2 * Real.sin th) /
          ∫ ph in (0 : ℝ)..2 * Real.pi, ∫ th in (0 : ℝ)..Real.pi, ‖s p th ph‖ ^ 2 * Real.sin th)) := by
  intro Y s
  have hL : 1 ≤ L := by
    rcases Nat.eq_zero_or_pos L with rfl | h
    · simp at hn
    · exact h
  obtain ⟨-, K', h1, h2⟩ := C49_matrix_of_spherical_harmonics L hL B dl hdl hB0 hB1 we _ h
  injection h1 with h1
  subst h1
  obtain ⟨heig, horth⟩ := C18_lat_lon_orthonormal_eigenvectors _ w V hD e S hS
  have hYc : ∀ i, Continuous fun x : ℝ × ℝ => Y i x.1 x.2 := fun i => Gaunt.continuous_sphHarm (ind2elm_abs_le _)
  have hsc : ∀ p, Continuous fun x : ℝ × ℝ => s p x.1 x.2 := by
    intro p
    exact continuous_finset_sum _ fun i _ => continuous_const.mul (hYc i)
  have hK : ∀ a b : Fin (n + 1), K a b =
      surface B.tmin B.tmax B.pmin B.pmax fun th ph => Y a th ph * (starRingEnd ℂ) (Y b th ph) := by
    intro a b
    have := h2 (ind2elm a).1 (ind2elm b).1 (ind2elm a).2 (ind2elm b).2 (ind2elm_fst_lt (by omega))
      (ind2elm_fst_lt (by omega)) (ind2elm_abs_le _) (ind2elm_abs_le _)
    rw [elm2ind_ind2elm, elm2ind_ind2elm] at this
    exact this
  have hin : ∀ p q, surface B.tmin B.tmax B.pmin B.pmax (fun th ph => s p th ph * (starRingEnd ℂ) (s q th ph)) =
      if p = q then (e p : ℂ) else 0 := by
    intro p q
    rw [surface_synth Y hYc]
    have hr : ∀ r, ∑ c, surface B.tmin B.tmax B.pmin B.pmax (fun th ph => Y c th ph * (starRingEnd ℂ) (Y r th ph)) * S p c
        = e p * S p r := by
      intro r
      rw [← heig p r]
      refine Finset.sum_congr rfl fun c _ => ?_
      rw [hK, conj_surface]
    simp only [hr]
    calc ∑ r, (starRingEnd ℂ) (S q r) * (e p * S p r) = e p * ∑ r, S p r * (starRingEnd ℂ) (S q r) := by
          rw [Finset.mul_sum]; exact Finset.sum_congr rfl fun r _ => by ring
      _ = _ := by rw [horth]; split <;> simp
  have hen : ∀ p, surfaceEnergy B.tmin B.tmax B.pmin B.pmax (s p) = e p := by
    intro p
    have := hin p p
    rw [surface_self, if_pos rfl] at this
    exact_mod_cast this
  have hwhole : ∀ p q, surface 0 Real.pi 0 (2 * Real.pi) (fun th ph => s p th ph * (starRingEnd ℂ) (s q th ph)) =
      if p = q then 1 else 0 := by
    intro p q
    rw [surface_synth Y hYc]
    have h3 : ∀ c r, surface 0 Real.pi 0 (2 * Real.pi) (fun th ph => Y c th ph * (starRingEnd ℂ) (Y r th ph)) =
        if c = r then 1 else 0 := by
      intro c r
      rw [Gaunt.sphHarm_orthonormal (ind2elm_abs_le _) (ind2elm_abs_le _)]
      by_cases hcr : c = r
      · subst hcr; simp
      · rw [if_neg hcr, if_neg]
        rintro ⟨h4, h5⟩
        apply hcr
        have := elm2ind_ind2elm c
        rw [h4, h5, elm2ind_ind2elm] at this
        exact Fin.ext this.symm
    rw [← horth p q]
    refine Finset.sum_congr rfl fun r _ => ?_
    simp only [h3, ite_mul, one_mul, zero_mul, Finset.sum_ite_eq', Finset.mem_univ, if_true]
    ring
  refine ⟨hen, fun p q hpq => ?_, hwhole, ?_, fun b2 b4 => ⟨fun p => ?_, fun b5 b6 p => ?_⟩⟩
  · have := hin p q
    rw [if_neg hpq] at this
    exact this
  · have htr := sum_eigenvalues _ e S heig horth
    simp only [hK, surface_self, conj_ofReal] at htr
    have hsum : ∀ th ph : ℝ, ∑ i, Y i th ph * (starRingEnd ℂ) (Y i th ph) = ((L ^ 2 / (4 * Real.pi) : ℝ) : ℂ) := by
      intro th ph
      have h1 : ∑ i : Fin (n + 1), ‖Y i th ph‖ ^ 2 = (L : ℝ) ^ 2 / (4 * Real.pi) := by
        rw [Fin.sum_univ_eq_sum_range (fun i : ℕ => ‖sphHarm (ind2elm i).1 (ind2elm i).2 th ph‖ ^ 2) (n + 1), hn,
          sum_pairs L fun l m => ‖sphHarm l m th ph‖ ^ 2]
        rw [Finset.sum_congr rfl fun l _ => Gaunt.sum_norm_sphHarm l th ph, ← Finset.sum_div, sum_odd]
      rw [← h1]
      push_cast
      exact Finset.sum_congr rfl fun i _ => by rw [mul_conj, normSq_eq_norm_sq]; push_cast; rfl
    have hc := surface_sum (Finset.univ : Finset (Fin (n + 1))) (fun _ => 1)
      (fun i th ph => Y i th ph * (starRingEnd ℂ) (Y i th ph))
      (fun i => (hYc i).mul (continuous_conj.comp (hYc i))) B.tmin B.tmax B.pmin B.pmax
    simp only [one_mul, hsum, surface_self] at hc
    have hl : surface B.tmin B.tmax B.pmin B.pmax (fun _ _ => ((L ^ 2 / (4 * Real.pi) : ℝ) : ℂ)) =
        ((L ^ 2 / (4 * Real.pi) * ((B.pmax - B.pmin) * (Real.cos B.tmin - Real.cos B.tmax)) : ℝ) : ℂ) := by
      simp only [surface]
      rw [intervalIntegral.integral_const, intervalIntegral.integral_const_mul, intervalIntegral.integral_ofReal,
        integral_sin]
      simp only [real_smul]
      push_cast
      ring
    rw [hl] at hc
    rw [← hc] at htr
    exact_mod_cast htr
  · rw [← hen p]
    exact surfaceEnergy_nonneg hB0.1 b2 hB1.2 b4 _
  · have htot : surfaceEnergy 0 Real.pi 0 (2 * Real.pi) (s p) = 1 := by
      have := hwhole p p
      rw [surface_self, if_pos rfl] at this
      exact_mod_cast this
    refine ⟨?_, ?_⟩
    · rw [← hen p, ← htot]
      exact surfaceEnergy_mono hB0.1 b2 hB1.2 b4 b5 b6 (hsc p)
    · change e p = surfaceEnergy B.tmin B.tmax B.pmin B.pmax (s p) / surfaceEnergy 0 Real.pi 0 (2 * Real.pi) (s p)
      rw [htot, div_one, hen p]

/-- C50 is violated for regions whose longitudes are in the wrong order, which `Region` accepts: whatever the bandlimit,
some eigenvalue is negative. -/
theorem C50_lat_lon_inverted_violation :
    (∃ a r, Region.mk a = .ok r ∧ r.regionType = "lim_lat_lon" ∧ a.phiMax < a.phiMin ∧ a.thetaMin < a.thetaMax) ∧
    ∀ (L : ℕ) (n : ℕ), n + 1 = L ^ 2 → ∀ (B : Bounds) (dl : Table) (we : ℕ → Option Err) (K : Mat), IsWigner L dl →
      CreatesK L B dl we (.ok K) → ∀ (w : Fin (n + 1) → ℂ) (V : Fin (n + 1) → Fin (n + 1) → ℂ),
      IsEigh (fun r c : Fin (n + 1) => K r c) w V → ∀ (e : Fin (n + 1) → ℝ) (S : Fin (n + 1) → Fin (n + 1) → ℂ),
      CleansLatLon w V e S → B.pmax < B.pmin → 0 ≤ B.tmin → B.tmin < B.tmax → B.tmax ≤ Real.pi → ∃ p, e p < 0 := by
  have hpi := Real.pi_pos
  constructor
  · let a : Region.Args := { phiMin := Real.pi, phiMax := Real.pi / 2 }
    have ho : OtherAngle a := Or.inl (by simp [a, hpi.ne'])
    have hr : AnglesInRange a := by
      refine ⟨⟨?_, ?_⟩, ⟨?_, ?_⟩, ⟨?_, ?_⟩, ⟨?_, ?_⟩⟩ <;> simp only [a] <;> linarith
    obtain ⟨r, h1, -, h2⟩ := ((C09_classification a).2 hr).2.1 ho
    exact ⟨a, r, h1, h2, by simp only [a]; linarith, by simpa [a] using hpi⟩
  · intro L n hn B dl we K hdl h w V hD e S hS b1 b2 b3 b4
    obtain ⟨-, -, -, htr, -⟩ := C50_lat_lon_energy_ratio L n hn B dl hdl ⟨b2, b3.le.trans b4⟩ ⟨b2.trans b3.le, b4⟩ we K h w V hD
      e S hS
    by_contra hneg
    push Not at hneg
    have h0 : 0 ≤ ∑ p, e p := Finset.sum_nonneg fun p _ => hneg p
    have hcos := Real.cos_lt_cos_of_nonneg_of_le_pi b2 b4 b3
    have hL : (0 : ℝ) < L ^ 2 := by
      have : 0 < L ^ 2 := by omega
      exact_mod_cast this
    have : L ^ 2 / (4 * Real.pi) * ((B.pmax - B.pmin) * (Real.cos B.tmin - Real.cos B.tmax)) < 0 :=
      mul_neg_of_pos_of_neg (by positivity) (mul_neg_of_neg_of_pos (by linarith) (by linarith))
    linarith

/-- all hypotheses of the theorems are met together for every bandlimit and all bounds. -/
example (L : ℕ) (hL : 1 ≤ L) (B : Bounds) (hB0 : B.tmin ∈ Set.Icc 0 Real.pi) (hB1 : B.tmax ∈ Set.Icc 0 Real.pi) :
    ∃ (n : ℕ) (_ : n + 1 = L ^ 2) (dl : Table) (we : ℕ → Option Err) (K : Mat) (w : Fin (n + 1) → ℂ)
      (V : Fin (n + 1) → Fin (n + 1) → ℂ) (e : Fin (n + 1) → ℝ) (S : Fin (n + 1) → Fin (n + 1) → ℂ),
      IsWigner L dl ∧ CreatesK L B dl we (.ok K) ∧ IsEigh (fun r c : Fin (n + 1) => K r c) w V ∧ CleansLatLon w V e S := by
  have hpos : 0 < L ^ 2 := by positivity
  obtain ⟨we, K, h⟩ := C49_run_exists L hL B (wignerTable L) (k := 2) (fun t => if t = 0 then List.range L else [])
    (by
      unfold Distributes
      rw [show List.finRange 2 = [0, 1] from rfl]
      simp)
  obtain ⟨-, K', h1, h2⟩ := C49_matrix_of_spherical_harmonics L hL B _ (isWigner_wignerTable L) hB0 hB1 we _ h
  injection h1 with h1
  subst h1
  have hK : ∀ a b : Fin (L ^ 2 - 1 + 1), (starRingEnd ℂ) (K a b) = K b a := by
    intro a b
    have key : ∀ a b : Fin (L ^ 2 - 1 + 1), K a b = surface B.tmin B.tmax B.pmin B.pmax fun th ph =>
        sphHarm (ind2elm a).1 (ind2elm a).2 th ph * (starRingEnd ℂ) (sphHarm (ind2elm b).1 (ind2elm b).2 th ph) := by
      intro a b
      have := h2 (ind2elm a).1 (ind2elm b).1 (ind2elm a).2 (ind2elm b).2 (ind2elm_fst_lt (by omega))
        (ind2elm_fst_lt (by omega)) (ind2elm_abs_le _) (ind2elm_abs_le _)
      rw [elm2ind_ind2elm, elm2ind_ind2elm] at this
      exact this
    rw [key, key, conj_surface]
  obtain ⟨w, V, hE⟩ := exists_eigh (fun r c : Fin (L ^ 2 - 1 + 1) => K r c) hK
  exact ⟨L ^ 2 - 1, by omega, _, we, K, w, V, _, _, isWigner_wignerTable L, h, hE,
    Tuple.sort (fun k => (w k).re), Tuple.monotone_sort _, rfl⟩

end Sleplet.Props
