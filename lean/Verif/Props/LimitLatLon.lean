import Verif.Lemmas.Surface
import Verif.Lemmas.WignerD

/-!
C49: the concentration matrix of a limited latitude/longitude region.
-/
namespace Sleplet.Props

open Complex Sleplet.LatLon Sleplet.Spec

/-- the values of the table the way the code addresses them: `dl[l, N + a, N + b]` with `N = L - 1`. -/
def wignerAt (L : ℕ) (dl : Table) : ℕ → ℤ → ℤ → ℝ :=
  fun l a b => dl l ((L : ℤ) - 1 + a).toNat ((L : ℤ) - 1 + b).toNat

/-- C49, sub-integrals.  For every bandlimit and every four angles the construction does not raise, and the element at
offset `(row, col)` from the centre is the product of the exact integrals of `e^{i row φ}` and `e^{i col θ} sin θ`, for
every offset between `-2(L-1)` and `2(L-1)`, `col = ±1` and `row = 0` included. -/
theorem C49_sub_integrals (L : ℕ) (hL : 1 ≤ L) (B : Bounds) : ∃ G, slepianIntegral L B = .ok G ∧
    ∀ row col : ℤ, |row| ≤ 2 * (L - 1) → |col| ≤ 2 * (L - 1) →
      G (2 * (L - 1) + row).toNat (2 * (L - 1) + col).toNat =
        (∫ th in B.tmin..B.tmax, exp (I * col * th) * Real.sin th) * ∫ ph in B.pmin..B.pmax, exp (I * row * ph) :=
  slepianIntegral_ok hL B

/-- C49.  For every bandlimit, region and table, every number of threads, distribution of the degrees and interleaving: no
access is out of bounds, and the entry of the matrix for `(l, m)`, `(p, q)` is the integral of `Y_lm conj(Y_pq)` over the
region, on and on both sides of the diagonal. -/
theorem C49_matrix_is_surface_integral (L : ℕ) (hL : 1 ≤ L) (B : Bounds) (dl : Table) (we : ℕ → Option Err)
    (r : Except Err Mat) (h : CreatesK L B dl we r) :
    (∀ t, we t = none) ∧ ∃ K, r = .ok K ∧ ∀ (l p : ℕ) (m q : ℤ), l < L → p < L → |m| ≤ l → |q| ≤ p →
      K (elm2ind l m) (elm2ind p q) = ∫ ph in B.pmin..B.pmax, ∫ th in B.tmin..B.tmax,
        harmonic (wignerAt L dl) l m th ph * (starRingEnd ℂ) (harmonic (wignerAt L dl) p q th ph) * Real.sin th := by
  obtain ⟨G, hG, hval⟩ := slepianIntegral_ok hL B
  cases h with
  | integralFails e he => rw [hG] at he; cases he
  | run G' hG' _ K hK =>
    rw [hG] at hG'
    injection hG' with hG'
    subst hG'
    obtain ⟨hwe, hK⟩ := slepianMatrix_ok hK
    have low : ∀ (l p : ℕ) (m q : ℤ), l < L → p ≤ l → |m| ≤ l → |q| ≤ p → K (elm2ind l m) (elm2ind p q) =
        surface B.tmin B.tmax B.pmin B.pmax fun th ph =>
          harmonic (wignerAt L dl) l m th ph * (starRingEnd ℂ) (harmonic (wignerAt L dl) p q th ph) := by
      intro l p m q hl hp hm hq
      rw [hK l p m q hl hp hm hq, surface_harmonics, entryVal, mul_comm]
      congr 1
      refine Finset.sum_congr rfl fun mp hmp => ?_
      unfold termVal
      rw [Finset.mul_sum]
      refine Finset.sum_congr rfl fun qp hqp => ?_
      rw [Finset.mem_Icc] at hmp hqp
      rw [abs_le] at hm hq
      rw [hval (m - q) (mp - qp) (by rw [abs_le]; omega) (by rw [abs_le]; omega)]
      simp only [dAt, wignerAt]
      ring
    refine ⟨hwe, _, rfl, fun l p m q hl hp hm hq => ?_⟩
    unfold Arb.fillUpper
    split
    · rename_i hlt
      have hlp : l ≤ p := by
        by_contra hlp
        have h1 := (elm2ind_lt_sq hm l).not.2 (lt_irrefl l)
        have h2 := (elm2ind_lt_sq hq l).2 (by omega)
        omega
      rw [low p l q m hp hlp hq hm]
      unfold surface
      rw [conj_integral]
      congr 1
      funext ph
      rw [conj_integral]
      congr 1
      funext th
      simp only [map_mul, conj_conj, conj_ofReal]
      ring
    · rename_i hlt
      have hlp : p ≤ l := by
        by_contra hlp
        have h1 := (elm2ind_lt_sq hq p).not.2 (lt_irrefl p)
        have h2 := (elm2ind_lt_sq hm p).2 (by omega)
        omega
      exact low l p m q hl hlp hm hq

/-- the table holds, where the code reads it, Wigner's `d^l_{ab}(π/2)`: what `ssht.generate_dl(π/2, L)` is documented to return. -/
def IsWigner (L : ℕ) (dl : Table) : Prop :=
  ∀ l < L, ∀ a b : ℤ, |a| ≤ l → |b| ≤ l → wignerAt L dl l a b = wignerHalfPi l a b

/-- with such a table the harmonics are those of Rodrigues' formula. -/
theorem harmonic_table {L : ℕ} {dl : Table} (hdl : IsWigner L dl) {l : ℕ} {m : ℤ} (hl : l < L) (hm : |m| ≤ l) {th : ℝ}
    (h : th ∈ Set.Icc 0 Real.pi) (ph : ℝ) : harmonic (wignerAt L dl) l m th ph = sphHarm l m th ph := by
  rw [← Gaunt.harmonic_wigner hm h]
  unfold harmonic
  congr 2
  refine Finset.sum_congr rfl fun a ha => ?_
  rw [Finset.mem_Icc] at ha
  rw [hdl l hl a m (by rw [abs_le]; omega) hm, hdl l hl a 0 (by rw [abs_le]; omega) (by simp)]

/-- C49.  When the table holds the Wigner-d values and the colatitudes lie between `0` and `π`, in either order, the entry for
`(l, m)`, `(p, q)` is the integral over the region of the product of the spherical harmonics themselves, those of Rodrigues'
formula: `∫_R Y_lm conj(Y_pq)`. -/
theorem C49_matrix_of_spherical_harmonics (L : ℕ) (hL : 1 ≤ L) (B : Bounds) (dl : Table) (hdl : IsWigner L dl)
    (h0 : B.tmin ∈ Set.Icc 0 Real.pi) (h1 : B.tmax ∈ Set.Icc 0 Real.pi) (we : ℕ → Option Err)
    (r : Except Err Mat) (h : CreatesK L B dl we r) :
    (∀ t, we t = none) ∧ ∃ K, r = .ok K ∧ ∀ (l p : ℕ) (m q : ℤ), l < L → p < L → |m| ≤ l → |q| ≤ p →
      K (elm2ind l m) (elm2ind p q) = ∫ ph in B.pmin..B.pmax, ∫ th in B.tmin..B.tmax,
        sphHarm l m th ph * (starRingEnd ℂ) (sphHarm p q th ph) * Real.sin th := by
  obtain ⟨hwe, K, hr, hK⟩ := C49_matrix_is_surface_integral L hL B dl we r h
  refine ⟨hwe, K, hr, fun l p m q hl hp hm hq => ?_⟩
  rw [hK l p m q hl hp hm hq]
  congr 1
  funext ph
  refine intervalIntegral.integral_congr fun th hth => ?_
  have hth' : th ∈ Set.Icc 0 Real.pi := Set.uIcc_subset_Icc h0 h1 hth
  rw [harmonic_table hdl hl hm hth', harmonic_table hdl hp hq hth']

/-- the table made of the formula, for every bandlimit. -/
noncomputable def wignerTable (L : ℕ) : Table := fun l i j => wignerHalfPi l ((i : ℤ) - (L - 1)) ((j : ℤ) - (L - 1))

theorem isWigner_wignerTable (L : ℕ) : IsWigner L (wignerTable L) := by
  intro l hl a b ha hb
  rw [abs_le] at ha hb
  unfold wignerAt wignerTable
  congr 1 <;> omega

/-- C49: a bandlimit of zero is rejected when the table of sub-integrals is allocated. -/
theorem C49_zero_bandlimit (B : Bounds) (dl : Table) (we : ℕ → Option Err) (r : Except Err Mat) :
    CreatesK 0 B dl we r ↔ r = .error .valueError ∧ we = fun _ => none := by
  have h0 : slepianIntegral 0 B = .error .valueError := rfl
  constructor
  · intro h
    cases h with
    | integralFails e he => rw [h0] at he; injection he with he; subst he; exact ⟨rfl, rfl⟩
    | run G hG _ _ _ => rw [h0] at hG; cases hG
  · rintro ⟨rfl, rfl⟩
    exact .integralFails _ h0

/-- C49: runs exist for every region, table and number of threads. -/
theorem C49_run_exists (L : ℕ) (hL : 1 ≤ L) (B : Bounds) (dl : Table) {k : ℕ} (chunks : Fin k → List ℕ)
    (hc : Distributes L chunks) : ∃ we K, CreatesK L B dl we (.ok K) := by
  obtain ⟨G, hG, -⟩ := slepianIntegral_ok hL B
  obtain ⟨K, ts, h⟩ := exists_poolRun (fun t => (chunks t).flatMap (degreeActs L dl G)) 0 (fun _ _ => 0)
  exact ⟨_, _, .run G hG _ _ (.run k chunks hc K ts h)⟩

/-- two threads sharing three degrees. -/
example : Distributes 3 (k := 2) (fun t => if t = 0 then [2, 0] else [1]) := by
  unfold Distributes
  decide

/-- the Wigner-d values at `π/2` for degrees 0 and 1 (bandlimit 2): `d¹_{±1,0} = ∓1/√2`, `d¹_{00} = 0` and so on. -/
noncomputable def exampleTable : Table := fun l i j =>
  if l = 0 then (if i = 1 ∧ j = 1 then 1 else 0)
  else if i = 1 ∧ j = 1 then 0
  else if i = 1 then (if j = 0 then -(Real.sqrt 2)⁻¹ else (Real.sqrt 2)⁻¹)
  else if j = 1 then (if i = 0 then (Real.sqrt 2)⁻¹ else -(Real.sqrt 2)⁻¹)
  else 1 / 2

/-- the table above is the formula for bandlimit 2. -/
example : IsWigner 2 exampleTable := by
  intro l hl a b ha hb
  rw [abs_le] at ha hb
  have h4 : Real.sqrt 4 = 2 := by rw [show (4 : ℝ) = 2 ^ 2 by norm_num, Real.sqrt_sq (by norm_num)]
  have h2 : (Real.sqrt 2)⁻¹ = Real.sqrt 2 / 2 := by
    have := Real.mul_self_sqrt (show (0 : ℝ) ≤ 2 by norm_num)
    field_simp
    linarith
  interval_cases l
  · obtain rfl : a = 0 := by omega
    obtain rfl : b = 0 := by omega
    simp [wignerAt, exampleTable, wignerHalfPi]
  · have ha1 : a = -1 ∨ a = 0 ∨ a = 1 := by omega
    have hb1 : b = -1 ∨ b = 0 ∨ b = 1 := by omega
    have t2 : Int.toNat 2 = 2 := rfl
    rcases ha1 with rfl | rfl | rfl <;> rcases hb1 with rfl | rfl | rfl <;>
      norm_num [wignerAt, exampleTable, wignerHalfPi, Finset.sum_range_succ, Nat.factorial, h4, h2, t2] <;> ring_nf

/-- with the true table the functions `harmonic` are the spherical harmonics: `Y_00` and `Y_10`. -/
example (th ph : ℝ) : harmonic (wignerAt 2 exampleTable) 0 0 th ph = (Real.sqrt (1 / (4 * Real.pi)) : ℂ) ∧
    harmonic (wignerAt 2 exampleTable) 1 0 th ph = (Real.sqrt (3 / (4 * Real.pi)) : ℂ) * Real.cos th := by
  have h2 : ((Real.sqrt 2 : ℝ) : ℂ)⁻¹ * ((Real.sqrt 2 : ℝ) : ℂ)⁻¹ = 1 / 2 := by
    rw [← mul_inv, ← ofReal_mul, Real.mul_self_sqrt (by norm_num)]
    norm_num
  have hI : Finset.Icc (-1 : ℤ) 1 = {-1, 0, 1} := by decide
  constructor
  · simp [harmonic, wignerAt, exampleTable]
  · have e : (2 * ((1 : ℕ) : ℝ) + 1) / (4 * Real.pi) = 3 / (4 * Real.pi) := by norm_num
    unfold harmonic
    rw [e]
    simp only [Nat.cast_one, hI]
    rw [Finset.sum_insert (by decide), Finset.sum_insert (by decide), Finset.sum_singleton]
    simp [wignerAt, exampleTable, h2, ofReal_cos, Complex.cos]
    left
    ring_nf

end Sleplet.Props
