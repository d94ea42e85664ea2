import Verif.Lemmas.ClenshawCurtis
import Verif.Lemmas.SphHarm
import Verif.Lemmas.HarmonicIndex

/-!
Spherical harmonics on the sampling grid: with the exact quadrature they are orthonormal.
-/
namespace Sleplet.GridHarmonics

open Sleplet.Integration Sleplet.ClenshawCurtis Sleplet.Gaunt Sleplet.Spec Complex

theorem phi_eq {L : ℕ} (h : 1 ≤ L) (x : Grid L) : phi x = (x.2 : ℕ) * (Real.pi / L) := by
  have hx := x.2.isLt
  have : (L : ℝ) ≠ 0 := by positivity
  simp only [phi, phis, List.getD_eq_getElem?_getD, List.getElem?_map, List.getElem?_range hx, Option.map_some,
    Option.getD_some]
  field_simp

/-- longitudes: sums of a character. -/
theorem sum_exp {N : ℕ} (h : 1 ≤ N) (k : ℤ) (hk : |k| < 2 * N) :
    ∑ p : Fin (2 * N), exp ((k : ℂ) * I * (((p : ℕ) * (Real.pi / N) : ℝ) : ℂ)) = if k = 0 then ((2 * N : ℕ) : ℂ) else 0 := by
  split
  · rename_i h0; subst h0; simp
  · rename_i h0
    have hN : (N : ℂ) ≠ 0 := by exact_mod_cast (by omega : N ≠ 0)
    rw [Fin.sum_univ_eq_sum_range (fun p : ℕ => exp ((k : ℂ) * I * ((p * (Real.pi / N) : ℝ) : ℂ)))]
    set z : ℂ := exp ((k : ℂ) * I * ((Real.pi / N : ℝ) : ℂ)) with hz
    have e : ∀ p : ℕ, exp ((k : ℂ) * I * ((p * (Real.pi / N) : ℝ) : ℂ)) = z ^ p := by
      intro p
      rw [hz, ← exp_nat_mul]
      congr 1; push_cast; ring
    simp only [e]
    have hz1 : z ≠ 1 := by
      intro hh
      rw [hz, exp_eq_one_iff] at hh
      obtain ⟨n, hn⟩ := hh
      have hpi : (Real.pi : ℂ) ≠ 0 := by exact_mod_cast Real.pi_ne_zero
      have : (k : ℂ) = 2 * N * n := by
        push_cast at hn
        have h2 : (k : ℂ) * I * Real.pi = n * (2 * Real.pi * I) * N := by
          rw [← hn]; field_simp
        have h3 : (k : ℂ) * (I * Real.pi) = (2 * N * n) * (I * Real.pi) := by linear_combination h2
        exact mul_right_cancel₀ (mul_ne_zero I_ne_zero hpi) h3
      have hkz : k = 2 * N * n := by exact_mod_cast this
      rw [hkz, abs_mul] at hk
      have hn0 : n ≠ 0 := by rintro rfl; simp at hkz; exact h0 hkz
      have : (1 : ℤ) ≤ |n| := Int.one_le_abs hn0
      rw [abs_of_nonneg (by positivity)] at hk
      nlinarith
    rw [geom_sum_eq hz1]
    have : z ^ (2 * N) = 1 := by
      rw [hz, ← exp_nat_mul, exp_eq_one_iff]
      exact ⟨k, by push_cast; field_simp⟩
    rw [this]; simp

/-- the quadrature that is exact for the products of two functions of bandlimit `M` sampled at bandlimit `2M`. -/
noncomputable def exactWeight (M : ℕ) (x : Grid (2 * M)) : ℝ :=
  (if (x.1 : ℕ) = 0 ∨ (x.1 : ℕ) = 2 * M then 1 / 2 else 1) * (2 / (2 * M : ℕ) * S M ((x.1 : ℕ) * (Real.pi / (2 * M : ℕ)))) *
    (Real.pi / (2 * M : ℕ))

theorem weight_le_exactWeight {M : ℕ} (h : 1 ≤ M) (x : Grid (2 * M)) :
    weight (2 * M) x ≤ 4 / 3 * exactWeight M x ∧ 0 ≤ exactWeight M x := by
  obtain ⟨a, b⟩ := weight_le h x.1 (Nat.lt_succ_iff.mp x.1.isLt)
  have hp : 0 ≤ Real.pi / (2 * M : ℕ) := by positivity
  rw [weight_eq (by omega)]
  constructor
  · have := mul_le_mul_of_nonneg_right a hp
    unfold exactWeight
    linarith
  · exact mul_nonneg b hp

theorem thetaPart_mul_int {el p : ℕ} {m : ℤ} (h1 : |m| ≤ el) (h2 : |m| ≤ p) :
    ∃ r : Polynomial ℝ, r.natDegree ≤ el + p ∧ ∀ th, thetaPart el m th * thetaPart p m th = r.eval (Real.cos th) := by
  have a : m.natAbs ≤ el := by rw [abs_le] at h1; omega
  have b : m.natAbs ≤ p := by rw [abs_le] at h2; omega
  refine ⟨Polynomial.C (Real.sqrt ((2 * el + 1) / (4 * Real.pi)) * Real.sqrt ((2 * p + 1) / (4 * Real.pi)) *
      (-1) ^ m.natAbs / (2 ^ (el + p) * ((el.factorial : ℝ) * p.factorial)) *
      (Real.sqrt (((el - m.natAbs).factorial : ℝ) / ((el + m.natAbs).factorial : ℝ)) *
        Real.sqrt (((p + m.natAbs).factorial : ℝ) / ((p - m.natAbs).factorial : ℝ)))) * prodP m.natAbs el p,
    (Polynomial.natDegree_C_mul_le _ _).trans (natDegree_prodP a b), fun th => ?_⟩
  rw [Polynomial.eval_mul, Polynomial.eval_C, ← thetaPart_mul a b, thetaPart_int h1, thetaPart_int h2]
  split
  · have : ((-1 : ℝ)) ^ m.natAbs * (-1) ^ m.natAbs = 1 := by rw [← mul_pow]; simp
    linear_combination (thetaPart el (m.natAbs : ℕ) th * thetaPart p (m.natAbs : ℕ) th) * this
  · ring

/-- sampled harmonics are orthonormal for the exact quadrature. -/
theorem gram {M l p : ℕ} {m k : ℤ} (hl : l < M) (hp : p < M) (h1 : |m| ≤ l) (h2 : |k| ≤ p) :
    ∑ x : Grid (2 * M), sphHarm l m (theta x) (phi x) * (starRingEnd ℂ) (sphHarm p k (theta x) (phi x)) * (exactWeight M x : ℂ) =
      if l = p ∧ m = k then 1 else 0 := by
  have hM : 1 ≤ 2 * M := by omega
  rw [← sphHarm_orthonormal h1 h2, surface_sphHarm, Fintype.sum_prod_type]
  have hm : |m - k| < 2 * ((2 * M : ℕ) : ℤ) := by
    rw [abs_le] at h1 h2
    rw [abs_lt]; push_cast; omega
  have e : ∀ (t : Fin (2 * M + 1)), ∑ q : Fin (2 * (2 * M)), sphHarm l m (theta (t, q)) (phi (t, q)) *
      (starRingEnd ℂ) (sphHarm p k (theta (t, q)) (phi (t, q))) * (exactWeight M (t, q) : ℂ) =
      (if m = k then ((2 * (2 * M) : ℕ) : ℂ) else 0) * ((thetaPart l m ((t : ℕ) * (Real.pi / (2 * M : ℕ))) *
        thetaPart p k ((t : ℕ) * (Real.pi / (2 * M : ℕ))) * exactWeight M (t, ⟨0, by omega⟩) : ℝ) : ℂ) := by
    intro t
    simp only [sphHarm_mul_conj, theta_eq hM, phi_eq hM]
    have hw : ∀ q, exactWeight M (t, q) = exactWeight M (t, ⟨0, by omega⟩) := fun q => rfl
    simp only [hw, mul_assoc]
    rw [← Finset.sum_mul]
    have := sum_exp hM (m - k) hm
    simp only [mul_assoc] at this
    rw [this]
    by_cases hmk : m = k
    · rw [if_pos (by omega), if_pos hmk]; push_cast; ring
    · rw [if_neg (by omega), if_neg hmk]; simp
  rw [Finset.sum_congr rfl fun t _ => e t, ← Finset.mul_sum]
  by_cases hmk : m = k
  · subst hmk
    rw [if_pos rfl, if_pos rfl, ← ofReal_sum]
    obtain ⟨r, hr, hev⟩ := thetaPart_mul_int (p := p) h1 h2
    have hq := quad_poly (M := M) hM le_rfl r (by omega) (by omega)
    simp only [← hev] at hq
    rw [← hq, quad, trap_eq _ _ hM]
    rw [Finset.sum_range (fun t : ℕ => (if t = 0 ∨ t = 2 * M then (1 : ℝ) / 2 else 1) * (2 / (2 * M : ℕ) * S M (t * (Real.pi / (2 * M : ℕ))) *
      (thetaPart l m (t * (Real.pi / (2 * M : ℕ))) * thetaPart p m (t * (Real.pi / (2 * M : ℕ))))))]
    have hMc : (M : ℂ) ≠ 0 := by exact_mod_cast (by omega : M ≠ 0)
    have hMr : (M : ℝ) ≠ 0 := by exact_mod_cast (by omega : M ≠ 0)
    norm_cast
    rw [Finset.mul_sum, Finset.mul_sum]
    refine Finset.sum_congr rfl fun t _ => ?_
    unfold exactWeight
    push_cast
    field_simp
    have ht : t = 0 ↔ (t : ℕ) = 0 := by rw [Fin.ext_iff]; rfl
    simp only [ht]
    ring
  · rw [if_neg hmk, if_neg hmk]; simp

end Sleplet.GridHarmonics
