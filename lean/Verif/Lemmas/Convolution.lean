import Verif.Lemmas.Addition
import Verif.Lemmas.CapEnergy
import Verif.Spec.Convolution

/-!
Inner products of bandlimited fields on the sphere.
-/
namespace Sleplet.Gaunt

open Complex Sleplet.Spec Sleplet.LatLon

/-- the spherical harmonic of a position in the coefficients. -/
noncomputable def harm (i : ℕ) (th ph : ℝ) : ℂ := sphHarm (ind2elm i).1 (ind2elm i).2 th ph

theorem continuous_harm (i : ℕ) : Continuous fun x : ℝ × ℝ => harm i x.1 x.2 := continuous_sphHarm (ind2elm_abs_le i)

theorem index_eq {l : ℕ} {m : ℤ} (h : |m| ≤ l) : ((l : ℤ) ^ 2 + l + m).toNat = elm2ind l m := by
  have := elm2ind_cast h
  have h2 : (l : ℤ) ^ 2 = l * l := sq _
  omega

theorem sum_pairs_getD (L : ℕ) (c : List ℂ) (F : ℕ → ℤ → ℂ) :
    ∑ l ∈ Finset.range L, ∑ m ∈ Finset.Icc (-(l : ℤ)) l, c.getD ((l : ℤ) ^ 2 + l + m).toNat 0 * F l m =
      ∑ i : Fin (L ^ 2), c.getD i 0 * F (ind2elm i).1 (ind2elm i).2 := by
  have h1 : ∑ l ∈ Finset.range L, ∑ m ∈ Finset.Icc (-(l : ℤ)) l, c.getD ((l : ℤ) ^ 2 + l + m).toNat 0 * F l m =
      ∑ l ∈ Finset.range L, ∑ m ∈ Finset.Icc (-(l : ℤ)) l, c.getD (elm2ind l m) 0 * F l m := by
    refine Finset.sum_congr rfl fun l _ => Finset.sum_congr rfl fun m hm => ?_
    rw [Finset.mem_Icc] at hm
    rw [index_eq (abs_le.2 hm)]
  rw [h1, ← sum_pairs L fun l m => c.getD (elm2ind l m) 0 * F l m,
    Fin.sum_univ_eq_sum_range (fun i : ℕ => c.getD i 0 * F (ind2elm i).1 (ind2elm i).2)]
  exact Finset.sum_congr rfl fun i _ => by rw [elm2ind_ind2elm]

theorem synthesis_eq (L : ℕ) (c : List ℂ) (th ph : ℝ) : synthesis L c th ph = ∑ i : Fin (L ^ 2), c.getD i 0 * harm i th ph :=
  sum_pairs_getD L c fun l m => sphHarm l m th ph

theorem translated_eq (L : ℕ) (c : List ℂ) (th' ph' th ph : ℝ) :
    translated L c th' ph' th ph = ∑ i : Fin (L ^ 2), c.getD i 0 * (harm i th' ph' * harm i th ph) :=
  sum_pairs_getD L c fun l m => sphHarm l m th' ph' * sphHarm l m th ph

theorem harm_orthonormal (i j : ℕ) : sphereInner (harm i) (harm j) = if i = j then 1 else 0 := by
  have h := sphHarm_orthonormal (ind2elm_abs_le i) (ind2elm_abs_le j)
  unfold sphereInner harm
  rw [h]
  have : ((ind2elm i).1 = (ind2elm j).1 ∧ (ind2elm i).2 = (ind2elm j).2) ↔ i = j := by
    constructor
    · intro h
      rw [← elm2ind_ind2elm i, ← elm2ind_ind2elm j, h.1, h.2]
    · rintro rfl; exact ⟨rfl, rfl⟩
  simp only [this]

/-- Parseval. -/
theorem inner_sums {n : ℕ} (a b : Fin n → ℂ) :
    sphereInner (fun th ph => ∑ i : Fin n, a i * harm i th ph) (fun th ph => ∑ i : Fin n, b i * harm i th ph) =
      ∑ i, a i * (starRingEnd ℂ) (b i) := by
  unfold sphereInner
  rw [surface_synth (fun i : Fin n => harm i) (fun i => continuous_harm i)]
  refine Finset.sum_congr rfl fun r _ => ?_
  have : ∀ c : Fin n, surface 0 Real.pi 0 (2 * Real.pi) (fun th ph => harm c th ph * (starRingEnd ℂ) (harm r th ph)) * a c =
      if c = r then a c else 0 := by
    intro c
    have h := harm_orthonormal c r
    unfold sphereInner at h
    rw [h]
    by_cases hcr : c = r
    · simp [hcr]
    · have : (c : ℕ) ≠ r := fun h => hcr (Fin.ext h)
      simp [hcr, this]
  rw [Finset.sum_congr rfl fun c _ => this c]
  simp [mul_comm]

theorem inner_synthesis (L : ℕ) (c d : List ℂ) :
    sphereInner (synthesis L c) (synthesis L d) = ∑ i : Fin (L ^ 2), c.getD i 0 * (starRingEnd ℂ) (d.getD i 0) := by
  have h := inner_sums (fun i : Fin (L ^ 2) => c.getD i 0) (fun i : Fin (L ^ 2) => d.getD i 0)
  rw [← h]
  congr 1 <;> funext th ph <;> exact synthesis_eq L _ th ph

theorem cosAngle_mem (th ph th' ph' : ℝ) :
    Real.cos th * Real.cos th' + Real.sin th * Real.sin th' * Real.cos (ph - ph') ∈ Set.Icc (-1 : ℝ) 1 := by
  have h1 := Real.cos_sq_add_sin_sq th
  have h2 := Real.cos_sq_add_sin_sq th'
  have h3 := Real.neg_one_le_cos (ph - ph')
  have h4 := Real.cos_le_one (ph - ph')
  have h5 := Real.neg_one_le_cos (th - th')
  have h6 := Real.cos_le_one (th - th')
  have h7 := Real.neg_one_le_cos (th + th')
  have h8 := Real.cos_le_one (th + th')
  rw [Real.cos_sub] at h5 h6
  rw [Real.cos_add] at h7 h8
  rw [Set.mem_Icc]
  rcases le_total 0 (Real.sin th * Real.sin th') with h | h <;> constructor <;> nlinarith

theorem cos_angle (th ph th' ph' : ℝ) :
    Real.cos (angle th ph th' ph') = Real.cos th * Real.cos th' + Real.sin th * Real.sin th' * Real.cos (ph - ph') := by
  have h := cosAngle_mem th ph th' ph'
  exact Real.cos_arccos h.1 h.2

theorem sphHarm_zonal (l : ℕ) (th ph : ℝ) :
    sphHarm l 0 th ph = ((Real.sqrt ((2 * l + 1) / (4 * Real.pi)) * assocLegendre l 0 (Real.cos th) : ℝ) : ℂ) := by
  have h : (l.factorial : ℝ) / (l.factorial : ℝ) = 1 := div_self (by positivity)
  unfold sphHarm
  simp [h]

/-- an axisymmetric field moved to a point. -/
theorem centredAt_eq (L : ℕ) (c : List ℂ) (hc : ∀ (l : ℕ) (m : ℤ), l < L → |m| ≤ l → m ≠ 0 → c.getD (elm2ind l m) 0 = 0)
    {th th' : ℝ} (h : th ∈ Set.Icc 0 Real.pi) (h' : th' ∈ Set.Icc 0 Real.pi) (ph ph' : ℝ) :
    centredAt (synthesis L c) th ph th' ph' = ∑ i : Fin (L ^ 2),
      (c.getD (elm2ind (ind2elm i).1 0) 0 * (Real.sqrt (4 * Real.pi / (2 * ((ind2elm i).1 : ℝ) + 1)) : ℝ)) *
        ((starRingEnd ℂ) (harm i th ph) * harm i th' ph') := by
  unfold centredAt
  have h1 : synthesis L c (angle th ph th' ph') 0 = ∑ l ∈ Finset.range L, c.getD (elm2ind l 0) 0 * sphHarm l 0 (angle th ph th' ph') 0 := by
    unfold synthesis
    refine Finset.sum_congr rfl fun l hl => ?_
    rw [Finset.mem_range] at hl
    rw [Finset.sum_eq_single 0]
    · rw [index_eq (by simp)]
    · intro m hm hm0
      rw [Finset.mem_Icc] at hm
      rw [index_eq (abs_le.2 hm), hc l m hl (abs_le.2 hm) hm0, zero_mul]
    · intro hn; exact absurd (Finset.mem_Icc.2 ⟨by omega, by omega⟩) hn
  rw [h1, Fin.sum_univ_eq_sum_range (fun i : ℕ =>
      (c.getD (elm2ind (ind2elm i).1 0) 0 * (Real.sqrt (4 * Real.pi / (2 * ((ind2elm i).1 : ℝ) + 1)) : ℝ)) *
        ((starRingEnd ℂ) (harm i th ph) * harm i th' ph'))]
  simp only [harm]
  rw [sum_pairs L fun l m => (c.getD (elm2ind l 0) 0 * (Real.sqrt (4 * Real.pi / (2 * (l : ℝ) + 1)) : ℝ)) *
        ((starRingEnd ℂ) (sphHarm l m th ph) * sphHarm l m th' ph')]
  refine Finset.sum_congr rfl fun l _ => ?_
  rw [← Finset.mul_sum]
  have h2 := sphHarm_addition l h' h ph' ph
  rw [Finset.sum_congr rfl fun m _ => mul_comm ((starRingEnd ℂ) (sphHarm l m th ph)) (sphHarm l m th' ph'), h2, sphHarm_zonal, cos_angle]
  have h3 : Real.cos th' * Real.cos th + Real.sin th' * Real.sin th * Real.cos (ph' - ph) =
      Real.cos th * Real.cos th' + Real.sin th * Real.sin th' * Real.cos (ph - ph') := by
    rw [← Real.cos_neg (ph' - ph), neg_sub]; ring
  rw [h3]
  have h4 : Real.sqrt (4 * Real.pi / (2 * (l : ℝ) + 1)) * ((2 * l + 1) / (4 * Real.pi)) = Real.sqrt ((2 * l + 1) / (4 * Real.pi)) :=
    sqrt_div_mul (by positivity) (by positivity)
  have h5 : ((Real.sqrt (4 * Real.pi / (2 * (l : ℝ) + 1)) : ℝ) : ℂ) * (((2 * l + 1) / (4 * Real.pi) : ℝ) : ℂ) =
      ((Real.sqrt ((2 * l + 1) / (4 * Real.pi)) : ℝ) : ℂ) := by rw [← ofReal_mul, h4]
  rw [ofReal_mul, ofReal_mul, ← h5]
  ring

theorem angle_comm (th ph th' ph' : ℝ) : angle th ph th' ph' = angle th' ph' th ph := by
  unfold angle
  rw [← Real.cos_neg (ph - ph'), neg_sub]
  congr 1
  ring

theorem sphereInner_congr {f f' g g' : ℝ → ℝ → ℂ} (hf : ∀ th ∈ Set.Icc 0 Real.pi, ∀ ph, f th ph = f' th ph)
    (hg : ∀ th ∈ Set.Icc 0 Real.pi, ∀ ph, g th ph = g' th ph) : sphereInner f g = sphereInner f' g' := by
  unfold sphereInner surface
  congr 1
  funext ph
  refine intervalIntegral.integral_congr fun th hth => ?_
  rw [Set.uIcc_of_le Real.pi_pos.le] at hth
  dsimp only
  rw [hf th hth, hg th hth]

theorem sphHarm_north {l : ℕ} {m : ℤ} (ph : ℝ) :
    sphHarm l m 0 ph = if m = 0 then ((Real.sqrt ((2 * l + 1) / (4 * Real.pi)) : ℝ) : ℂ) else 0 := by
  by_cases h : m = 0
  · subst h
    rw [sphHarm_zonal, Real.cos_zero, if_pos rfl]
    have h1 : assocLegendre l 0 1 = 1 := by
      rw [legendre_eq, Finset.sum_eq_single 0]
      · norm_num
      · intro j _ hj; rw [sub_self, zero_div, zero_pow hj]; ring
      · intro h; simp at h
    rw [h1, mul_one]
  · rw [if_neg h]
    unfold sphHarm assocLegendre
    simp [zero_zpow _ h]

end Sleplet.Gaunt
