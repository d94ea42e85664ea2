import Mathlib.Tactic.LinearCombination
import Verif.Lemmas.NoisePower
import Verif.Lemmas.Thresholding
import Verif.Lemmas.Wavelets
import Verif.Model.Denoising
import Verif.Spec.Denoising

namespace Sleplet.Denoising

open Complex NumPy Noise Wavelets Spec

theorem sqrt_block {l t : ℕ} (h : t < 2 * l + 1) : Nat.sqrt (l ^ 2 + t) = l := by
  rw [sq, Nat.sqrt_add_eq l (by omega)]

theorem sqrt_elm2ind {l : ℕ} {m : ℤ} (h : |m| ≤ l) : Nat.sqrt (elm2ind l m) = l := by
  rw [abs_le] at h
  have := elm2ind_block l (m + l).toNat
  rw [show (((m + l).toNat : ℤ) - l) = m by omega] at this
  rw [this, sqrt_block (by omega)]

theorem performHardThresholding_eq {Pix : Type} (f : Pix → ℂ) (s : Pix → ℝ) (n : ℤ) :
    Thresholding.performHardThresholding f s n = clipBelow f fun x => n * s x := by
  classical
  funext x
  unfold Thresholding.performHardThresholding clipBelow
  by_cases h : ‖f x‖ < (n : ℝ) * s x
  · rw [if_pos h, if_neg (not_le.2 h)]
  · rw [if_neg h, if_pos (not_lt.1 h)]

theorem getD_byDegree {L : ℕ} (k : List ℝ) (c : List ℂ) {i : ℕ} (h : i < L ^ 2) :
    (byDegree L k c).getD i 0 = (k.getD (Nat.sqrt i) 0 : ℂ) * c.getD i 0 := by
  simp [byDegree, List.getD_eq_getElem?_getD, h]

@[simp] theorem length_byDegree (L : ℕ) (k : List ℝ) (c : List ℂ) : (byDegree L k c).length = L ^ 2 := by
  simp [byDegree]

/-- the coefficients of an axisymmetric wavelet. -/
noncomputable def zonal (L : ℕ) (k : List ℝ) : List ℂ :=
  (List.range (L ^ 2)).map fun i => if i = Nat.sqrt i ^ 2 + Nat.sqrt i then
    (Real.sqrt ((2 * (Nat.sqrt i : ℝ) + 1) / (4 * Real.pi)) : ℂ) * (k.getD (Nat.sqrt i) 0 : ℂ) else 0

theorem elm2ind_lt {L l : ℕ} {m : ℤ} (h : l < L) (hm : |m| ≤ l) : elm2ind l m < L ^ 2 :=
  elm2ind_lt_of_sq hm (Nat.pow_le_pow_left (by omega) 2)

@[simp] theorem length_zonal (L : ℕ) (k : List ℝ) : (zonal L k).length = L ^ 2 := by simp [zonal]

theorem getD_zonal {L : ℕ} (k : List ℝ) {l : ℕ} {m : ℤ} (h : l < L) (hm : |m| ≤ l) :
    (zonal L k).getD (elm2ind l m) 0 =
      if m = 0 then (Real.sqrt ((2 * (l : ℝ) + 1) / (4 * Real.pi)) : ℂ) * (k.getD l 0 : ℂ) else 0 := by
  have hlt := elm2ind_lt h hm
  simp only [zonal, List.getD_eq_getElem?_getD, List.getElem?_map, List.getElem?_range hlt, Option.map_some, Option.getD_some,
    sqrt_elm2ind hm]
  have hz : elm2ind l m = l ^ 2 + l ↔ m = 0 := by
    rw [← elm2ind_zero, elm2ind_inj hm (by simp)]
    tauto
  by_cases h0 : m = 0
  · rw [if_pos (hz.2 h0), if_pos h0]
  · rw [if_neg (fun h => h0 (hz.1 h)), if_neg h0]

theorem axisymRow_eq (L : ℕ) (k : List ℝ) (hk : L ≤ k.length) : axisymRow L k = .ok (zonal L k) := by
  obtain ⟨w, h1, h2, h3⟩ := axisymRow_ok L k hk
  rw [h1]
  congr 1
  exact ext_of_pairs h2 (by simp) fun l m hl hm => by rw [h3 l m hl hm, getD_zonal k hl hm]

theorem unit_product (l : ℕ) :
    ((Real.sqrt (4 * Real.pi / (2 * (l : ℝ) + 1)) : ℂ)) * (Real.sqrt ((2 * (l : ℝ) + 1) / (4 * Real.pi)) : ℂ) = 1 := by
  rw [← ofReal_mul, ← Real.sqrt_mul (by positivity)]
  have : 4 * Real.pi / (2 * (l : ℝ) + 1) * ((2 * (l : ℝ) + 1) / (4 * Real.pi)) = 1 := by
    have := Real.pi_ne_zero
    have : (2 * (l : ℝ) + 1) ≠ 0 := by positivity
    field_simp
  rw [this]
  simp

theorem forwardRow_eq (L : ℕ) (flm : List ℂ) (hf : flm.length = L ^ 2) (k : List ℝ) :
    forwardRow L flm (zonal L k) = .ok (byDegree L k flm) := by
  obtain ⟨w, h1, h2, h3⟩ := forwardRow_ok L flm (zonal L k) hf (by simp)
  rw [h1]
  congr 1
  refine ext_of_pairs h2 (by simp) fun l m hl hm => ?_
  rw [h3 l m hl hm, getD_zonal k hl (by simp), if_pos rfl, getD_byDegree _ _ (elm2ind_lt hl hm), sqrt_elm2ind hm]
  simp only [map_mul, conj_ofReal]
  linear_combination (k.getD l 0 : ℂ) * flm.getD (elm2ind l m) 0 * unit_product l

theorem ext_getD {n : ℕ} {a b : List ℂ} (ha : a.length = n) (hb : b.length = n) (h : ∀ i < n, a.getD i 0 = b.getD i 0) : a = b := by
  apply List.ext_getElem (by rw [ha, hb])
  intro i h1 h2
  have := h i (by omega)
  simpa [List.getD_eq_getElem?_getD, h1, h2] using this

theorem axisymInverse_eq (L : ℕ) (wc : List (List ℂ)) (ks : List (List ℝ)) (hlen : wc.length = ks.length)
    (hc : ∀ r ∈ wc, r.length = L ^ 2) :
    axisymInverse L wc (ks.map (zonal L)) = .ok ((List.range (L ^ 2)).map fun i =>
      (List.zipWith (fun c k => ((List.getD k (Nat.sqrt i) 0 : ℝ) : ℂ) * List.getD c i 0) wc ks).sum) := by
  obtain ⟨flm, h1, h2, h3⟩ := axisymInverse_ok L wc (ks.map (zonal L)) (by simp [hlen]) hc (by simp)
  rw [h1]
  congr 1
  refine ext_of_pairs h2 (by simp) fun l m hl hm => ?_
  rw [h3 l m hl hm, List.zipWith_map_right]
  have hlt := elm2ind_lt hl hm
  simp only [getD_zonal _ hl (show |(0 : ℤ)| ≤ l by simp), if_true, List.getD_eq_getElem?_getD (l := List.map _ _), List.getElem?_map,
    List.getElem?_range hlt, Option.map_some, Option.getD_some, sqrt_elm2ind hm]
  congr 2
  funext c k
  linear_combination (k.getD l 0 : ℂ) * c.getD (elm2ind l m) 0 * unit_product l

/-- the squared magnitudes of a wavelet. -/
theorem energy_zonal (L : ℕ) (k : List ℝ) :
    ((zonal L k).map fun x => ‖x‖ ^ 2).sum = ∑ l ∈ Finset.range L, (2 * (l : ℝ) + 1) / (4 * Real.pi) * k.getD l 0 ^ 2 := by
  rw [list_sum_eq (zonal L k) (fun x => ‖x‖ ^ 2), length_zonal, sum_sq_blocks]
  refine Finset.sum_congr rfl fun l hl => ?_
  rw [Finset.mem_range] at hl
  have hv : ∀ t ∈ Finset.range (2 * l + 1), ‖(zonal L k).getD (l ^ 2 + t) 0‖ ^ 2 =
      if t = l then (2 * (l : ℝ) + 1) / (4 * Real.pi) * k.getD l 0 ^ 2 else 0 := by
    intro t ht
    rw [Finset.mem_range] at ht
    rw [← elm2ind_block, getD_zonal k hl (by rw [abs_le]; omega)]
    by_cases h : t = l
    · subst h
      simp only [sub_self, if_true, norm_mul, mul_pow, norm_real, Real.norm_eq_abs, sq_abs]
      rw [Real.sq_sqrt (by positivity)]
    · rw [if_neg (by omega), if_neg h]
      simp
  rw [Finset.sum_congr rfl hv, Finset.sum_ite_eq' , if_pos (by simp; omega)]

end Sleplet.Denoising
