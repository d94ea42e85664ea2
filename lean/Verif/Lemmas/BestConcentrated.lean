import Mathlib.Analysis.InnerProductSpace.PiL2
import Mathlib.Tactic.Linarith
import Verif.Spec.BestConcentrated

/-! A basis that is orthonormal for one form and orthogonal for another, in order, solves the concentration problem. -/
namespace Sleplet

open Spec

/-- weights between zero and one adding up to `k` put at most the first `k` numbers together. -/
theorem weighted_le {n : ℕ} (e A : Fin n → ℝ) (he : Antitone e) (h0 : ∀ p, 0 ≤ A p) (h1 : ∀ p, A p ≤ 1) (k : ℕ) (hk : ∑ p, A p = k) :
    ∑ p, e p * A p ≤ ∑ p : Fin n with p.val < k, e p := by
  by_cases hkn : k < n
  · set t := e ⟨k, hkn⟩ with ht
    have hcard : (∑ p : Fin n with p.val < k, (1 : ℝ)) = k := by
      rw [Finset.sum_filter, Fin.sum_univ_eq_sum_range (fun p => if p < k then (1 : ℝ) else 0), ← Finset.sum_filter]
      have : (Finset.range n).filter (· < k) = Finset.range k := by
        ext x; simp only [Finset.mem_filter, Finset.mem_range]; omega
      rw [this]; simp
    have h2 : ∑ p, (e p - t) * A p ≤ ∑ p : Fin n with p.val < k, (e p - t) := by
      rw [Finset.sum_filter]
      refine Finset.sum_le_sum fun p _ => ?_
      split
      · rename_i hp
        have : t ≤ e p := he (by rw [Fin.le_def]; exact hp.le)
        nlinarith [h1 p]
      · rename_i hp
        have : e p ≤ t := he (by rw [Fin.le_def]; exact not_lt.1 hp)
        nlinarith [h0 p]
    have h3 : ∑ p, (e p - t) * A p = ∑ p, e p * A p - t * k := by
      rw [← hk, Finset.mul_sum, ← Finset.sum_sub_distrib]
      exact Finset.sum_congr rfl fun p _ => by ring
    have h4 : ∑ p : Fin n with p.val < k, (e p - t) = ∑ p : Fin n with p.val < k, e p - t * k := by
      rw [← hcard, Finset.mul_sum, ← Finset.sum_sub_distrib]
      exact Finset.sum_congr rfl fun p _ => by ring
    rw [h3, h4] at h2
    linarith
  · have hfil : (Finset.univ.filter fun p : Fin n => (p : ℕ) < k) = Finset.univ := by
      ext p; simp only [Finset.mem_filter, Finset.mem_univ, true_and, iff_true]; omega
    rw [hfil]
    have hle : ∑ p, A p ≤ ∑ p : Fin n, (1 : ℝ) := Finset.sum_le_sum fun p _ => h1 p
    have hn : (k : ℝ) ≤ n := by rw [← hk]; simpa using hle
    have hkn' : k = n := le_antisymm (by exact_mod_cast hn) (not_lt.1 hkn)
    have hz : ∑ p, (1 - A p) = 0 := by rw [Finset.sum_sub_distrib, hk, hkn']; simp
    have hone : ∀ p, A p = 1 := by
      intro p
      have := (Finset.sum_eq_zero_iff_of_nonneg fun p _ => sub_nonneg.2 (h1 p)).1 hz p (Finset.mem_univ p)
      linarith
    simp [hone]

theorem bestConcentrated {𝕜 X : Type*} [RCLike 𝕜] [AddCommGroup X] [Module 𝕜 X] (V : Set X) (inner : X → X → 𝕜) (region : X → ℝ)
    {n : ℕ} (s : Fin n → X) (e : Fin n → ℝ) (he : Antitone e) (hV : ∀ f, f ∈ V ↔ ∃ a : Fin n → 𝕜, f = ∑ p, a p • s p)
    (hin : ∀ a b : Fin n → 𝕜, inner (∑ p, a p • s p) (∑ p, b p • s p) = ∑ p, a p * (starRingEnd 𝕜) (b p))
    (hreg : ∀ a : Fin n → 𝕜, region (∑ p, a p • s p) = ∑ p, e p * ‖a p‖ ^ 2) : BestConcentrated V inner region s e := by
  classical
  have hs : ∀ q, s q = ∑ p, (if p = q then (1 : 𝕜) else 0) • s p := by
    intro q; simp
  have hc : ∀ (a : Fin n → 𝕜) (q : Fin n), inner (∑ p, a p • s p) (s q) = a q := by
    intro a q
    conv_lhs => rw [hs q]
    rw [hin]
    simp [apply_ite]
  have hen : ∀ a : Fin n → 𝕜, RCLike.re (inner (∑ p, a p • s p) (∑ p, a p • s p)) = ∑ p, ‖a p‖ ^ 2 := by
    intro a
    rw [hin, map_sum]
    refine Finset.sum_congr rfl fun p _ => ?_
    rw [RCLike.mul_conj]
    norm_cast
  have hbest : ∀ (k : Fin n) (a : Fin n → 𝕜), (∀ p < k, a p = 0) → region (∑ p, a p • s p) ≤
      e k * RCLike.re (inner (∑ p, a p • s p) (∑ p, a p • s p)) := by
    intro k a ha
    rw [hreg, hen, Finset.mul_sum]
    refine Finset.sum_le_sum fun p _ => ?_
    by_cases hp : p < k
    · simp [ha p hp]
    · exact mul_le_mul_of_nonneg_right (he (not_lt.1 hp)) (by positivity)
  refine ⟨fun p => (hV _).2 ⟨_, hs p⟩, fun p q => ?_, fun f hf => ?_, fun f hf => ?_, fun f hf => ?_, fun k => ?_, fun k f hf h => ?_,
    fun k f hf g hg => ?_, fun k u hu hou => ?_⟩
  · conv_lhs => rw [hs p]
    rw [hc]
    exact if_congr eq_comm rfl rfl
  · obtain ⟨a, rfl⟩ := (hV f).1 hf
    simp only [hc]
  · obtain ⟨a, rfl⟩ := (hV f).1 hf
    simp only [hc, hen]
  · obtain ⟨a, rfl⟩ := (hV f).1 hf
    simp only [hc, hreg]
  · conv_lhs => rw [hs k]
    rw [hreg]
    simp [apply_ite]
  · obtain ⟨a, rfl⟩ := (hV f).1 hf
    simp only [hc] at h
    exact hbest k a h
  · obtain ⟨a, rfl⟩ := (hV f).1 hf
    have hg' : g = ∑ p, (if p < k then 0 else a p) • s p := by
      rw [hg]
      simp only [hc]
      rw [Finset.sum_filter, ← Finset.sum_sub_distrib]
      refine Finset.sum_congr rfl fun p _ => ?_
      split <;> simp
    rw [hg']
    refine ⟨hbest k _ fun p hp => if_pos hp, ?_⟩
    rw [hen, hen]
    refine Finset.sum_le_sum fun p _ => ?_
    split
    · rw [norm_zero]; nlinarith [norm_nonneg (a p)]
    · exact le_rfl
  · choose a ha using fun i => (hV _).1 (hu i)
    have hon : Orthonormal 𝕜 fun i => (WithLp.toLp 2 (a i) : EuclideanSpace 𝕜 (Fin n)) := by
      rw [orthonormal_iff_ite]
      intro i j
      have := hou j i
      rw [ha j, ha i, hin] at this
      rw [PiLp.inner_apply]
      simp only [RCLike.inner_apply]
      rw [this]
      exact if_congr eq_comm rfl rfl
    have hbessel : ∀ p, ∑ i, ‖a i p‖ ^ 2 ≤ 1 := by
      intro p
      have h1 := hon.sum_inner_products_le (s := Finset.univ) (EuclideanSpace.single p (1 : 𝕜))
      simp only [PiLp.norm_single, norm_one, one_pow] at h1
      refine le_trans (le_of_eq (Finset.sum_congr rfl fun i _ => ?_)) h1
      rw [EuclideanSpace.inner_single_right]
      simp
    have hsum : ∑ p, ∑ i, ‖a i p‖ ^ 2 = (k : ℝ) := by
      rw [Finset.sum_comm]
      have : ∀ i, ∑ p, ‖a i p‖ ^ 2 = 1 := by
        intro i
        rw [← hen, ← ha i, hou]
        simp
      simp [this]
    refine le_trans (le_of_eq ?_) (weighted_le e (fun p => ∑ i, ‖a i p‖ ^ 2) he (fun p => Finset.sum_nonneg fun i _ => sq_nonneg _) hbessel k hsum)
    simp only [ha, hreg, Finset.mul_sum]
    exact Finset.sum_comm

end Sleplet
