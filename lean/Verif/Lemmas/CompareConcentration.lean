import Mathlib.LinearAlgebra.Dimension.Constructions
import Mathlib.LinearAlgebra.FiniteDimensional.Lemmas
import Mathlib.LinearAlgebra.Dimension.StrongRankCondition
import Mathlib.Analysis.Complex.Basic
import Mathlib.Tactic.Linarith
import Verif.Spec.BestConcentrated

/-! Comparing the numbers of two concentration problems. -/
namespace Sleplet

open Spec

variable {𝕜 X X' : Type*} [RCLike 𝕜] [AddCommGroup X] [Module 𝕜 X] [AddCommGroup X'] [Module 𝕜 X']

/-- sums stay among the fields, and the inner product is linear in its first argument on them. -/
structure LinearOn (V : Set X) (inner : X → X → 𝕜) : Prop where
  mem : ∀ {m : ℕ} (a : Fin m → 𝕜) (u : Fin m → X), (∀ i, u i ∈ V) → ∑ i, a i • u i ∈ V
  lin : ∀ {m : ℕ} (a : Fin m → 𝕜) (u : Fin m → X) (g : X), (∀ i, u i ∈ V) → g ∈ V → inner (∑ i, a i • u i) g = ∑ i, a i * inner (u i) g

/-- `k` conditions leave a combination of `k + 1` fields. -/
theorem exists_perp {V : Set X} {inner : X → X → 𝕜} (hV : LinearOn V inner) {k : ℕ} (u : Fin (k + 1) → X) (g : Fin k → X)
    (hu : ∀ i, u i ∈ V) (hg : ∀ j, g j ∈ V) : ∃ b : Fin (k + 1) → 𝕜, b ≠ 0 ∧ ∀ j, inner (∑ i, b i • u i) (g j) = 0 := by
  let T : (Fin (k + 1) → 𝕜) →ₗ[𝕜] (Fin k → 𝕜) :=
    { toFun := fun b j => ∑ i, b i * inner (u i) (g j)
      map_add' := fun b c => by
        funext j
        simp only [Pi.add_apply, add_mul, Finset.sum_add_distrib]
      map_smul' := fun r b => by
        funext j
        simp only [Pi.smul_apply, smul_eq_mul, RingHom.id_apply, Finset.mul_sum, mul_assoc] }
  have hker : LinearMap.ker T ≠ ⊥ := LinearMap.ker_ne_bot_of_finrank_lt (by simp)
  obtain ⟨b, hb, hne⟩ := Submodule.exists_mem_ne_zero_of_ne_bot hker
  refine ⟨b, hne, fun j => ?_⟩
  rw [hV.lin b u (g j) hu (hg j)]
  exact congrFun (LinearMap.mem_ker.1 hb) j

variable {V : Set X} {inner : X → X → 𝕜} {R : X → ℝ} {n : ℕ} {s : Fin n → X} {e : Fin n → ℝ}

theorem Spec.BestConcentrated.antitone (h : BestConcentrated V inner R s e) : Antitone e := by
  intro k j hkj
  have h1 := h.best k (s j) (h.mem j) fun p hp => by
    rw [h.orthonormal]
    exact if_neg (ne_of_gt (lt_of_lt_of_le hp hkj))
  rw [h.attained, h.orthonormal, if_pos rfl] at h1
  simpa using h1

/-- combinations of the functions numbered by an injection. -/
theorem Spec.BestConcentrated.comb (h : BestConcentrated V inner R s e) (hV : LinearOn V inner) {k : ℕ} (ι : Fin k → Fin n)
    (hι : Function.Injective ι) (b : Fin k → 𝕜) (hb : b ≠ 0) :
    ∑ i, b i • s (ι i) ∈ V ∧ (∀ i, inner (∑ i, b i • s (ι i)) (s (ι i)) = b i) ∧
    (∀ p, (∀ i, ι i ≠ p) → inner (∑ i, b i • s (ι i)) (s p) = 0) ∧
    0 < RCLike.re (inner (∑ i, b i • s (ι i)) (∑ i, b i • s (ι i))) := by
  have hm : ∑ i, b i • s (ι i) ∈ V := hV.mem b _ fun i => h.mem _
  have h1 : ∀ i, inner (∑ i, b i • s (ι i)) (s (ι i)) = b i := by
    intro i
    rw [hV.lin b _ _ (fun i => h.mem _) (h.mem _)]
    rw [Finset.sum_eq_single i]
    · rw [h.orthonormal, if_pos rfl, mul_one]
    · intro j _ hj
      rw [h.orthonormal, if_neg fun h => hj (hι h), mul_zero]
    · intro h; exact absurd (Finset.mem_univ i) h
  refine ⟨hm, h1, fun p hp => ?_, ?_⟩
  · rw [hV.lin b _ _ (fun i => h.mem _) (h.mem _)]
    refine Finset.sum_eq_zero fun i _ => ?_
    rw [h.orthonormal, if_neg (hp i), mul_zero]
  · rw [h.energy _ hm]
    obtain ⟨i, hi⟩ := Function.ne_iff.1 hb
    refine Finset.sum_pos' (fun p _ => sq_nonneg _) ⟨ι i, Finset.mem_univ _, ?_⟩
    rw [h1 i]
    have : 0 < ‖b i‖ := norm_pos_iff.2 hi
    positivity

/-- combinations of functions with numbers at least `c` have at least the part `c` of their energy in the region. -/
theorem Spec.BestConcentrated.lower (h : BestConcentrated V inner R s e) {f : X} (hf : f ∈ V) (c : ℝ)
    (hc : ∀ p, inner f (s p) = 0 ∨ c ≤ e p) : c * RCLike.re (inner f f) ≤ R f := by
  rw [h.energy f hf, h.energyIn f hf, Finset.mul_sum]
  refine Finset.sum_le_sum fun p _ => ?_
  rcases hc p with h0 | h0
  · simp [h0]
  · exact mul_le_mul_of_nonneg_right h0 (sq_nonneg _)

theorem Spec.BestConcentrated.upper (h : BestConcentrated V inner R s e) {f : X} (hf : f ∈ V) (c : ℝ)
    (hc : ∀ p, inner f (s p) = 0 ∨ e p ≤ c) : R f ≤ c * RCLike.re (inner f f) := by
  rw [h.energy f hf, h.energyIn f hf, Finset.mul_sum]
  refine Finset.sum_le_sum fun p _ => ?_
  rcases hc p with h0 | h0
  · simp [h0]
  · exact mul_le_mul_of_nonneg_right h0 (sq_nonneg _)

variable {V' : Set X'} {inner' : X' → X' → 𝕜} {R' : X' → ℝ} {n' : ℕ} {s' : Fin n' → X'} {e' : Fin n' → ℝ}

/-- between two numbers of the same rank there is a field. -/
theorem exists_between_numbers (h : BestConcentrated V inner R s e) (h' : BestConcentrated V' inner' R' s' e') (hV : LinearOn V inner)
    (hV' : LinearOn V' inner') (T : X →ₗ[𝕜] X')
    (hT : ∀ f ∈ V, T f ∈ V' ∧ RCLike.re (inner' (T f) (T f)) = RCLike.re (inner f f))
    (k : ℕ) (hk : k < n) (hk' : k < n') : ∃ f ∈ V, 0 < RCLike.re (inner f f) ∧ e ⟨k, hk⟩ * RCLike.re (inner f f) ≤ R f ∧
      R' (T f) ≤ e' ⟨k, hk'⟩ * RCLike.re (inner f f) := by
  have hlt : ∀ i : Fin (k + 1), (i : ℕ) < n := fun i => by omega
  obtain ⟨b, hb, hperp⟩ := exists_perp hV' (fun i : Fin (k + 1) => T (s ⟨i, hlt i⟩)) (fun j : Fin k => s' ⟨j, by omega⟩)
    (fun i => (hT _ (h.mem _)).1) (fun j => h'.mem _)
  obtain ⟨hm, -, h2, hpos⟩ := h.comb hV (fun i : Fin (k + 1) => ⟨i, hlt i⟩) (fun i j hij => Fin.ext (by simpa using hij)) b hb
  set f := ∑ i, b i • s ⟨i, hlt i⟩ with hf
  have hTf : T f = ∑ i, b i • T (s ⟨i, hlt i⟩) := by
    rw [hf, map_sum]
    exact Finset.sum_congr rfl fun i _ => by rw [map_smul]
  obtain ⟨t1, t2⟩ := hT f hm
  have hlow := h.lower hm (e ⟨k, hk⟩) fun p => by
    by_cases hp : (p : ℕ) ≤ k
    · exact Or.inr (h.antitone (by rw [Fin.le_def]; exact hp))
    · exact Or.inl (h2 p fun i hi => hp (by rw [← hi]; show (i : ℕ) ≤ k; omega))
  have hup := h'.best ⟨k, hk'⟩ (T f) t1 fun p hp => by
    rw [hTf]
    exact hperp ⟨p, hp⟩
  rw [t2] at hup
  exact ⟨f, hm, hpos, hlow, hup⟩

/-- if the fields of one problem are taken to fields of another with the same energy and no less of it in the region, then the numbers
of the other are no less. -/
theorem compare_numbers (h : BestConcentrated V inner R s e) (h' : BestConcentrated V' inner' R' s' e') (hV : LinearOn V inner)
    (hV' : LinearOn V' inner') (T : X →ₗ[𝕜] X')
    (hT : ∀ f ∈ V, T f ∈ V' ∧ RCLike.re (inner' (T f) (T f)) = RCLike.re (inner f f) ∧ R f ≤ R' (T f))
    (k : ℕ) (hk : k < n) (hk' : k < n') : e ⟨k, hk⟩ ≤ e' ⟨k, hk'⟩ := by
  obtain ⟨f, hm, hpos, hlow, hup⟩ := exists_between_numbers h h' hV hV' T (fun f hf => ⟨(hT f hf).1, (hT f hf).2.1⟩) k hk hk'
  have := (hT f hm).2.2
  by_contra hlt'
  push Not at hlt'
  have := mul_lt_mul_of_pos_right hlt' hpos
  linarith

/-- with more energy in the region for all fields that have energy, the numbers are greater. -/
theorem compare_numbers_lt (h : BestConcentrated V inner R s e) (h' : BestConcentrated V' inner' R' s' e') (hV : LinearOn V inner)
    (hV' : LinearOn V' inner') (T : X →ₗ[𝕜] X')
    (hT : ∀ f ∈ V, T f ∈ V' ∧ RCLike.re (inner' (T f) (T f)) = RCLike.re (inner f f))
    (hR : ∀ f ∈ V, 0 < RCLike.re (inner f f) → R f < R' (T f))
    (k : ℕ) (hk : k < n) (hk' : k < n') : e ⟨k, hk⟩ < e' ⟨k, hk'⟩ := by
  obtain ⟨f, hm, hpos, hlow, hup⟩ := exists_between_numbers h h' hV hV' T hT k hk hk'
  have := hR f hm hpos
  by_contra hlt'
  push Not at hlt'
  have := mul_le_mul_of_nonneg_right hlt' hpos.le
  linarith

/-- the numbers of a region and of the rest of the domain add up to one in opposite order. -/
theorem complement_numbers {R' : X → ℝ} {s' : Fin n → X} {e' : Fin n → ℝ} (h : BestConcentrated V inner R s e)
    (h' : BestConcentrated V inner R' s' e') (hV : LinearOn V inner) (hR : ∀ f ∈ V, R f + R' f = RCLike.re (inner f f)) (k : Fin n) :
    e k + e' k.rev = 1 := by
  apply le_antisymm
  · -- combinations of the first `k + 1`, orthogonal to the last `k` of the others
    obtain ⟨b, hb, hperp⟩ := exists_perp hV (fun i : Fin ((k : ℕ) + 1) => s ⟨i, by omega⟩)
      (fun j : Fin k => s' (⟨j, by omega⟩ : Fin n).rev) (fun i => h.mem _) (fun j => h'.mem _)
    obtain ⟨hm, -, h2, hpos⟩ := h.comb hV (fun i : Fin ((k : ℕ) + 1) => ⟨i, by omega⟩) (fun i j hij => Fin.ext (by simpa using hij)) b hb
    set f := ∑ i, b i • s ⟨i, by omega⟩ with hf
    have l1 := h.lower hm (e k) fun p => by
      by_cases hp : (p : ℕ) ≤ k
      · exact Or.inr (h.antitone (by rw [Fin.le_def]; exact hp))
      · exact Or.inl (h2 p fun i hi => hp (by rw [← hi]; show (i : ℕ) ≤ k; omega))
    have l2 := h'.lower hm (e' k.rev) fun p => by
      by_cases hp : (p : ℕ) ≤ k.rev
      · exact Or.inr (h'.antitone (by rw [Fin.le_def]; exact hp))
      · left
        rw [Fin.val_rev] at hp
        have := hperp ⟨p.rev, by rw [Fin.val_rev]; omega⟩
        have hp' : (⟨(⟨(p.rev : ℕ), by rw [Fin.val_rev]; omega⟩ : Fin (k : ℕ)), by rw [Fin.val_rev]; omega⟩ : Fin n).rev = p := Fin.rev_rev p
        rwa [hp'] at this
    have := hR f hm
    by_contra hlt
    push Not at hlt
    have := mul_lt_mul_of_pos_right hlt hpos
    linarith
  · -- combinations of the last ones, orthogonal to the first of the others
    obtain ⟨b, hb, hperp⟩ := exists_perp hV (fun i : Fin ((k.rev : ℕ) + 1) => s (⟨i, by omega⟩ : Fin n).rev)
      (fun j : Fin (k.rev : ℕ) => s' ⟨j, by omega⟩) (fun i => h.mem _) (fun j => h'.mem _)
    obtain ⟨hm, -, h2, hpos⟩ := h.comb hV (fun i : Fin ((k.rev : ℕ) + 1) => (⟨i, by omega⟩ : Fin n).rev)
      (fun i j hij => Fin.ext (by simpa using hij)) b hb
    set f := ∑ i, b i • s (⟨i, by omega⟩ : Fin n).rev with hf
    have l1 := h.upper hm (e k) fun p => by
      by_cases hp : (k : ℕ) ≤ p
      · exact Or.inr (h.antitone (by rw [Fin.le_def]; exact hp))
      · refine Or.inl (h2 p fun i hi => hp ?_)
        rw [← hi, Fin.val_rev]
        have := i.2
        have hk := Fin.val_rev k
        show (k : ℕ) ≤ n - ((i : ℕ) + 1)
        omega
    have l2 := h'.best k.rev f hm fun p hp => hperp ⟨p, hp⟩
    have := hR f hm
    by_contra hlt
    push Not at hlt
    have := mul_lt_mul_of_pos_right hlt hpos
    linarith

end Sleplet
