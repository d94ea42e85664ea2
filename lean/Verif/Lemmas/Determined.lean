import Verif.Lemmas.CompareConcentration

/-! What two solutions of one concentration problem have in common. -/
namespace Sleplet

open Spec

variable {𝕜 X : Type*} [RCLike 𝕜] [AddCommGroup X] [Module 𝕜 X]
variable {V : Set X} {inner : X → X → 𝕜} {R : X → ℝ} {n : ℕ} {s s' : Fin n → X} {e e' : Fin n → ℝ}

theorem same_numbers (h : BestConcentrated V inner R s e) (h' : BestConcentrated V inner R s' e') (hV : LinearOn V inner) : e = e' := by
  funext k
  exact le_antisymm (compare_numbers h h' hV hV LinearMap.id (fun f hf => ⟨hf, rfl, le_rfl⟩) k k.2 k.2)
    (compare_numbers h' h hV hV LinearMap.id (fun f hf => ⟨hf, rfl, le_rfl⟩) k k.2 k.2)

/-- if the first `N` numbers do not occur later, the first `N` functions of one solution are orthogonal to the later ones of the other. -/
theorem leading_perp (h : BestConcentrated V inner R s e) (h' : BestConcentrated V inner R s' e) (hV : LinearOn V inner)
    (hsym : ∀ f ∈ V, ∀ g ∈ V, ‖inner f g‖ = ‖inner g f‖) (N : ℕ) (hgap : ∀ p q : Fin n, p.val < N → N ≤ q.val → e q ≠ e p)
    (q p : Fin n) (hq : q.val < N) (hp : N ≤ p.val) : inner (s' q) (s p) = 0 := by
  classical
  let w : Fin n → ℝ := fun p => ∑ q : Fin n, if q.val < N then ‖inner (s' q) (s p)‖ ^ 2 else 0
  let χ : Fin n → ℝ := fun p => if p.val < N then 1 else 0
  have hw0 : ∀ p, 0 ≤ w p := fun p => Finset.sum_nonneg fun q _ => by split <;> positivity
  have hw1 : ∀ p, w p ≤ 1 := by
    intro p
    have h1 := h'.energy (s p) (h.mem p)
    rw [h.orthonormal, if_pos rfl, RCLike.one_re] at h1
    rw [h1]
    refine Finset.sum_le_sum fun q _ => ?_
    rw [hsym _ (h'.mem q) _ (h.mem p)]
    split
    · exact le_rfl
    · positivity
  have hsw : ∑ p, w p = ∑ p, χ p := by
    dsimp only [w]
    rw [Finset.sum_comm]
    refine Finset.sum_congr rfl fun q _ => ?_
    dsimp only [χ]
    split
    · rw [← h.energy _ (h'.mem q), h'.orthonormal, if_pos rfl, RCLike.one_re]
    · simp
  have hsew : ∑ p, e p * w p = ∑ p, e p * χ p := by
    dsimp only [w]
    simp only [Finset.mul_sum]
    rw [Finset.sum_comm]
    refine Finset.sum_congr rfl fun q _ => ?_
    dsimp only [χ]
    split
    · rw [← h.energyIn _ (h'.mem q), h'.attained, mul_one]
    · simp
  have hNn : N < n := lt_of_le_of_lt hp p.2
  set c := e ⟨N, hNn⟩ with hc
  have hlt : ∀ p : Fin n, p.val < N → c < e p := fun p hp =>
    lt_of_le_of_ne (h.antitone (by rw [Fin.le_def]; exact hp.le)) (hgap p ⟨N, hNn⟩ hp le_rfl)
  have hle : ∀ p : Fin n, N ≤ p.val → e p ≤ c := fun p hp => h.antitone (by rw [Fin.le_def]; exact hp)
  have hnn : ∀ p, 0 ≤ (e p - c) * (χ p - w p) := by
    intro p
    dsimp only [χ]
    split
    · next hpN => exact mul_nonneg (sub_nonneg.2 (hlt p hpN).le) (sub_nonneg.2 (hw1 p))
    · next hpN => exact mul_nonneg_of_nonpos_of_nonpos (sub_nonpos.2 (hle p (by omega))) (by simpa using hw0 p)
  have hz : ∑ p, (e p - c) * (χ p - w p) = 0 := by
    have : ∀ p, (e p - c) * (χ p - w p) = (e p * χ p - e p * w p) - c * (χ p - w p) := fun p => by ring
    simp only [this, Finset.sum_sub_distrib, ← Finset.mul_sum, hsew, hsw]
    ring
  have hall := (Finset.sum_eq_zero_iff_of_nonneg fun p _ => hnn p).1 hz
  have hone : ∀ p, 0 ≤ w p - χ p := by
    intro p
    by_cases hpN : p.val < N
    · have h1 := hall p (Finset.mem_univ p)
      rcases mul_eq_zero.1 h1 with h2 | h2
      · have := hlt p hpN
        linarith
      · linarith
    · simpa [χ, hpN] using hw0 p
  have hzz : ∑ p, (w p - χ p) = 0 := by rw [Finset.sum_sub_distrib, hsw, sub_self]
  have hwp := (Finset.sum_eq_zero_iff_of_nonneg fun p _ => hone p).1 hzz p (Finset.mem_univ p)
  have hwp' : w p = 0 := by simpa [χ, not_lt.2 hp] using hwp
  have := (Finset.sum_eq_zero_iff_of_nonneg fun q _ => by split <;> positivity).1 hwp' q (Finset.mem_univ q)
  rw [if_pos hq] at this
  simpa using this

theorem perp_leading (h : BestConcentrated V inner R s e) (h' : BestConcentrated V inner R s' e) (hV : LinearOn V inner)
    (hsym : ∀ f ∈ V, ∀ g ∈ V, ‖inner f g‖ = ‖inner g f‖) (N : ℕ) (hgap : ∀ p q : Fin n, p.val < N → N ≤ q.val → e q ≠ e p)
    (q p : Fin n) (hq : N ≤ q.val) (hp : p.val < N) : inner (s' q) (s p) = 0 := by
  have := leading_perp h' h hV hsym N hgap p q hp hq
  rw [← norm_eq_zero, hsym _ (h'.mem q) _ (h.mem p), this, norm_zero]

/-- the first `N` functions of one solution are combinations of those of the other. -/
theorem leading_expand (h : BestConcentrated V inner R s e) (h' : BestConcentrated V inner R s' e) (hV : LinearOn V inner)
    (hsym : ∀ f ∈ V, ∀ g ∈ V, ‖inner f g‖ = ‖inner g f‖) (N : ℕ) (hgap : ∀ p q : Fin n, p.val < N → N ≤ q.val → e q ≠ e p)
    (q : Fin n) (hq : q.val < N) : s' q = ∑ p : Fin n with p.val < N, inner (s' q) (s p) • s p := by
  conv_lhs => rw [h.expand _ (h'.mem q)]
  rw [Finset.sum_filter]
  refine Finset.sum_congr rfl fun p _ => ?_
  split
  · rfl
  · next hp => rw [leading_perp h h' hV hsym N hgap q p hq (by omega), zero_smul]

/-- the sum of the components along the first `N` functions is the same. -/
theorem same_project (h : BestConcentrated V inner R s e) (h' : BestConcentrated V inner R s' e) (hV : LinearOn V inner)
    (hsym : ∀ f ∈ V, ∀ g ∈ V, ‖inner f g‖ = ‖inner g f‖) (N : ℕ) (hgap : ∀ p q : Fin n, p.val < N → N ≤ q.val → e q ≠ e p)
    (f : X) (hf : f ∈ V) :
    ∑ p : Fin n with p.val < N, inner f (s p) • s p = ∑ p : Fin n with p.val < N, inner f (s' p) • s' p := by
  have hcoef : ∀ q, inner f (s' q) = ∑ p, inner f (s p) * inner (s p) (s' q) := by
    intro q
    conv_lhs => rw [h.expand f hf]
    exact hV.lin _ _ _ (fun p => h.mem p) (h'.mem q)
  let a : Fin n → 𝕜 := fun p => if p.val < N then inner f (s p) else 0
  have hP : ∑ p : Fin n with p.val < N, inner f (s p) • s p = ∑ p, a p • s p := by
    rw [Finset.sum_filter]
    refine Finset.sum_congr rfl fun p _ => ?_
    dsimp only [a]
    split
    · rfl
    · rw [zero_smul]
  rw [hP]
  have hm : ∑ p, a p • s p ∈ V := hV.mem a s fun p => h.mem p
  have hc : ∀ q, inner (∑ p, a p • s p) (s' q) = if q.val < N then inner f (s' q) else 0 := by
    intro q
    rw [hV.lin a s _ (fun p => h.mem p) (h'.mem q)]
    split
    · next hq =>
      rw [hcoef]
      refine Finset.sum_congr rfl fun p _ => ?_
      dsimp only [a]
      split
      · rfl
      · next hp => rw [perp_leading h' h hV hsym N hgap p q (by omega) hq, mul_zero, mul_zero]
    · next hq =>
      refine Finset.sum_eq_zero fun p _ => ?_
      dsimp only [a]
      split
      · next hp => rw [leading_perp h' h hV hsym N hgap p q hp (by omega), mul_zero]
      · rw [zero_mul]
  rw [h'.expand _ hm, Finset.sum_filter]
  refine Finset.sum_congr rfl fun q _ => ?_
  rw [hc]
  split
  · rfl
  · rw [zero_smul]

/-- the function of a number that occurs once is determined up to a factor of modulus one. -/
theorem same_simple (h : BestConcentrated V inner R s e) (h' : BestConcentrated V inner R s' e) (hV : LinearOn V inner)
    (hsym : ∀ f ∈ V, ∀ g ∈ V, ‖inner f g‖ = ‖inner g f‖) (p : Fin n) (hp : ∀ q, q ≠ p → e q ≠ e p) :
    ‖inner (s' p) (s p)‖ = 1 ∧ s' p = inner (s' p) (s p) • s p := by
  have hlow : ∀ q : Fin n, q.val < p.val → inner (s' p) (s q) = 0 := fun q hq =>
    perp_leading h h' hV hsym p.val (fun a b ha hb => by
      intro heq
      have h1 : e b ≤ e p := h.antitone (by rw [Fin.le_def]; exact hb)
      have h2 : e p ≤ e a := h.antitone (by rw [Fin.le_def]; exact ha.le)
      exact hp a (fun hap => by rw [hap] at ha; exact lt_irrefl _ ha) (le_antisymm (heq ▸ h1) h2)) p q le_rfl hq
  have hup : ∀ q : Fin n, p.val < q.val → inner (s' p) (s q) = 0 := fun q hq =>
    leading_perp h h' hV hsym (p.val + 1) (fun a b ha hb => by
      intro heq
      have h1 : e b ≤ e p := h.antitone (by rw [Fin.le_def]; omega)
      have h2 : e p ≤ e a := h.antitone (by rw [Fin.le_def]; omega)
      exact hp b (fun hbp => by rw [hbp] at hb; omega) (le_antisymm h1 (heq ▸ h2))) p q (by omega) hq
  have hz : ∀ q, q ≠ p → inner (s' p) (s q) = 0 := by
    intro q hq
    rcases lt_trichotomy q.val p.val with h1 | h1 | h1
    · exact hlow q h1
    · exact absurd (Fin.ext h1) hq
    · exact hup q h1
  constructor
  · have h1 := h.energy _ (h'.mem p)
    rw [h'.orthonormal, if_pos rfl, RCLike.one_re, Finset.sum_eq_single p (fun q _ hq => by rw [hz q hq]; simp) (fun h => absurd (Finset.mem_univ p) h)] at h1
    have h2 : ‖inner (s' p) (s p)‖ ^ 2 = 1 := h1.symm
    nlinarith [norm_nonneg (inner (s' p) (s p))]
  · conv_lhs => rw [h.expand _ (h'.mem p)]
    rw [Finset.sum_eq_single p (fun q _ hq => by rw [hz q hq, zero_smul]) (fun h => absurd (Finset.mem_univ p) h)]

end Sleplet
