import Verif.Lemmas.Perturbation

/-! Two families of eigenvectors whose quadratic forms differ little. -/
namespace Sleplet

variable {𝕜 : Type*} [RCLike 𝕜] {n : ℕ}

private theorem norm_add_sub (x y : 𝕜) : ‖x + y‖ ^ 2 - ‖x - y‖ ^ 2 = 4 * RCLike.re (x * (starRingEnd 𝕜) y) := by
  have h1 : ‖x + y‖ ^ 2 = RCLike.re ((x + y) * (starRingEnd 𝕜) (x + y)) := by
    rw [RCLike.mul_conj]; norm_cast
  have h2 : ‖x - y‖ ^ 2 = RCLike.re ((x - y) * (starRingEnd 𝕜) (x - y)) := by
    rw [RCLike.mul_conj]; norm_cast
  rw [h1, h2]
  simp only [map_add, map_sub, RCLike.mul_re, RCLike.conj_re, RCLike.conj_im]
  ring

private theorem norm_add_add (x y : 𝕜) : ‖x + y‖ ^ 2 + ‖x - y‖ ^ 2 = 2 * (‖x‖ ^ 2 + ‖y‖ ^ 2) := by
  have h : ∀ z : 𝕜, ‖z‖ ^ 2 = RCLike.re (z * (starRingEnd 𝕜) z) := by
    intro z
    rw [RCLike.mul_conj]; norm_cast
  rw [h, h, h, h]
  simp only [map_add, map_sub, RCLike.mul_re, RCLike.conj_re, RCLike.conj_im]
  ring

/-- how far an eigenvector of one family is from solving the problem of the other. -/
theorem residual_forms (S S' : Fin n → Fin n → 𝕜) (e e' : Fin n → ℝ)
    (horth : ∀ p q, ∑ i, S p i * (starRingEnd 𝕜) (S q i) = if p = q then 1 else 0)
    (horth' : ∀ p q, ∑ i, S' p i * (starRingEnd 𝕜) (S' q i) = if p = q then 1 else 0)
    (d : ℝ) (hd : ∀ a : Fin n → 𝕜, |∑ p, e' p * ‖∑ i, a i * (starRingEnd 𝕜) (S' p i)‖ ^ 2 -
      ∑ p, e p * ‖∑ i, a i * (starRingEnd 𝕜) (S p i)‖ ^ 2| ≤ d * ∑ i, ‖a i‖ ^ 2) (q : Fin n) :
    ∑ p, (e' q - e p) ^ 2 * ‖∑ i, S' q i * (starRingEnd 𝕜) (S p i)‖ ^ 2 ≤ d ^ 2 := by
  classical
  set T : Fin n → 𝕜 := fun p => ∑ i, S' q i * (starRingEnd 𝕜) (S p i) with hT
  set W : ℝ := ∑ p, (e' q - e p) ^ 2 * ‖T p‖ ^ 2 with hW
  have hW0 : 0 ≤ W := Finset.sum_nonneg fun p _ => mul_nonneg (sq_nonneg _) (sq_nonneg _)
  set ρ : Fin n → 𝕜 := fun p => ((e' q - e p : ℝ) : 𝕜) * T p with hρ
  set b : Fin n → 𝕜 := fun i => ∑ p, ρ p * S p i with hb
  have hbS : ∀ p, ∑ i, b i * (starRingEnd 𝕜) (S p i) = ρ p := by
    intro p
    simp only [hb, Finset.sum_mul, mul_assoc]
    rw [Finset.sum_comm]
    simp only [← Finset.mul_sum, horth, mul_ite, mul_one, mul_zero, Finset.sum_ite_eq', Finset.mem_univ, if_true]
  have hbq : ∑ i, b i * (starRingEnd 𝕜) (S' q i) = ∑ p, ρ p * (starRingEnd 𝕜) (T p) := by
    simp only [hb, hT, Finset.sum_mul, mul_assoc, map_sum, map_mul, RCLike.conj_conj, Finset.mul_sum]
    rw [Finset.sum_comm]
    exact Finset.sum_congr rfl fun p _ => Finset.sum_congr rfl fun i _ => by ring
  have hbW : ∑ i, ‖b i‖ ^ 2 = W := by
    rw [← energy_rows S horth b, hW]
    refine Finset.sum_congr rfl fun p _ => ?_
    rw [hbS, hρ, norm_mul, mul_pow, RCLike.norm_ofReal, sq_abs]
  have hre : ∀ p, RCLike.re (T p * (starRingEnd 𝕜) (ρ p)) = (e' q - e p) * ‖T p‖ ^ 2 := by
    intro p
    have : T p * (starRingEnd 𝕜) (ρ p) = (((e' q - e p) * ‖T p‖ ^ 2 : ℝ) : 𝕜) := by
      rw [hρ, map_mul, RCLike.conj_ofReal, mul_left_comm, RCLike.mul_conj]
      push_cast
      ring
    rw [this, RCLike.ofReal_re]
  have hreq : RCLike.re (∑ i, b i * (starRingEnd 𝕜) (S' q i)) = ∑ p, (e' q - e p) * ‖T p‖ ^ 2 := by
    rw [hbq, map_sum]
    refine Finset.sum_congr rfl fun p _ => ?_
    rw [← hre p, ← RCLike.conj_re, map_mul, RCLike.conj_conj, mul_comm]
  have key : ∀ t : ℝ, 4 * t * W ≤ 2 * d * (1 + t ^ 2 * W) := by
    intro t
    have h1 := hd fun i => S' q i + t * b i
    have h2 := hd fun i => S' q i - t * b i
    have c : ∀ (s : Fin n → 𝕜), ∑ i, (S' q i + t * b i) * (starRingEnd 𝕜) (s i) =
        (∑ i, S' q i * (starRingEnd 𝕜) (s i)) + t * ∑ i, b i * (starRingEnd 𝕜) (s i) := by
      intro s
      rw [Finset.mul_sum, ← Finset.sum_add_distrib]
      exact Finset.sum_congr rfl fun i _ => by ring
    have c' : ∀ (s : Fin n → 𝕜), ∑ i, (S' q i - t * b i) * (starRingEnd 𝕜) (s i) =
        (∑ i, S' q i * (starRingEnd 𝕜) (s i)) - t * ∑ i, b i * (starRingEnd 𝕜) (s i) := by
      intro s
      rw [Finset.mul_sum, ← Finset.sum_sub_distrib]
      exact Finset.sum_congr rfl fun i _ => by ring
    simp only [c] at h1
    simp only [c'] at h2
    have hn : ∑ i, ‖S' q i + t * b i‖ ^ 2 + ∑ i, ‖S' q i - t * b i‖ ^ 2 = 2 * (1 + t ^ 2 * W) := by
      rw [← Finset.sum_add_distrib]
      simp only [norm_add_add, norm_mul, mul_pow, RCLike.norm_ofReal, sq_abs]
      rw [← Finset.mul_sum, Finset.sum_add_distrib, ← Finset.mul_sum, hbW]
      have h3 : ∑ i, ‖S' q i‖ ^ 2 = 1 := by
        have := horth' q q
        rw [if_pos rfl] at this
        have h4 : ∑ i, S' q i * (starRingEnd 𝕜) (S' q i) = ((∑ i, ‖S' q i‖ ^ 2 : ℝ) : 𝕜) := by
          push_cast
          exact Finset.sum_congr rfl fun i _ => RCLike.mul_conj _
        rw [h4] at this
        exact_mod_cast this
      rw [h3]
    have hA : ∑ p, e' p * ‖(∑ i, S' q i * (starRingEnd 𝕜) (S' p i)) + t * ∑ i, b i * (starRingEnd 𝕜) (S' p i)‖ ^ 2 -
        ∑ p, e' p * ‖(∑ i, S' q i * (starRingEnd 𝕜) (S' p i)) - t * ∑ i, b i * (starRingEnd 𝕜) (S' p i)‖ ^ 2 =
        4 * t * (e' q * ∑ p, (e' q - e p) * ‖T p‖ ^ 2) := by
      rw [← Finset.sum_sub_distrib]
      simp only [← mul_sub, norm_add_sub, horth']
      rw [Finset.sum_eq_single q]
      · rw [if_pos rfl, one_mul, RCLike.conj_re, RCLike.re_ofReal_mul, hreq]
        ring
      · intro p _ hp
        rw [if_neg (Ne.symm hp)]
        simp
      · simp
    have hB : ∑ p, e p * ‖(∑ i, S' q i * (starRingEnd 𝕜) (S p i)) + t * ∑ i, b i * (starRingEnd 𝕜) (S p i)‖ ^ 2 -
        ∑ p, e p * ‖(∑ i, S' q i * (starRingEnd 𝕜) (S p i)) - t * ∑ i, b i * (starRingEnd 𝕜) (S p i)‖ ^ 2 =
        4 * t * ∑ p, e p * ((e' q - e p) * ‖T p‖ ^ 2) := by
      rw [← Finset.sum_sub_distrib, Finset.mul_sum]
      refine Finset.sum_congr rfl fun p _ => ?_
      rw [← mul_sub, norm_add_sub, hbS, map_mul (starRingEnd 𝕜), RCLike.conj_ofReal,
        mul_left_comm (∑ i, S' q i * (starRingEnd 𝕜) (S p i)), RCLike.re_ofReal_mul]
      rw [show RCLike.re ((∑ i, S' q i * (starRingEnd 𝕜) (S p i)) * (starRingEnd 𝕜) (ρ p)) = _ from hre p]
      ring
    have hC : e' q * ∑ p, (e' q - e p) * ‖T p‖ ^ 2 - ∑ p, e p * ((e' q - e p) * ‖T p‖ ^ 2) = W := by
      rw [Finset.mul_sum, ← Finset.sum_sub_distrib, hW]
      exact Finset.sum_congr rfl fun p _ => by ring
    have u1 := (abs_le.1 h1).2
    have u2 := (abs_le.1 h2).1
    have hC' : 4 * t * (e' q * ∑ p, (e' q - e p) * ‖T p‖ ^ 2) - 4 * t * ∑ p, e p * ((e' q - e p) * ‖T p‖ ^ 2) = 4 * t * W := by
      rw [← mul_sub, hC]
    have hn' : d * ∑ i, ‖S' q i + t * b i‖ ^ 2 + d * ∑ i, ‖S' q i - t * b i‖ ^ 2 = 2 * d * (1 + t ^ 2 * W) := by
      rw [← mul_add, hn]
      ring
    linarith
  rcases hW0.eq_or_lt with h0 | h0
  · rw [← h0]
    exact sq_nonneg d
  · have hs := Real.sqrt_pos.2 h0
    have hss := Real.sq_sqrt hW0
    have hk := key (1 / √W)
    have e1 : 4 * (1 / √W) * W = 4 * √W := by
      field_simp
      linarith
    have e2 : 1 + (1 / √W) ^ 2 * W = 2 := by
      rw [div_pow, hss]
      field_simp
      norm_num
    rw [e1, e2] at hk
    rw [← hss]
    exact pow_le_pow_left₀ hs.le (by linarith) 2

/-- the first `N` of one family and the others of the other. -/
theorem leading_forms (S S' : Fin n → Fin n → 𝕜) (e e' : Fin n → ℝ)
    (horth : ∀ p q, ∑ i, S p i * (starRingEnd 𝕜) (S q i) = if p = q then 1 else 0)
    (horth' : ∀ p q, ∑ i, S' p i * (starRingEnd 𝕜) (S' q i) = if p = q then 1 else 0)
    (d : ℝ) (hd : ∀ a : Fin n → 𝕜, |∑ p, e' p * ‖∑ i, a i * (starRingEnd 𝕜) (S' p i)‖ ^ 2 -
      ∑ p, e p * ‖∑ i, a i * (starRingEnd 𝕜) (S p i)‖ ^ 2| ≤ d * ∑ i, ‖a i‖ ^ 2) (he : ∀ k, |e' k - e k| ≤ d) (N : ℕ) (hN : N ≤ n) (g : ℝ)
    (hg : d ≤ g) (hgap : ∀ p q : Fin n, p.val < N → N ≤ q.val → g ≤ e p - e q) :
    (g - d) ^ 2 * ∑ q : Fin n with q.val < N, ∑ p : Fin n with N ≤ p.val, ‖∑ i, S' q i * (starRingEnd 𝕜) (S p i)‖ ^ 2 ≤ N * d ^ 2 := by
  have hcard : (Finset.univ.filter fun q : Fin n => q.val < N).card = N := by
    rw [Fin.card_filter_val_lt, min_eq_right hN]
  rw [Finset.mul_sum]
  refine (Finset.sum_le_sum (g := fun _ => d ^ 2) fun q hq => ?_).trans (le_of_eq (by rw [Finset.sum_const, hcard, nsmul_eq_mul]))
  refine le_trans ?_ (residual_forms S S' e e' horth horth' d hd q)
  rw [Finset.mul_sum]
  refine le_trans ?_ (Finset.sum_le_sum_of_subset_of_nonneg (Finset.filter_subset (fun p : Fin n => N ≤ p.val) _)
    fun p _ _ => mul_nonneg (sq_nonneg _) (sq_nonneg _))
  refine Finset.sum_le_sum fun p hp => mul_le_mul_of_nonneg_right ?_ (sq_nonneg _)
  refine pow_le_pow_left₀ (sub_nonneg.2 hg) ?_ 2
  have a := hgap q p (Finset.mem_filter.1 hq).2 (Finset.mem_filter.1 hp).2
  have b := (abs_le.1 (he q)).1
  linarith

/-- a function whose eigenvalue is apart from the others. -/
theorem separated_forms (S S' : Fin n → Fin n → 𝕜) (e e' : Fin n → ℝ)
    (horth : ∀ p q, ∑ i, S p i * (starRingEnd 𝕜) (S q i) = if p = q then 1 else 0)
    (horth' : ∀ p q, ∑ i, S' p i * (starRingEnd 𝕜) (S' q i) = if p = q then 1 else 0)
    (d : ℝ) (hd : ∀ a : Fin n → 𝕜, |∑ p, e' p * ‖∑ i, a i * (starRingEnd 𝕜) (S' p i)‖ ^ 2 -
      ∑ p, e p * ‖∑ i, a i * (starRingEnd 𝕜) (S p i)‖ ^ 2| ≤ d * ∑ i, ‖a i‖ ^ 2) (k : Fin n) (he : |e' k - e k| ≤ d) (g : ℝ)
    (hg : d ≤ g) (hgap : ∀ p, p ≠ k → g ≤ |e p - e k|) :
    (g - d) ^ 2 * (1 - ‖∑ i, S' k i * (starRingEnd 𝕜) (S k i)‖ ^ 2) ≤ d ^ 2 := by
  classical
  refine le_trans ?_ (residual_forms S S' e e' horth horth' d hd k)
  have h1 := energy_rows S horth (S' k)
  have hq : ∑ i, ‖S' k i‖ ^ 2 = 1 := by
    have := horth' k k
    rw [if_pos rfl] at this
    simp only [RCLike.mul_conj] at this
    exact_mod_cast this
  rw [hq] at h1
  rw [← h1, ← Finset.add_sum_erase _ _ (Finset.mem_univ k), add_sub_cancel_left, Finset.mul_sum]
  rw [← Finset.add_sum_erase Finset.univ (fun p => (e' k - e p) ^ 2 * _) (Finset.mem_univ k)]
  refine le_add_of_nonneg_of_le (mul_nonneg (sq_nonneg _) (sq_nonneg _)) (Finset.sum_le_sum fun p hp => ?_)
  refine mul_le_mul_of_nonneg_right ?_ (sq_nonneg _)
  rw [← sq_abs (e' k - e p)]
  refine pow_le_pow_left₀ (sub_nonneg.2 hg) ?_ 2
  have h2 := hgap p (Finset.ne_of_mem_erase hp)
  have h3 : |e p - e k| ≤ |e' k - e p| + |e' k - e k| := by
    have := abs_sub_le (e p) (e' k) (e k)
    rwa [abs_sub_comm (e p) (e' k)] at this
  linarith

end Sleplet
