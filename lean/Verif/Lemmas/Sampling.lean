import Verif.Lemmas.Convolution
import Verif.Lemmas.GridHarmonics
import Mathlib.Algebra.Polynomial.Roots

/-!
Bandlimited fields are determined by their samples: first the longitudes separate the orders, then the colatitudes the degrees.
-/
namespace Sleplet.Sampling

open Complex Sleplet.Spec Sleplet.Gaunt Polynomial

/-- a polynomial of small degree that vanishes at the cosines of the inner colatitudes. -/
theorem poly_zero {L : ℕ} {r : ℝ[X]} (S : Finset ℕ) (hS : ∀ t ∈ S, t ≤ L) (hL : 1 ≤ L) (hd : r.natDegree < S.card)
    (h : ∀ t ∈ S, r.eval (Real.cos (t * Real.pi / L)) = 0) : r = 0 := by
  have hL0 : (0 : ℝ) < L := by exact_mod_cast hL
  have hinj : Set.InjOn (fun t : ℕ => Real.cos (t * Real.pi / L)) S := by
    intro a ha b hb hab
    have mem : ∀ t ∈ S, (t : ℝ) * Real.pi / L ∈ Set.Icc 0 Real.pi := by
      intro t ht
      have : (t : ℝ) ≤ L := by exact_mod_cast hS t ht
      refine ⟨by positivity, ?_⟩
      rw [div_le_iff₀ hL0]
      nlinarith [Real.pi_pos]
    have h1 := Real.injOn_cos (mem a ha) (mem b hb) hab
    have h2 : (a : ℝ) = b := by
      field_simp at h1
      exact h1
    exact_mod_cast h2
  refine eq_zero_of_natDegree_lt_card_of_eval_eq_zero' r (S.image fun t : ℕ => Real.cos (t * Real.pi / L)) ?_ ?_
  · intro x hx
    obtain ⟨t, ht, rfl⟩ := Finset.mem_image.1 hx
    exact h t ht
  · rw [Finset.card_image_of_injOn hinj]; exact hd

/-- real combinations of the factors of one order `m ≥ 0`. -/
theorem theta_nat {L : ℕ} (hL : 1 ≤ L) (m : ℕ) (hm : m < L) (b : ℕ → ℝ)
    (h : ∀ t ≤ L, ∑ l ∈ Finset.Ico m L, b l * thetaPart l (m : ℤ) (t * Real.pi / L) = 0) (th : ℝ) :
    ∑ l ∈ Finset.Ico m L, b l * thetaPart l (m : ℤ) th = 0 := by
  have hL0 : (0 : ℝ) < L := by exact_mod_cast hL
  set r : ℝ[X] := ∑ l ∈ Finset.Ico m L, C (b l * nrm l m * ((-1) ^ m / (2 ^ l * (l.factorial : ℝ)))) * dq l (l + m) with hr
  have key : ∀ th, ∑ l ∈ Finset.Ico m L, b l * thetaPart l (m : ℤ) th =
      Real.sqrt (1 - Real.cos th ^ 2) ^ m * r.eval (Real.cos th) := by
    intro th
    rw [hr, eval_finsetSum, Finset.mul_sum]
    refine Finset.sum_congr rfl fun l _ => ?_
    rw [thetaPart, assocLegendre_nat, eval_mul, eval_C]
    ring
  have hdeg : r.natDegree ≤ L - 1 - m := by
    refine natDegree_sum_le_of_forall_le _ _ fun l hl => ?_
    rw [Finset.mem_Ico] at hl
    refine (natDegree_C_mul_le _ _).trans ((natDegree_dq_le l (l + m)).trans ?_)
    omega
  have hr0 : r = 0 := by
    rcases Nat.eq_zero_or_pos m with h0 | h0
    · refine poly_zero (Finset.range (L + 1)) (fun t ht => by rw [Finset.mem_range] at ht; omega) hL
        (by rw [Finset.card_range]; omega) fun t ht => ?_
      rw [Finset.mem_range] at ht
      have := h t (by omega)
      rw [key, h0, pow_zero, one_mul] at this
      exact this
    · refine poly_zero (Finset.Ico 1 L) (fun t ht => by rw [Finset.mem_Ico] at ht; omega) hL
        (by rw [Nat.card_Ico]; omega) fun t ht => ?_
      rw [Finset.mem_Ico] at ht
      have := h t (by omega)
      rw [key] at this
      refine (mul_eq_zero.1 this).resolve_left (pow_ne_zero _ ?_)
      have hs : 0 < Real.sin (t * Real.pi / L) := by
        have h1 : (1 : ℝ) ≤ t := by exact_mod_cast ht.1
        have h2 : (t : ℝ) < L := by exact_mod_cast ht.2
        have := Real.pi_pos
        refine Real.sin_pos_of_pos_of_lt_pi (by positivity) ?_
        rw [div_lt_iff₀ hL0]
        nlinarith
      have h3 := Real.cos_sq_add_sin_sq (t * Real.pi / L)
      rw [show 1 - Real.cos (t * Real.pi / L) ^ 2 = Real.sin (t * Real.pi / L) ^ 2 by linarith, Real.sqrt_sq hs.le]
      exact hs.ne'
  rw [key, hr0]; simp

/-- complex combinations of the factors of any order. -/
theorem theta_int {L : ℕ} (hL : 1 ≤ L) (m : ℤ) (hm : |m| < L) (a : ℕ → ℂ)
    (h : ∀ t ≤ L, ∑ l ∈ Finset.Ico m.natAbs L, a l * (thetaPart l m (t * Real.pi / L) : ℂ) = 0) (th : ℝ) :
    ∑ l ∈ Finset.Ico m.natAbs L, a l * (thetaPart l m th : ℂ) = 0 := by
  rw [abs_lt] at hm
  have hs : ((if m < 0 then (-1) ^ m.natAbs else 1 : ℝ)) ≠ 0 := by
    split
    · exact pow_ne_zero _ (by norm_num)
    · exact one_ne_zero
  set s : ℝ := if m < 0 then (-1) ^ m.natAbs else 1 with hsd
  have key : ∀ (f : ℂ → ℝ), (∀ z (x : ℝ), f (z * x) = f z * x) → (∀ (S : Finset ℕ) (g : ℕ → ℂ), f (∑ l ∈ S, g l) = ∑ l ∈ S, f (g l)) →
      ∀ th, f (∑ l ∈ Finset.Ico m.natAbs L, a l * (thetaPart l m th : ℂ)) =
        s * ∑ l ∈ Finset.Ico m.natAbs L, f (a l) * thetaPart l (m.natAbs : ℤ) th := by
    intro f hf hg th
    rw [hg, Finset.mul_sum]
    refine Finset.sum_congr rfl fun l hl => ?_
    rw [Finset.mem_Ico] at hl
    rw [hf, thetaPart_int (by rw [abs_le]; omega)]
    ring
  have fin : ∀ (f : ℂ → ℝ), (∀ z (x : ℝ), f (z * x) = f z * x) → (∀ (S : Finset ℕ) (g : ℕ → ℂ), f (∑ l ∈ S, g l) = ∑ l ∈ S, f (g l)) →
      f (∑ l ∈ Finset.Ico m.natAbs L, a l * (thetaPart l m th : ℂ)) = 0 := by
    intro f hf hg
    rw [key f hf hg, theta_nat hL m.natAbs (by omega) (fun l => f (a l)) (fun t ht => ?_) th, mul_zero]
    have h1 := key f hf hg (t * Real.pi / L)
    rw [h t ht] at h1
    have h2 : f 0 = 0 := by simpa using hf 0 0
    rw [h2] at h1
    exact (mul_eq_zero.1 h1.symm).resolve_left hs
  exact Complex.ext (fin re (fun z x => by simp) (fun S g => re_sum S g)) (fin im (fun z x => by simp) (fun S g => im_sum S g))

/-- the part of a field of one order. -/
noncomputable def orderPart (L : ℕ) (c : List ℂ) (m : ℤ) (th : ℝ) : ℂ :=
  ∑ l ∈ Finset.Ico m.natAbs L, c.getD ((l : ℤ) ^ 2 + l + m).toNat 0 * (thetaPart l m th : ℂ)

theorem synthesis_orders (L : ℕ) (c : List ℂ) (th ph : ℝ) :
    synthesis L c th ph = ∑ m ∈ Finset.Ioo (-(L : ℤ)) L, orderPart L c m th * exp (I * m * ph) := by
  unfold synthesis orderPart
  simp only [sphHarm_eq, Finset.sum_mul]
  rw [Finset.sum_sigma', Finset.sum_sigma']
  refine Finset.sum_bij' (fun x _ => ⟨x.2, x.1⟩) (fun x _ => ⟨x.2, x.1⟩) ?_ ?_ ?_ ?_ ?_
  · rintro ⟨l, m⟩ h
    simp only [Finset.mem_sigma, Finset.mem_range, Finset.mem_Icc, Finset.mem_Ioo, Finset.mem_Ico] at h ⊢
    omega
  · rintro ⟨m, l⟩ h
    simp only [Finset.mem_sigma, Finset.mem_range, Finset.mem_Icc, Finset.mem_Ioo, Finset.mem_Ico] at h ⊢
    omega
  · intros; rfl
  · intros; rfl
  · rintro ⟨l, m⟩ _
    ring

/-- the longitudes separate the orders. -/
theorem orderPart_zero {L : ℕ} (hL : 1 ≤ L) (c : List ℂ) (th : ℝ)
    (h : ∀ p < 2 * L, synthesis L c th (p * Real.pi / L) = 0) (k : ℤ) (hk : k ∈ Finset.Ioo (-(L : ℤ)) L) : orderPart L c k th = 0 := by
  have h1 : ∑ p : Fin (2 * L), synthesis L c th ((p : ℕ) * Real.pi / L) * exp (-(I * k * (((p : ℕ) * (Real.pi / L) : ℝ) : ℂ))) = 0 :=
    Finset.sum_eq_zero fun p _ => by rw [h p p.isLt, zero_mul]
  have h2 : ∀ p : Fin (2 * L), synthesis L c th ((p : ℕ) * Real.pi / L) * exp (-(I * k * (((p : ℕ) * (Real.pi / L) : ℝ) : ℂ))) =
      ∑ m ∈ Finset.Ioo (-(L : ℤ)) L, orderPart L c m th * exp (((m - k : ℤ) : ℂ) * I * (((p : ℕ) * (Real.pi / L) : ℝ) : ℂ)) := by
    intro p
    rw [synthesis_orders, Finset.sum_mul]
    refine Finset.sum_congr rfl fun m _ => ?_
    rw [mul_assoc, ← exp_add]
    congr 2
    push_cast
    ring
  rw [Finset.sum_congr rfl fun p _ => h2 p, Finset.sum_comm] at h1
  have h3 : ∀ m ∈ Finset.Ioo (-(L : ℤ)) L, ∑ p : Fin (2 * L), orderPart L c m th *
      exp (((m - k : ℤ) : ℂ) * I * (((p : ℕ) * (Real.pi / L) : ℝ) : ℂ)) = if m = k then orderPart L c m th * ((2 * L : ℕ) : ℂ) else 0 := by
    intro m hm
    rw [Finset.mem_Ioo] at hm hk
    rw [← Finset.mul_sum, GridHarmonics.sum_exp hL (m - k) (by rw [abs_lt]; omega)]
    by_cases hmk : m = k
    · simp [hmk]
    · rw [if_neg (by omega), if_neg hmk, mul_zero]
  rw [Finset.sum_congr rfl h3, Finset.sum_ite_eq' _ k, if_pos hk] at h1
  refine (mul_eq_zero.1 h1).resolve_right ?_
  exact_mod_cast (by omega : 2 * L ≠ 0)

/-- a field that vanishes on the grid vanishes. -/
theorem synthesis_zero {L : ℕ} (hL : 1 ≤ L) (c : List ℂ)
    (h : ∀ t ≤ L, ∀ p < 2 * L, synthesis L c (t * Real.pi / L) (p * Real.pi / L) = 0) (th ph : ℝ) : synthesis L c th ph = 0 := by
  rw [synthesis_orders]
  refine Finset.sum_eq_zero fun m hm => ?_
  have : orderPart L c m th = 0 := by
    refine theta_int hL m (by rw [Finset.mem_Ioo] at hm; rw [abs_lt]; exact hm) _ (fun t ht => ?_) th
    exact orderPart_zero hL c _ (h t ht) m hm
  rw [this, zero_mul]

/-- its coefficients are zero. -/
theorem coeff_zero {L : ℕ} (hL : 1 ≤ L) (c : List ℂ)
    (h : ∀ t ≤ L, ∀ p < 2 * L, synthesis L c (t * Real.pi / L) (p * Real.pi / L) = 0) (i : ℕ) (hi : i < L ^ 2) : c.getD i 0 = 0 := by
  have h0 : synthesis L c = fun _ _ => 0 := by funext th ph; exact synthesis_zero hL c h th ph
  have h1 := inner_sums (fun j : Fin (L ^ 2) => c.getD j 0) (fun j : Fin (L ^ 2) => if (j : ℕ) = i then 1 else 0)
  have h2 : (fun th ph => ∑ j : Fin (L ^ 2), c.getD j 0 * harm j th ph) = fun _ _ => 0 := by
    rw [← h0]; funext th ph; exact (synthesis_eq L c th ph).symm
  rw [h2, Finset.sum_eq_single (⟨i, hi⟩ : Fin (L ^ 2))] at h1
  · simp [sphereInner, Spec.surface] at h1
    rw [List.getD_eq_getElem?_getD]
    exact h1.symm
  · intro j _ hj
    have : (j : ℕ) ≠ i := fun h => hj (Fin.ext h)
    simp [this]
  · simp

end Sleplet.Sampling
