import Mathlib.LinearAlgebra.Lagrange
import Verif.Lemmas.RegionEnergy
import Verif.Lemmas.SumOfNumbers

/-! How many bandlimited fields are told apart by samples on rings of a grid. -/
namespace Sleplet.Gaunt

open Complex Polynomial Sleplet.Spec Sleplet.RealMat

theorem bandlimited_add {L : ℕ} {f g : ℝ → ℝ → ℂ} (hf : f ∈ bandlimited L) (hg : g ∈ bandlimited L) : f + g ∈ bandlimited L := by
  obtain ⟨a, rfl⟩ := (mem_bandlimited_iff L f).1 hf
  obtain ⟨b, rfl⟩ := (mem_bandlimited_iff L g).1 hg
  refine (mem_bandlimited_iff L _).2 ⟨a + b, ?_⟩
  funext th ph
  simp [comb, add_mul, Finset.sum_add_distrib]

theorem bandlimited_smul {L : ℕ} (c : ℂ) {f : ℝ → ℝ → ℂ} (hf : f ∈ bandlimited L) : c • f ∈ bandlimited L := by
  obtain ⟨a, rfl⟩ := (mem_bandlimited_iff L f).1 hf
  refine (mem_bandlimited_iff L _).2 ⟨c • a, ?_⟩
  funext th ph
  simp [comb, mul_assoc, Finset.mul_sum]

theorem bandlimited_zero_mem (L : ℕ) : (0 : ℝ → ℝ → ℂ) ∈ bandlimited L := by
  refine (mem_bandlimited_iff L _).2 ⟨0, ?_⟩
  funext th ph
  simp [comb]

theorem sphHarm_mem {L l : ℕ} {m : ℤ} (hm : |m| ≤ l) (hl : l < L) : sphHarm l m ∈ bandlimited L := by
  have h := harm_mem (L := L) ⟨elm2ind l m, (elm2ind_lt_sq hm _).2 hl⟩
  have : harm (elm2ind l m) = sphHarm l m := by
    unfold harm
    rw [ind2elm_elm2ind hm]
  rwa [this] at h

/-- the function with a polynomial of the cosine and the order `m`. -/
noncomputable def poly (m : ℤ) (Q : ℝ[X]) (th ph : ℝ) : ℂ :=
  ((Real.sqrt (1 - Real.cos th ^ 2) ^ m.natAbs * Q.eval (Real.cos th) : ℝ) : ℂ) * exp (I * m * ph)

theorem natDegree_dq_lead {l k : ℕ} (h : k ≤ l) : (dq l (l + k)).degree < ((l - k + 1 : ℕ) : WithBot ℕ) ∧ (dq l (l + k)).coeff (l - k) ≠ 0 := by
  have hq : (q : ℝ[X]).Monic := by
    unfold q
    monicity!
  have hd : (q : ℝ[X]).natDegree = 2 := by
    unfold q
    compute_degree!
  have hm := hq.pow l
  have hn : (q ^ l : ℝ[X]).natDegree = 2 * l := by rw [hq.natDegree_pow, hd, mul_comm]
  constructor
  · refine lt_of_le_of_lt degree_le_natDegree ?_
    have := natDegree_iterate_derivative (q ^ l : ℝ[X]) (l + k)
    rw [hn] at this
    have h2 : (dq l (l + k)).natDegree ≤ 2 * l - (l + k) := this
    exact_mod_cast (by omega : (dq l (l + k)).natDegree < l - k + 1)
  · unfold dq
    rw [coeff_iterate_derivative, show l - k + (l + k) = 2 * l by omega]
    have : (q ^ l : ℝ[X]).coeff (2 * l) = 1 := by
      have := hm.coeff_natDegree
      rwa [hn] at this
    rw [this]
    simp [Nat.descFactorial_eq_zero_iff_lt]
    omega

theorem sphHarm_poly {l : ℕ} {m : ℤ} (h : |m| ≤ l) : ∃ c : ℝ, c ≠ 0 ∧ sphHarm l m = (c : ℂ) • poly m (dq l (l + m.natAbs)) := by
  have hk : m.natAbs ≤ l := by rw [Int.abs_eq_natAbs] at h; exact_mod_cast h
  refine ⟨(if m < 0 then (-1) ^ m.natAbs else 1) * (nrm l m.natAbs * ((-1) ^ m.natAbs / (2 ^ l * (l.factorial : ℝ)))), ?_, ?_⟩
  · have h1 : nrm l m.natAbs ≠ 0 := by
      rw [nrm_nat hk]
      have := Real.pi_pos
      positivity
    have h2 : ((if m < 0 then (-1) ^ m.natAbs else 1 : ℝ)) ≠ 0 := by split <;> simp
    have h3 : ((-1) ^ m.natAbs / (2 ^ l * (l.factorial : ℝ)) : ℝ) ≠ 0 := div_ne_zero (pow_ne_zero _ (by norm_num)) (by positivity)
    exact mul_ne_zero h2 (mul_ne_zero h1 h3)
  · funext th ph
    rw [sphHarm_eq, thetaPart_int h, thetaPart, assocLegendre_nat]
    simp only [Pi.smul_apply, smul_eq_mul, poly]
    push_cast
    ring

/-- a polynomial of degree below `d` times the harmonic of order `m` is a field of any bandlimit from `d + |m|`. -/
theorem poly_mem {L : ℕ} {m : ℤ} (d : ℕ) (hd : d + m.natAbs ≤ L) (Q : ℝ[X]) (hQ : Q.degree < (d : WithBot ℕ)) : poly m Q ∈ bandlimited L := by
  induction d generalizing Q with
  | zero =>
    have : Q = 0 := degree_eq_bot.1 (by simpa [Nat.WithBot.lt_zero_iff] using hQ)
    have h0 : poly m Q = 0 := by
      funext th ph
      simp [poly, this]
    rw [h0]
    exact bandlimited_zero_mem L
  | succ d ih =>
    have hm : |m| ≤ ((d + m.natAbs : ℕ) : ℤ) := by rw [Int.abs_eq_natAbs]; push_cast; omega
    obtain ⟨c, hc, hY⟩ := sphHarm_poly hm
    obtain ⟨h1, h2⟩ := natDegree_dq_lead (l := d + m.natAbs) (k := m.natAbs) (by omega)
    rw [show d + m.natAbs - m.natAbs = d by omega] at h1 h2
    set D := dq (d + m.natAbs) (d + m.natAbs + m.natAbs)
    let a := Q.coeff d / D.coeff d
    have hR : (Q - Polynomial.C a * D).degree < (d : WithBot ℕ) := by
      rw [degree_lt_iff_coeff_zero]
      intro j hj
      rw [coeff_sub, coeff_C_mul]
      rcases eq_or_lt_of_le hj with rfl | hlt
      · simp only [a]
        field_simp
        ring
      · rw [(degree_lt_iff_coeff_zero _ _).1 hQ j (by omega), (degree_lt_iff_coeff_zero _ _).1 h1 j (by omega)]
        ring
    have h3 := ih (by omega) _ hR
    have h4 := bandlimited_smul ((a / c : ℝ) : ℂ) (sphHarm_mem (L := L) hm (by omega))
    have h5 : poly m Q = poly m (Q - Polynomial.C a * D) + ((a / c : ℝ) : ℂ) • sphHarm (d + m.natAbs) m := by
      rw [hY]
      funext th ph
      have hc' : (c : ℂ) ≠ 0 := by exact_mod_cast hc
      simp only [Pi.add_apply, Pi.smul_apply, smul_eq_mul, poly, eval_sub, eval_mul, eval_C]
      push_cast
      field_simp
      ring
    rw [h5]
    exact bandlimited_add h3 h4

/-- a trigonometric sum of `k` consecutive orders that vanishes at `k` or more angles. -/
theorem trig_zero {k : ℕ} (c : Fin k → ℂ) (A : Finset ℝ) (hA : Set.InjOn (fun ph : ℝ => exp (I * ph)) A) (hk : k ≤ A.card) (s : ℤ)
    (h : ∀ ph ∈ A, ∑ j : Fin k, c j * exp (I * (((j : ℕ) : ℤ) + s : ℤ) * (ph : ℝ)) = 0) : c = 0 := by
  classical
  rcases Nat.eq_zero_or_pos k with rfl | hk0
  · funext j
    exact j.elim0
  let P : ℂ[X] := ∑ j : Fin k, Polynomial.C (c j) * X ^ (j : ℕ)
  have hcoef : ∀ j : Fin k, P.coeff j = c j := by
    intro j
    simp only [P, finsetSum_coeff, coeff_C_mul_X_pow]
    rw [Finset.sum_eq_single j (fun i _ hi => if_neg fun h => hi (Fin.ext h.symm)) (by simp)]
    simp
  have hdeg : P.degree < (k : WithBot ℕ) := by
    rw [degree_lt_iff_coeff_zero]
    intro i hi
    simp only [P, finsetSum_coeff, coeff_C_mul_X_pow]
    exact Finset.sum_eq_zero fun j _ => if_neg (by have := j.2; omega)
  have hP : P = 0 := by
    refine eq_zero_of_degree_lt_of_eval_finset_eq_zero (A.image fun ph : ℝ => exp (I * ph)) ?_ ?_
    · rw [Finset.card_image_of_injOn hA]
      exact lt_of_lt_of_le hdeg (by exact_mod_cast hk)
    · intro z hz
      obtain ⟨ph, hph, rfl⟩ := Finset.mem_image.1 hz
      have h1 := h ph hph
      have h2 : ∀ j : Fin k, c j * exp (I * (((j : ℕ) : ℤ) + s : ℤ) * (ph : ℝ)) = exp (I * s * ph) * (c j * exp (I * ph) ^ (j : ℕ)) := by
        intro j
        rw [← Complex.exp_nat_mul, mul_left_comm, ← Complex.exp_add]
        congr 2
        push_cast
        ring
      rw [Finset.sum_congr rfl fun j _ => h2 j, ← Finset.mul_sum] at h1
      have h3 := (mul_eq_zero.1 h1).resolve_left (Complex.exp_ne_zero _)
      simpa [P, eval_finsetSum] using h3
  funext j
  rw [← hcoef j, hP]
  simp

/-- samples on rings tell apart as many fields as this. -/
theorem told_apart {L : ℕ} (th : Fin L → ℝ) (hcos : Function.Injective fun i => Real.cos (th i)) (hsin : ∀ i, Real.cos (th i) ^ 2 < 1)
    (A : Fin L → Finset ℝ) (hA : ∀ i, Set.InjOn (fun ph : ℝ => exp (I * ph)) (A i)) (k : Fin L → ℕ) (hk : ∀ i, k i ≤ (A i).card)
    (hk' : ∀ i : Fin L, k i ≤ 2 * (L - 1 - i) + 1) : ∃ F : (Σ i : Fin L, Fin (k i)) → ℝ → ℝ → ℂ, (∀ x, F x ∈ bandlimited L) ∧
      ∀ a : (Σ i : Fin L, Fin (k i)) → ℂ, (∀ i, ∀ ph ∈ A i, ∑ x, a x * F x (th i) ph = 0) → a = 0 := by
  classical
  let Q : Fin L → ℝ[X] := fun i => ∏ s ∈ Finset.univ.filter (· < i), (X - Polynomial.C (Real.cos (th s)))
  let m : (Σ i : Fin L, Fin (k i)) → ℤ := fun x => (((x.2 : ℕ) : ℤ) + -((L : ℤ) - 1 - (x.1 : ℕ)))
  refine ⟨fun x => poly (m x) (Q x.1), fun x => ?_, fun a ha => ?_⟩
  · have hx := x.2.2
    have hx1 := x.1.2
    have hb := hk' x.1
    refine poly_mem ((x.1 : ℕ) + 1) ?_ _ ?_
    · simp only [m]
      omega
    · have h1 : (Q x.1).natDegree ≤ x.1 := by
        refine (natDegree_prod_le _ _).trans ?_
        refine (Finset.sum_le_card_nsmul _ _ 1 fun s _ => natDegree_X_sub_C_le _).trans ?_
        rw [Finset.filter_gt_eq_Iio, Fin.card_Iio, smul_eq_mul, mul_one]
      refine lt_of_le_of_lt degree_le_natDegree ?_
      exact_mod_cast Nat.lt_succ_of_le h1
  · have hQ0 : ∀ i j : Fin L, i < j → (Q j).eval (Real.cos (th i)) = 0 := by
      intro i j hij
      simp only [Q, eval_prod]
      exact Finset.prod_eq_zero (i := i) (by simp [hij]) (by simp)
    have hQ1 : ∀ i : Fin L, (Q i).eval (Real.cos (th i)) ≠ 0 := by
      intro i
      simp only [Q, eval_prod]
      refine Finset.prod_ne_zero_iff.2 fun s hs => ?_
      have hs : s < i := by simpa using hs
      simp only [eval_sub, eval_X, eval_C]
      exact sub_ne_zero.2 fun h => hs.ne (hcos h).symm
    have key : ∀ n : ℕ, ∀ i : Fin L, (i : ℕ) = n → ∀ j : Fin (k i), a ⟨i, j⟩ = 0 := by
      intro n
      induction n using Nat.strong_induction_on with
      | _ n ih =>
        intro i hi
        have h1 : (fun j : Fin (k i) => a ⟨i, j⟩ * ((Real.sqrt (1 - Real.cos (th i) ^ 2) ^ (m ⟨i, j⟩).natAbs *
            (Q i).eval (Real.cos (th i)) : ℝ) : ℂ)) = 0 := by
          refine trig_zero _ (A i) (hA i) (hk i) (-((L : ℤ) - 1 - (i : ℕ))) fun ph hph => ?_
          have h2 := ha i ph hph
          rw [Fintype.sum_sigma, Finset.sum_eq_single i] at h2
          · rw [← h2]
            refine Finset.sum_congr rfl fun j _ => ?_
            simp only [poly, m]
            ring
          · intro i' _ hne
            refine Finset.sum_eq_zero fun j _ => ?_
            rcases lt_or_gt_of_ne hne with hlt | hlt
            · rw [ih i' (by have : (i' : ℕ) < i := hlt; omega) i' rfl j, zero_mul]
            · simp only [poly]
              rw [hQ0 i i' hlt]
              simp
          · simp
        intro j
        have h3 := congrFun h1 j
        simp only [Pi.zero_apply] at h3
        refine (mul_eq_zero.1 h3).resolve_right ?_
        have : 0 < Real.sqrt (1 - Real.cos (th i) ^ 2) := Real.sqrt_pos.2 (by linarith [hsin i])
        exact_mod_cast mul_ne_zero (pow_ne_zero _ this.ne') (hQ1 i)
    funext ⟨i, j⟩
    exact key i i rfl j

/-- fields that the region tells apart: as many numbers are positive. -/
theorem numbers_pos {L n : ℕ} {region : (ℝ → ℝ → ℂ) → ℝ} {s : Fin n → ℝ → ℝ → ℂ} {e : Fin n → ℝ}
    (h : BestConcentrated (bandlimited L) sphereInner region s e) {ρ : ℕ} (F : Fin ρ → ℝ → ℝ → ℂ) (hF : ∀ i, F i ∈ bandlimited L)
    (hpos : ∀ a : Fin ρ → ℂ, a ≠ 0 → 0 < region (∑ i, a i • F i)) (p : Fin n) (hp : (p : ℕ) < ρ) : 0 < e p := by
  by_contra hneg
  obtain ⟨b, hb, h0⟩ := exists_perp (linearOn_bandlimited L) (k := p) (fun i : Fin (p + 1) => F ⟨i, by have := i.2; omega⟩)
    (fun j : Fin p => s ⟨j, by have := j.2; have := p.2; omega⟩) (fun i => hF _) (fun j => h.mem _)
  let a : Fin ρ → ℂ := fun i => if hi : (i : ℕ) < p + 1 then b ⟨i, hi⟩ else 0
  have ha : ∑ i, a i • F i = ∑ i : Fin (p + 1), b i • F ⟨i, by have := i.2; omega⟩ := by
    obtain ⟨r, rfl⟩ : ∃ r, ρ = (p + 1) + r := ⟨ρ - (p + 1), by omega⟩
    rw [Fin.sum_univ_add]
    have h1 : ∀ i : Fin r, a (Fin.natAdd (p + 1) i) = 0 := fun i => dif_neg (by simp only [Fin.val_natAdd]; omega)
    have h2 : ∀ i : Fin (p + 1), a (Fin.castAdd r i) = b i := fun i => dif_pos (by simp only [Fin.val_castAdd]; exact i.2)
    simp only [h1, h2, zero_smul, Finset.sum_const_zero, add_zero]
    rfl
  have hane : a ≠ 0 := by
    obtain ⟨j, hj⟩ := Function.ne_iff.1 hb
    refine Function.ne_iff.2 ⟨⟨j, by have := j.2; omega⟩, ?_⟩
    have : a ⟨j, by have := j.2; omega⟩ = b j := dif_pos j.2
    rw [this]
    exact hj
  have hr := hpos a hane
  rw [ha] at hr
  have hmem := (linearOn_bandlimited L).mem b (fun i : Fin (p + 1) => F ⟨i, by have := i.2; omega⟩) fun i => hF _
  have h1 := h.best p _ hmem fun q hq => h0 ⟨q, hq⟩
  have h2 : 0 ≤ RCLike.re (sphereInner (∑ i : Fin (p + 1), b i • F ⟨i, by have := i.2; omega⟩)
      (∑ i : Fin (p + 1), b i • F ⟨i, by have := i.2; omega⟩)) := by
    rw [h.energy _ hmem]
    exact Finset.sum_nonneg fun q _ => sq_nonneg _
  have h3 := mul_nonneg (neg_nonneg.2 (not_lt.1 hneg)) h2
  linarith

end Sleplet.Gaunt
