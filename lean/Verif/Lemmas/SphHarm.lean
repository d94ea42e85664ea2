import Verif.Lemmas.PolarCap

/-!
Spherical harmonics by Rodrigues' formula: symmetry, continuity, products, orthonormality, addition theorem.
-/
namespace Sleplet.Gaunt

open Polynomial Sleplet.Spec Sleplet.RealMat Complex

/-- the normalisation. -/
noncomputable def nrm (l : ℕ) (m : ℤ) : ℝ :=
  Real.sqrt ((2 * l + 1) / (4 * Real.pi) * (((l - m).toNat.factorial : ℝ) / ((l + m).toNat.factorial : ℝ)))

/-- the factor that depends on the colatitude. -/
noncomputable def thetaPart (l : ℕ) (m : ℤ) (th : ℝ) : ℝ := nrm l m * assocLegendre l m (Real.cos th)

theorem sphHarm_eq (l : ℕ) (m : ℤ) (th ph : ℝ) : sphHarm l m th ph = (thetaPart l m th : ℂ) * exp (I * m * ph) := rfl

theorem assocLegendre_nat (l m : ℕ) (x : ℝ) : assocLegendre l (m : ℤ) x =
    (-1) ^ m / (2 ^ l * (l.factorial : ℝ)) * Real.sqrt (1 - x ^ 2) ^ m * (dq l (l + m)).eval x := by
  unfold assocLegendre
  rw [zpow_natCast, zpow_natCast, show ((l : ℤ) + m).toNat = l + m by omega]
  rfl

theorem eval_q_pow {x : ℝ} (hx : x ^ 2 ≤ 1) (m : ℕ) : (q ^ m).eval x = (-1) ^ m * (Real.sqrt (1 - x ^ 2) ^ m * Real.sqrt (1 - x ^ 2) ^ m) := by
  rw [← mul_pow, Real.mul_self_sqrt (by linarith), eval_pow, eval_q, ← mul_pow]
  congr 1; ring

theorem assocLegendre_neg {l m : ℕ} (h : m ≤ l) {x : ℝ} (hx : x ^ 2 ≤ 1) :
    ((l + m).factorial : ℝ) * assocLegendre l (-(m : ℤ)) x = (-1) ^ m * ((l - m).factorial : ℝ) * assocLegendre l m x := by
  have hr := congrArg (eval x) (dq_reflect h)
  rw [eval_mul, eval_C, eval_mul, eval_C, eval_mul, eval_q_pow hx] at hr
  rw [assocLegendre_nat]
  unfold assocLegendre
  rw [show ((l : ℤ) + -m).toNat = l - m by omega]
  change _ * (_ * (dq l (l - m)).eval x) = _
  set s := Real.sqrt (1 - x ^ 2)
  have hs : s ^ (-(m : ℤ)) * (s ^ m * s ^ m) = s ^ m := by
    rw [zpow_neg, zpow_natCast]
    by_cases h0 : s ^ m = 0
    · rw [h0]; simp
    · field_simp
  have h1 : ((-1 : ℝ)) ^ (-(m : ℤ)) = (-1) ^ m := by
    rw [zpow_neg, zpow_natCast, ← inv_pow]; norm_num
  have h2 : ((-1 : ℝ)) ^ m * (-1) ^ m = 1 := by rw [← mul_pow]; simp
  rw [h1]
  calc ((l + m).factorial : ℝ) * ((-1) ^ m / (2 ^ l * (l.factorial : ℝ)) * s ^ (-(m : ℤ)) * (dq l (l - m)).eval x)
      = (-1) ^ m / (2 ^ l * (l.factorial : ℝ)) * s ^ (-(m : ℤ)) * (((l + m).factorial : ℝ) * (dq l (l - m)).eval x) := by ring
    _ = (-1) ^ m / (2 ^ l * (l.factorial : ℝ)) * (s ^ (-(m : ℤ)) * (s ^ m * s ^ m)) * ((-1) ^ m * ((l - m).factorial : ℝ)) *
          (dq l (l + m)).eval x := by rw [hr]; ring
    _ = _ := by rw [hs]; ring

theorem nrm_nat {l m : ℕ} (h : m ≤ l) : nrm l m = Real.sqrt ((2 * l + 1) / (4 * Real.pi)) *
    Real.sqrt (((l - m).factorial : ℝ) / ((l + m).factorial : ℝ)) := by
  unfold nrm
  rw [show ((l : ℤ) - m).toNat = l - m by omega, show ((l : ℤ) + m).toNat = l + m by omega, Real.sqrt_mul (by positivity)]

theorem nrm_neg {l m : ℕ} (h : m ≤ l) : nrm l (-(m : ℤ)) = Real.sqrt ((2 * l + 1) / (4 * Real.pi)) *
    Real.sqrt (((l + m).factorial : ℝ) / ((l - m).factorial : ℝ)) := by
  unfold nrm
  rw [show ((l : ℤ) - -m).toNat = l + m by omega, show ((l : ℤ) + -m).toNat = l - m by omega, Real.sqrt_mul (by positivity)]

theorem sqrt_div_mul {a b : ℝ} (ha : 0 < a) (hb : 0 < b) : Real.sqrt (a / b) * (b / a) = Real.sqrt (b / a) := by
  have h : b / a = Real.sqrt (b / a) * Real.sqrt (b / a) := (Real.mul_self_sqrt (by positivity)).symm
  have h2 : Real.sqrt (a / b) * Real.sqrt (b / a) = 1 := by
    rw [← Real.sqrt_mul (by positivity), show a / b * (b / a) = 1 by field_simp, Real.sqrt_one]
  conv_lhs => rw [h]
  rw [← mul_assoc, h2, one_mul]

theorem thetaPart_neg {l m : ℕ} (h : m ≤ l) (th : ℝ) : thetaPart l (-(m : ℤ)) th = (-1) ^ m * thetaPart l m th := by
  unfold thetaPart
  have hx : Real.cos th ^ 2 ≤ 1 := Real.cos_sq_le_one th
  have h1 := assocLegendre_neg h hx
  have a : (0 : ℝ) < ((l + m).factorial : ℝ) := by positivity
  have b : (0 : ℝ) < ((l - m).factorial : ℝ) := by positivity
  have h2 : assocLegendre l (-(m : ℤ)) (Real.cos th) =
      (-1) ^ m * (((l - m).factorial : ℝ) / ((l + m).factorial : ℝ)) * assocLegendre l m (Real.cos th) := by
    field_simp
    linear_combination h1
  rw [h2, nrm_nat h, nrm_neg h, ← sqrt_div_mul a b]
  ring

theorem thetaPart_int {l : ℕ} {m : ℤ} (h : |m| ≤ l) (th : ℝ) :
    thetaPart l m th = (if m < 0 then (-1) ^ m.natAbs else 1) * thetaPart l (m.natAbs : ℕ) th := by
  rw [abs_le] at h
  split
  · rename_i hm
    obtain ⟨k, rfl⟩ : ∃ k : ℕ, m = -(k : ℤ) := ⟨m.natAbs, by omega⟩
    rw [Int.natAbs_neg, Int.natAbs_natCast, thetaPart_neg (by omega)]
  · rename_i hm
    rw [one_mul]; congr 1; omega

theorem continuous_thetaPart {l : ℕ} {m : ℤ} (h : |m| ≤ l) : Continuous (thetaPart l m) := by
  have hn : ∀ k : ℕ, Continuous (thetaPart l (k : ℤ)) := by
    intro k
    unfold thetaPart
    simp only [assocLegendre_nat]
    have := (dq l (l + k)).continuous
    fun_prop
  have : thetaPart l m = fun th => (if m < 0 then (-1) ^ m.natAbs else 1) * thetaPart l (m.natAbs : ℕ) th := by
    funext th; exact thetaPart_int h th
  rw [this]
  exact continuous_const.mul (hn _)

theorem continuous_sphHarm {l : ℕ} {m : ℤ} (h : |m| ≤ l) : Continuous fun x : ℝ × ℝ => sphHarm l m x.1 x.2 := by
  have := continuous_thetaPart h
  simp only [sphHarm_eq]
  fun_prop

/-- products of harmonics of the same order are polynomials of the cosine. -/
theorem thetaPart_mul {el p m : ℕ} (h1 : m ≤ el) (h2 : m ≤ p) (th : ℝ) :
    thetaPart el (m : ℤ) th * thetaPart p (m : ℤ) th = Real.sqrt ((2 * el + 1) / (4 * Real.pi)) * Real.sqrt ((2 * p + 1) / (4 * Real.pi)) *
      (-1) ^ m / (2 ^ (el + p) * ((el.factorial : ℝ) * p.factorial)) *
      (Real.sqrt (((el - m).factorial : ℝ) / ((el + m).factorial : ℝ)) *
        Real.sqrt (((p + m).factorial : ℝ) / ((p - m).factorial : ℝ))) * (prodP m el p).eval (Real.cos th) := by
  have hx : Real.cos th ^ 2 ≤ 1 := Real.cos_sq_le_one th
  have hr := congrArg (eval (Real.cos th)) (dq_reflect h2)
  rw [eval_mul, eval_C, eval_mul, eval_C, eval_mul, eval_q_pow hx] at hr
  unfold thetaPart
  rw [assocLegendre_nat, assocLegendre_nat, nrm_nat h1, nrm_nat h2]
  unfold prodP
  rw [eval_mul]
  set s := Real.sqrt (1 - Real.cos th ^ 2)
  have a : (0 : ℝ) < ((p + m).factorial : ℝ) := by positivity
  have b : (0 : ℝ) < ((p - m).factorial : ℝ) := by positivity
  have h3 : ((-1 : ℝ)) ^ m * (-1) ^ m = 1 := by rw [← mul_pow]; simp
  have hr' : s ^ m * s ^ m * (dq p (p + m)).eval (Real.cos th) =
      (-1) ^ m * (((p + m).factorial : ℝ) / ((p - m).factorial : ℝ)) * (dq p (p - m)).eval (Real.cos th) := by
    field_simp
    linear_combination (-(-1) ^ m) * hr + (-(((p - m).factorial : ℝ) * (s ^ m * s ^ m) * (dq p (p + m)).eval (Real.cos th))) * h3
  rw [← sqrt_div_mul b a]
  set Q := Real.sqrt (((p - m).factorial : ℝ) / ((p + m).factorial : ℝ))
  set P := Real.sqrt (((el - m).factorial : ℝ) / ((el + m).factorial : ℝ))
  have f1 : (el.factorial : ℝ) ≠ 0 := by positivity
  have f2 : (p.factorial : ℝ) ≠ 0 := by positivity
  calc _ = Real.sqrt ((2 * el + 1) / (4 * Real.pi)) * Real.sqrt ((2 * p + 1) / (4 * Real.pi)) * P * Q * ((-1) ^ m * (-1) ^ m) /
        (2 ^ (el + p) * ((el.factorial : ℝ) * p.factorial)) * (dq el (el + m)).eval (Real.cos th) *
        (s ^ m * s ^ m * (dq p (p + m)).eval (Real.cos th)) := by rw [pow_add]; field_simp
    _ = _ := by rw [h3, hr']; ring

theorem sphHarm_mul_conj (l p : ℕ) (m k : ℤ) (th ph : ℝ) : sphHarm l m th ph * (starRingEnd ℂ) (sphHarm p k th ph) =
    exp (((m - k : ℤ) : ℂ) * I * ph) * ((thetaPart l m th * thetaPart p k th : ℝ) : ℂ) := by
  rw [sphHarm_eq, sphHarm_eq, map_mul, conj_ofReal, ← exp_conj]
  simp only [map_mul, conj_I, conj_ofReal, map_intCast]
  rw [show (thetaPart l m th : ℂ) * exp (I * m * ph) * ((thetaPart p k th : ℂ) * exp (-I * k * ph)) =
    (exp (I * m * ph) * exp (-I * k * ph)) * (thetaPart l m th * thetaPart p k th) by ring, ← exp_add]
  push_cast
  congr 2; ring

theorem integral_exp_int (k : ℤ) : ∫ ph in (0 : ℝ)..2 * Real.pi, exp ((k : ℂ) * I * ph) = if k = 0 then 2 * Real.pi else 0 := by
  split
  · rename_i h; subst h; simp
  · rename_i h
    have hk : (k : ℂ) * I ≠ 0 := mul_ne_zero (by exact_mod_cast h) I_ne_zero
    rw [integral_exp_mul_complex hk]
    have : exp ((k : ℂ) * I * ((2 * Real.pi : ℝ) : ℂ)) = 1 := by
      rw [exp_eq_one_iff]; exact ⟨k, by push_cast; ring⟩
    rw [this]; simp

theorem surface_sphHarm (l p : ℕ) (m k : ℤ) (t0 t1 : ℝ) :
    surface t0 t1 0 (2 * Real.pi) (fun th ph => sphHarm l m th ph * (starRingEnd ℂ) (sphHarm p k th ph)) =
      (if m = k then 2 * Real.pi else 0) * ((∫ th in t0..t1, thetaPart l m th * thetaPart p k th * Real.sin th : ℝ) : ℂ) := by
  unfold surface
  have : ∀ ph : ℝ, (∫ th in t0..t1, sphHarm l m th ph * (starRingEnd ℂ) (sphHarm p k th ph) * (Real.sin th : ℂ)) =
      exp (((m - k : ℤ) : ℂ) * I * ph) * ((∫ th in t0..t1, thetaPart l m th * thetaPart p k th * Real.sin th : ℝ) : ℂ) := by
    intro ph
    rw [← intervalIntegral.integral_ofReal, ← intervalIntegral.integral_const_mul]
    congr 1
    funext th
    rw [sphHarm_mul_conj]; push_cast; ring
  simp only [this]
  rw [intervalIntegral.integral_mul_const, integral_exp_int]
  simp only [sub_eq_zero]

theorem integral_cos_poly (r : ℝ[X]) (t0 t1 : ℝ) : ∫ th in t0..t1, r.eval (Real.cos th) * Real.sin th = intg (Real.cos t1) (Real.cos t0) r := by
  have h := intervalIntegral.integral_comp_mul_deriv (a := t0) (b := t1) (f := Real.cos) (f' := fun x => -Real.sin x)
    (g := fun x => r.eval x) (fun x _ => Real.hasDerivAt_cos x) (by fun_prop) r.continuous
  unfold intg
  rw [intervalIntegral.integral_symm (Real.cos t0), ← h, ← intervalIntegral.integral_neg]
  congr 1
  funext th
  simp only [Function.comp]; ring

theorem integral_thetaPart {el p : ℕ} {m : ℤ} (h1 : |m| ≤ el) (h2 : |m| ≤ p) (t0 t1 : ℝ) :
    ∫ th in t0..t1, thetaPart el m th * thetaPart p m th * Real.sin th =
      Real.sqrt ((2 * el + 1) / (4 * Real.pi)) * Real.sqrt ((2 * p + 1) / (4 * Real.pi)) *
      (-1) ^ m.natAbs / (2 ^ (el + p) * ((el.factorial : ℝ) * p.factorial)) *
      (Real.sqrt (((el - m.natAbs).factorial : ℝ) / ((el + m.natAbs).factorial : ℝ)) *
        Real.sqrt (((p + m.natAbs).factorial : ℝ) / ((p - m.natAbs).factorial : ℝ))) *
      intg (Real.cos t1) (Real.cos t0) (prodP m.natAbs el p) := by
  rw [← integral_cos_poly, ← intervalIntegral.integral_const_mul]
  congr 1
  funext th
  have a1 := h1
  have a2 := h2
  rw [Int.abs_eq_natAbs] at a1 a2
  have h3 : ((-1 : ℝ)) ^ m.natAbs * (-1) ^ m.natAbs = 1 := by rw [← mul_pow]; simp
  have : thetaPart el m th * thetaPart p m th = thetaPart el (m.natAbs : ℕ) th * thetaPart p (m.natAbs : ℕ) th := by
    rw [thetaPart_int h1, thetaPart_int h2]
    split
    · linear_combination (thetaPart el (m.natAbs : ℕ) th * thetaPart p (m.natAbs : ℕ) th) * h3
    · ring
  rw [this, thetaPart_mul (by omega) (by omega)]
  ring

/-- orthonormality on the sphere. -/
theorem sphHarm_orthonormal {l p : ℕ} {m k : ℤ} (h1 : |m| ≤ l) (h2 : |k| ≤ p) :
    surface 0 Real.pi 0 (2 * Real.pi) (fun th ph => sphHarm l m th ph * (starRingEnd ℂ) (sphHarm p k th ph)) =
      if l = p ∧ m = k then 1 else 0 := by
  rw [surface_sphHarm]
  by_cases hm : m = k
  · subst hm
    rw [if_pos rfl, integral_thetaPart h1 h2, Real.cos_pi, Real.cos_zero, intg_prodP_whole (by rw [Int.abs_eq_natAbs] at h2; omega)]
    by_cases h : l = p
    · subst h
      rw [if_pos rfl, if_pos ⟨rfl, rfl⟩]
      have h3 : ((-1 : ℝ)) ^ m.natAbs * (-1) ^ m.natAbs = 1 := by rw [← mul_pow]; simp
      have hs : Real.sqrt ((2 * l + 1) / (4 * Real.pi)) * Real.sqrt ((2 * l + 1) / (4 * Real.pi)) = (2 * l + 1) / (4 * Real.pi) :=
        Real.mul_self_sqrt (by positivity)
      have hq : Real.sqrt (((l - m.natAbs).factorial : ℝ) / ((l + m.natAbs).factorial : ℝ)) *
          Real.sqrt (((l + m.natAbs).factorial : ℝ) / ((l - m.natAbs).factorial : ℝ)) = 1 := by
        rw [← Real.sqrt_mul (by positivity)]
        rw [div_mul_div_cancel₀ (by positivity), div_self (by positivity), Real.sqrt_one]
      rw [hs, hq]
      have hpi := Real.pi_pos
      have h4 : (2 * (l : ℝ) + 1) ≠ 0 := by positivity
      have h5 : (l.factorial : ℝ) ≠ 0 := by positivity
      have : (2 * Real.pi) * ((2 * l + 1) / (4 * Real.pi) * (-1) ^ m.natAbs / (2 ^ (l + l) * ((l.factorial : ℝ) * l.factorial)) * 1 *
          ((-1) ^ m.natAbs * (2 ^ l * (l.factorial : ℝ)) ^ 2 * (2 / (2 * l + 1)))) = 1 := by
        calc _ = ((-1 : ℝ)) ^ m.natAbs * (-1) ^ m.natAbs := by
              rw [pow_add]; field_simp; ring
          _ = 1 := h3
      exact_mod_cast this
    · rw [if_neg h, if_neg (by tauto)]; simp
  · rw [if_neg hm, if_neg (by tauto)]; simp

theorem intg_opposite {m el p : ℕ} (h2 : m ≤ p) (c : ℝ) :
    intg (-1) (-c) (prodP m el p) = (-1) ^ (el + p) * intg c 1 (prodP m el p) := by
  have := intg_comp_neg c 1 (prodP m el p)
  rw [prodP_comp_neg h2, intg_C_mul] at this
  exact this

/-- the integral over a polar cap (or two) of a product of harmonics. -/
theorem cap_sphHarm {el p : ℕ} {m k : ℤ} (h1 : |m| ≤ el) (h2 : |k| ≤ p) (gap : Bool) (t : ℝ) :
    capIntegral gap t (fun th ph => sphHarm el m th ph * (starRingEnd ℂ) (sphHarm p k th ph)) =
      if m = k then
        (((-1) ^ m.natAbs * (if gap then (if Even (el + p) then 2 else 0) else 1) * Real.sqrt ((2 * el + 1) * (2 * p + 1)) / 2 *
          ∑ n ∈ Finset.range (el + p + 1), w3j el n p 0 0 0 * w3j el n p m.natAbs 0 (-m.natAbs) *
            ((if n = 0 then 1 else (legP (n - 1)).eval (Real.cos t)) - (legP (n + 1)).eval (Real.cos t)) : ℝ) : ℂ)
      else 0 := by
  unfold capIntegral
  rw [surface_sphHarm, surface_sphHarm]
  by_cases hm : m = k
  · subst hm
    have a1 := h1
    have a2 := h2
    rw [Int.abs_eq_natAbs] at a1 a2
    have b1 : m.natAbs ≤ el := by omega
    have b2 : m.natAbs ≤ p := by omega
    rw [if_pos rfl, if_pos rfl, integral_thetaPart h1 h2, integral_thetaPart h1 h2, Real.cos_pi, Real.cos_zero, Real.cos_pi_sub,
      intg_opposite b2, intg_prodP b1 b2]
    set S := ∑ n ∈ Finset.range (el + p + 1), w3j el n p 0 0 0 * w3j el n p m.natAbs 0 (-m.natAbs) *
            ((if n = 0 then 1 else (legP (n - 1)).eval (Real.cos t)) - (legP (n + 1)).eval (Real.cos t))
    have hq1 : Real.sqrt (((el - m.natAbs).factorial : ℝ) / ((el + m.natAbs).factorial : ℝ)) *
        Real.sqrt (((el + m.natAbs).factorial : ℝ) / ((el - m.natAbs).factorial : ℝ)) = 1 := by
      rw [← Real.sqrt_mul (by positivity), div_mul_div_cancel₀ (by positivity), div_self (by positivity), Real.sqrt_one]
    have hq2 : Real.sqrt (((p + m.natAbs).factorial : ℝ) / ((p - m.natAbs).factorial : ℝ)) *
        Real.sqrt (((p - m.natAbs).factorial : ℝ) / ((p + m.natAbs).factorial : ℝ)) = 1 := by
      rw [← Real.sqrt_mul (by positivity), div_mul_div_cancel₀ (by positivity), div_self (by positivity), Real.sqrt_one]
    have hN : Real.sqrt ((2 * el + 1) / (4 * Real.pi)) * Real.sqrt ((2 * p + 1) / (4 * Real.pi)) =
        Real.sqrt ((2 * el + 1) * (2 * p + 1)) / (4 * Real.pi) := by
      rw [← Real.sqrt_mul (by positivity), show (2 * (el : ℝ) + 1) / (4 * Real.pi) * ((2 * p + 1) / (4 * Real.pi)) =
        (2 * el + 1) * (2 * p + 1) / (4 * Real.pi) ^ 2 by ring, Real.sqrt_div (by positivity),
        Real.sqrt_sq (by have := Real.pi_pos; positivity)]
    have hK : 2 * Real.pi * (Real.sqrt ((2 * el + 1) / (4 * Real.pi)) * Real.sqrt ((2 * p + 1) / (4 * Real.pi)) *
        (-1) ^ m.natAbs / (2 ^ (el + p) * ((el.factorial : ℝ) * p.factorial)) *
        (Real.sqrt (((el - m.natAbs).factorial : ℝ) / ((el + m.natAbs).factorial : ℝ)) *
          Real.sqrt (((p + m.natAbs).factorial : ℝ) / ((p - m.natAbs).factorial : ℝ))) *
        (2 ^ (el + p) * ((el.factorial : ℝ) * p.factorial) *
          (Real.sqrt (((el + m.natAbs).factorial : ℝ) / ((el - m.natAbs).factorial : ℝ)) *
            Real.sqrt (((p - m.natAbs).factorial : ℝ) / ((p + m.natAbs).factorial : ℝ))) * S)) =
        (-1) ^ m.natAbs * Real.sqrt ((2 * el + 1) * (2 * p + 1)) / 2 * S := by
      have f1 : (el.factorial : ℝ) ≠ 0 := by positivity
      have f2 : (p.factorial : ℝ) ≠ 0 := by positivity
      have hpi := Real.pi_pos.ne'
      rw [hN]
      calc _ = (-1) ^ m.natAbs * Real.sqrt ((2 * el + 1) * (2 * p + 1)) / 2 * S *
            ((Real.sqrt (((el - m.natAbs).factorial : ℝ) / ((el + m.natAbs).factorial : ℝ)) *
              Real.sqrt (((el + m.natAbs).factorial : ℝ) / ((el - m.natAbs).factorial : ℝ))) *
            (Real.sqrt (((p + m.natAbs).factorial : ℝ) / ((p - m.natAbs).factorial : ℝ)) *
              Real.sqrt (((p - m.natAbs).factorial : ℝ) / ((p + m.natAbs).factorial : ℝ)))) := by
            field_simp
            ring
        _ = _ := by rw [hq1, hq2]; ring
    have hg : (if gap = true then if Even (el + p) then (2 : ℝ) else 0 else 1) = 1 + if gap then (-1) ^ (el + p) else 0 := by
      cases gap
      · simp
      · rcases Nat.even_or_odd (el + p) with h | h
        · simp [h.neg_one_pow, h]; norm_num
        · simp [h.neg_one_pow, Nat.not_even_iff_odd.2 h]
    rw [hg]
    set K := Real.sqrt ((2 * el + 1) / (4 * Real.pi)) * Real.sqrt ((2 * p + 1) / (4 * Real.pi)) *
        (-1) ^ m.natAbs / (2 ^ (el + p) * ((el.factorial : ℝ) * p.factorial)) *
        (Real.sqrt (((el - m.natAbs).factorial : ℝ) / ((el + m.natAbs).factorial : ℝ)) *
          Real.sqrt (((p + m.natAbs).factorial : ℝ) / ((p - m.natAbs).factorial : ℝ)))
    set J := (2 ^ (el + p) * ((el.factorial : ℝ) * p.factorial) *
          (Real.sqrt (((el + m.natAbs).factorial : ℝ) / ((el - m.natAbs).factorial : ℝ)) *
            Real.sqrt (((p - m.natAbs).factorial : ℝ) / ((p + m.natAbs).factorial : ℝ))) * S)
    have hR : (2 * Real.pi) * (K * J) + (if gap then (2 * Real.pi) * (K * ((-1) ^ (el + p) * J)) else 0) =
        (-1) ^ m.natAbs * (1 + if gap then (-1) ^ (el + p) else 0) * Real.sqrt ((2 * el + 1) * (2 * p + 1)) / 2 * S := by
      cases gap
      · simp only [Bool.false_eq_true, if_false, add_zero]
        rw [hK]; ring
      · simp only [if_true]
        linear_combination (1 + (-1) ^ (el + p)) * hK
    rw [← hR]
    cases gap <;> simp
  · simp [hm]

/-- the addition theorem. -/
theorem sum_norm_sphHarm (l : ℕ) (th ph : ℝ) :
    ∑ m ∈ Finset.Icc (-(l : ℤ)) l, ‖sphHarm l m th ph‖ ^ 2 = (2 * l + 1) / (4 * Real.pi) := by
  have h1 : ∀ m ∈ Finset.Icc (-(l : ℤ)) l, ‖sphHarm l m th ph‖ ^ 2 = (2 * l + 1) / (4 * Real.pi) / (2 ^ l * (l.factorial : ℝ)) ^ 2 *
      (((-1 : ℝ[X]) ^ (l + (l + m).toNat) * (dq l (l + m).toNat * dq l (2 * l - (l + m).toNat))).eval (Real.cos th)) := by
    intro m hm
    rw [Finset.mem_Icc] at hm
    have hn : ‖sphHarm l m th ph‖ ^ 2 = thetaPart l m th * thetaPart l m th := by
      rw [sphHarm_eq, norm_mul, show I * (m : ℂ) * (ph : ℂ) = ((m * ph : ℝ) : ℂ) * I by push_cast; ring, norm_exp_ofReal_mul_I,
        mul_one, norm_real, Real.norm_eq_abs, sq_abs, sq]
    have h3 : ((-1 : ℝ)) ^ m.natAbs * (-1) ^ m.natAbs = 1 := by rw [← mul_pow]; simp
    have h4 : thetaPart l m th * thetaPart l m th = thetaPart l (m.natAbs : ℕ) th * thetaPart l (m.natAbs : ℕ) th := by
      rw [thetaPart_int (abs_le.2 hm)]
      split
      · linear_combination (thetaPart l (m.natAbs : ℕ) th * thetaPart l (m.natAbs : ℕ) th) * h3
      · ring
    have hs : Real.sqrt ((2 * l + 1) / (4 * Real.pi)) * Real.sqrt ((2 * l + 1) / (4 * Real.pi)) = (2 * l + 1) / (4 * Real.pi) :=
      Real.mul_self_sqrt (by positivity)
    have hq : Real.sqrt (((l - m.natAbs).factorial : ℝ) / ((l + m.natAbs).factorial : ℝ)) *
        Real.sqrt (((l + m.natAbs).factorial : ℝ) / ((l - m.natAbs).factorial : ℝ)) = 1 := by
      rw [← Real.sqrt_mul (by positivity), div_mul_div_cancel₀ (by positivity), div_self (by positivity), Real.sqrt_one]
    rw [hn, h4, thetaPart_mul (by omega) (by omega), hs, hq]
    have hp : (-1 : ℝ[X]) ^ (l + (l + m).toNat) * (dq l (l + m).toNat * dq l (2 * l - (l + m).toNat)) =
        C ((-1) ^ m.natAbs) * prodP m.natAbs l l := by
      rw [C_pow, C_neg, C_1]
      unfold prodP
      rcases le_or_gt 0 m with h | h
      · rw [show ((l : ℤ) + m).toNat = l + m.natAbs by omega, show 2 * l - (l + m.natAbs) = l - m.natAbs by omega,
          show l + (l + m.natAbs) = 2 * l + m.natAbs by ring, pow_add, pow_mul]
        simp
      · rw [show ((l : ℤ) + m).toNat = l - m.natAbs by omega, show 2 * l - (l - m.natAbs) = l + m.natAbs by omega]
        have : (-1 : ℝ[X]) ^ (l + (l - m.natAbs)) = (-1) ^ m.natAbs := by
          have e : l + (l - m.natAbs) + 2 * m.natAbs = 2 * l + m.natAbs := by omega
          have e2 : (-1 : ℝ[X]) ^ (l + (l - m.natAbs) + 2 * m.natAbs) = (-1) ^ (2 * l + m.natAbs) := by rw [e]
          rw [pow_add, pow_add (-1 : ℝ[X]) (2 * l), pow_mul, pow_mul] at e2
          simpa using e2
        rw [this]; ring
    rw [hp, eval_mul, eval_C, pow_add]
    ring
  rw [Finset.sum_congr rfl h1, ← Finset.mul_sum, ← eval_finsetSum]
  have h2 : ∑ m ∈ Finset.Icc (-(l : ℤ)) l, (-1 : ℝ[X]) ^ (l + (l + m).toNat) * (dq l (l + m).toNat * dq l (2 * l - (l + m).toNat)) =
      ∑ k ∈ Finset.range (2 * l + 1), (-1 : ℝ[X]) ^ (l + k) * (dq l k * dq l (2 * l - k)) := by
    refine Finset.sum_bij' (fun m _ => (l + m).toNat) (fun k _ => (k : ℤ) - l) ?_ ?_ ?_ ?_ ?_
    · intro m hm; rw [Finset.mem_Icc] at hm; rw [Finset.mem_range]; omega
    · intro k hk; rw [Finset.mem_range] at hk; rw [Finset.mem_Icc]; omega
    · intro m hm; rw [Finset.mem_Icc] at hm; omega
    · intro k hk; omega
    · intro m _; rfl
  rw [h2, unsold_poly, eval_C]
  have : (2 ^ l * (l.factorial : ℝ)) ^ 2 ≠ 0 := by positivity
  field_simp

end Sleplet.Gaunt
