import Mathlib.Tactic.IntervalCases
import Mathlib.Tactic.Positivity
import Verif.Lemmas.Earth
import Verif.Spec.RealSignal

/-!
C22 (the Earth), C59 (smoothing).
-/
namespace Sleplet.Props

open Complex Noise Spec

/-- What is assumed of `ssht.gaussian_smoothing(flm, L, sigma)` (external; `_smoothing.py:19` documents the factor). -/
def GaussianSmoothing (smooth : List ℂ → ℕ → ℝ → List ℂ) : Prop :=
  ∀ (flm : List ℂ) (L : ℕ) (sigma : ℝ), flm.length = L ^ 2 → (smooth flm L sigma).length = L ^ 2 ∧
    ∀ (l : ℕ) (m : ℤ), l < L → |m| ≤ l → (smooth flm L sigma).getD (elm2ind l m) 0 =
      (Real.exp (-((l : ℝ) ^ 2 * sigma ^ 2)) : ℂ) * flm.getD (elm2ind l m) 0

/-- C59. Smoothing is rejected for a zero factor and otherwise multiplies the coefficients of degree `l` by a number that
depends on `l` only, is 1 for degree 0, positive, strictly decreasing in `l`, and keeps real signals real. -/
theorem C59_smoothing (smooth : List ℂ → ℕ → ℝ → List ℂ) (hs : GaussianSmoothing smooth) (L : ℕ) (hL : 0 < L)
    (factor : ℤ) (hf : factor ≠ 0) :
    ∃ b : ℕ → ℝ, b 0 = 1 ∧ (∀ l, 0 < b l ∧ b l ≤ 1) ∧ (∀ l l', l < l' → b l' < b l) ∧
      (∀ l, b l = Real.exp (-((l : ℝ) * (Real.pi / (factor * L))) ^ 2)) ∧
      ∀ flm : List ℂ, flm.length = L ^ 2 →
      ∃ out, applyGaussianSmoothing smooth flm L factor = .ok out ∧ out.length = L ^ 2 ∧
        (∀ (l : ℕ) (m : ℤ), l < L → |m| ≤ l → out.getD (elm2ind l m) 0 = (b l : ℂ) * flm.getD (elm2ind l m) 0) ∧
        (RealSignal L flm → RealSignal L out) := by
  have hF : ((factor : ℝ) * (L : ℝ)) ≠ 0 := by
    have h1 : (factor : ℝ) ≠ 0 := by exact_mod_cast hf
    have h2 : (L : ℝ) ≠ 0 := by exact_mod_cast hL.ne'
    exact mul_ne_zero h1 h2
  have hsig : 0 < (Real.pi / (factor * L)) ^ 2 := by
    have : Real.pi / ((factor : ℝ) * L) ≠ 0 := div_ne_zero Real.pi_ne_zero hF
    positivity
  refine ⟨fun l => Real.exp (-((l : ℝ) * (Real.pi / (factor * L))) ^ 2), by simp, ?_, ?_, fun _ => rfl, ?_⟩
  · intro l
    refine ⟨Real.exp_pos _, ?_⟩
    rw [Real.exp_le_one_iff]
    exact neg_nonpos.2 (sq_nonneg _)
  · intro l l' h
    simp only
    apply Real.exp_lt_exp.2
    rw [mul_pow, mul_pow, neg_lt_neg_iff]
    apply mul_lt_mul_of_pos_right _ hsig
    have : (l : ℝ) < l' := by exact_mod_cast h
    have h0 : (0 : ℝ) ≤ l := by positivity
    nlinarith
  · intro flm hl
    obtain ⟨h1, h2⟩ := hs flm L (Real.pi / (factor * L)) hl
    have hv : ∀ (l : ℕ) (m : ℤ), l < L → |m| ≤ l → (smooth flm L (Real.pi / (factor * L))).getD (elm2ind l m) 0 =
        (Real.exp (-((l : ℝ) * (Real.pi / (factor * L))) ^ 2) : ℂ) * flm.getD (elm2ind l m) 0 := by
      intro l m a b
      rw [h2 l m a b, mul_pow]
    refine ⟨_, ?_, h1, hv, ?_⟩
    · unfold applyGaussianSmoothing
      rw [if_neg]
      have : (L : ℤ) ≠ 0 := by omega
      exact mul_ne_zero hf this
    · rintro ⟨_, hr⟩
      refine ⟨h1, fun l m a b => ?_⟩
      rw [hv l m a b, hv l (-m) a (by rwa [abs_neg]), hr l m a b, map_mul]
      simp only [conj_ofReal]
      ring

/-- a zero smoothing factor is a division by zero. -/
theorem C59_zero_factor (smooth : List ℂ → ℕ → ℝ → List ℂ) (flm : List ℂ) (L : ℕ) :
    applyGaussianSmoothing smooth flm L 0 = .error .zeroDivisionError := by
  simp [applyGaussianSmoothing]

/-- C22 for the Earth: if the loaded array has at least `L²` entries and its coefficients of order 0 are real, the result
is a real signal, the coefficients of order `m ≥ 0` being the conjugates of the loaded ones; smoothing keeps this. -/
theorem C22_earth_real (smooth : List ℂ → ℕ → ℝ → List ℂ) (hs : GaussianSmoothing smooth) (src : List ℂ) (L : ℕ)
    (hL : 0 < L) (hlen : L ^ 2 ≤ src.length) (hreal : ∀ l < L, (src.getD (l ^ 2 + l) 0).im = 0) :
    ∃ flm, createEarth smooth src L none = .ok flm ∧ RealSignal L flm ∧
      (∀ l < L, ∀ m ≤ l, flm.getD (l ^ 2 + l + m) 0 = (starRingEnd ℂ) (src.getD (l ^ 2 + l + m) 0)) ∧
      ∀ factor : ℤ, factor ≠ 0 → ∃ out, createEarth smooth src L (some factor) = .ok out ∧ RealSignal L out ∧
        ∀ (l : ℕ) (m : ℤ), l < L → |m| ≤ l → out.getD (elm2ind l m) 0 =
          (Real.exp (-((l : ℝ) * (Real.pi / (factor * L))) ^ 2) : ℂ) * flm.getD (elm2ind l m) 0 := by
  obtain ⟨b, hb, hbl, hbv⟩ := earthDegrees_ok src (L - 1) (by left; rw [show 1 + (L - 1) = L from by omega]; exact hlen)
  have hget : ∀ (l : ℕ) (m : ℤ), l < L → |m| ≤ l → ((b.take (L ^ 2)).map (starRingEnd ℂ)).getD (elm2ind l m) 0 =
      (starRingEnd ℂ) (if m < 0 then (-1) ^ m * (starRingEnd ℂ) (src.getD (elm2ind l (-m)) 0)
        else src.getD (elm2ind l m) 0) := by
    intro l m h1 h2
    have hi : elm2ind l m < L ^ 2 := (elm2ind_lt_sq h2 L).2 h1
    have hib : elm2ind l m < b.length := by omega
    have := hbv l m h2
    have hc : (l < 1 + (L - 1) ∧ m < 0) ↔ m < 0 := by omega
    simp only [hc] at this
    rw [← this]
    simp [List.getD_eq_getElem?_getD, hi, hib]
  have hre : RealSignal L ((b.take (L ^ 2)).map (starRingEnd ℂ)) := by
    refine ⟨by simp; omega, fun l m h1 h2 => ?_⟩
    rw [hget l m h1 h2, hget l (-m) h1 (by rwa [abs_neg])]
    rcases lt_trichotomy m 0 with h | h | h
    · rw [if_neg (by omega), if_pos h]
      simp only [map_mul, starRingEnd_self_apply, map_zpow₀, map_neg, map_one]
      rw [← mul_assoc, ← mul_zpow]
      simp
    · subst h
      have := hreal l h1
      rw [← elm2ind_zero] at this
      simp only [lt_irrefl, if_false, neg_zero, zpow_zero, one_mul, starRingEnd_self_apply]
      exact conj_eq_iff_im.2 this
    · rw [if_pos (by omega), if_neg (by omega), neg_neg]
      simp only [map_mul, starRingEnd_self_apply, map_zpow₀, zpow_neg, ← inv_zpow]
      norm_num
  refine ⟨_, ?_, hre, ?_, ?_⟩
  · unfold createEarth
    rw [hb]
    rfl
  · intro l h1 m hm
    have := hget l m h1 (by rw [Int.abs_eq_natAbs]; omega)
    rw [if_neg (by omega), elm2ind_nat hm] at this
    exact this
  · intro factor hf
    obtain ⟨β, _, _, _, hβ, h⟩ := C59_smoothing smooth hs L hL factor hf
    obtain ⟨out, ho, _, hv, hr⟩ := h _ hre.1
    refine ⟨out, ?_, hr hre, fun l m h1 h2 => by rw [hv l m h1 h2, hβ l]⟩
    unfold createEarth
    rw [hb]
    exact ho

/-- asking for a bandlimit beyond the loaded data is an `IndexError`. -/
theorem C22_earth_short (smooth : List ℂ → ℕ → ℝ → List ℂ) (src : List ℂ) (L : ℕ) (hL : 2 ≤ L)
    (hlen : src.length < L ^ 2) (smoothing : Option ℤ) : createEarth smooth src L smoothing = .error .indexError := by
  unfold createEarth
  obtain ⟨k, rfl⟩ : ∃ k, L = 1 + (k + 1) := ⟨L - 2, by omega⟩
  rw [show 1 + (k + 1) - 1 = k + 1 from by omega, earth_short src k hlen]
  rfl

/-- four real loaded coefficients suffice for bandlimit 2, and a smoothing that meets the assumption exists. -/
example : 2 ^ 2 ≤ ([1, 0, 2, 3] : List ℂ).length ∧ (∀ l < 2, (([1, 0, 2, 3] : List ℂ).getD (l ^ 2 + l) 0).im = 0) ∧
    ∃ smooth, GaussianSmoothing smooth := by
  refine ⟨by simp, ?_, fun flm L sigma => (List.range (L ^ 2)).map fun i =>
      (Real.exp (-(((ind2elm i).1 : ℝ) ^ 2 * sigma ^ 2)) : ℂ) * flm.getD i 0, ?_⟩
  · intro l hl
    interval_cases l <;> simp
  · intro flm L sigma hl
    refine ⟨by simp, fun l m h1 h2 => ?_⟩
    have hi : elm2ind l m < L ^ 2 := (elm2ind_lt_sq h2 L).2 h1
    simp only [List.getD_eq_getElem?_getD, List.getElem?_map, List.getElem?_range hi, Option.map_some, Option.getD_some]
    rw [ind2elm_elm2ind h2]

end Sleplet.Props
