import Mathlib.Tactic.NormNum
import Verif.Lemmas.Functions
import Verif.Spec.RealSignal

/-!
C55 (documented coefficients), C56 (spherical harmonics).
-/
namespace Sleplet.Props

open Complex NumPy Functions Spec

/-- an axisymmetric vector with real entries is a real signal. -/
private theorem real_of_axisym {L : ℕ} {b : List ℂ} (V : ℕ → ℝ) (hl : b.length = L ^ 2)
    (hv : ∀ (l : ℕ) (m : ℤ), l < L → |m| ≤ l → b.getD (elm2ind l m) 0 = if m = 0 then ((V l : ℝ) : ℂ) else 0) :
    RealSignal L b := by
  refine ⟨hl, fun l m h1 h2 => ?_⟩
  rw [hv l m h1 h2, hv l (-m) h1 (by rwa [abs_neg])]
  by_cases hm : m = 0
  · subst hm; simp
  · simp [hm]

/-- C55. The Dirac delta at the north pole: `√((2l+1)/4π)` at order 0 and zero elsewhere; a real signal. -/
theorem C55_dirac_delta (L : ℕ) :
    ∃ flm, diracDelta L = .ok flm ∧ flm.length = L ^ 2 ∧
      (∀ (l : ℕ) (m : ℤ), l < L → |m| ≤ l → flm.getD (elm2ind l m) 0 =
        if m = 0 then ((Real.sqrt ((2 * l + 1) / (4 * Real.pi)) : ℝ) : ℂ) else 0) ∧ RealSignal L flm := by
  obtain ⟨b, hb, hl, hv⟩ := axisym_writes (fun l => ((Real.sqrt ((2 * (l : ℝ) + 1) / (4 * Real.pi)) : ℝ) : ℂ)) L
    (fun flm ell => setItem flm (elm2ind ell 0) ((Real.sqrt ((2 * (ell : ℝ) + 1) / (4 * Real.pi)) : ℝ) : ℂ))
    (fun _ _ _ => rfl)
  exact ⟨b, hb, hl, hv, real_of_axisym _ hl hv⟩

/-- C55. The Gaussian: `exp(-l(l+1)/2σ²)` at order 0 and zero elsewhere; a real signal.  With `σ = 0` a
`ZeroDivisionError` (unless there is nothing to compute). -/
theorem C55_gaussian (L : ℕ) (sigma : ℝ) :
    (sigma ≠ 0 → ∃ flm, gaussian L sigma = .ok flm ∧ flm.length = L ^ 2 ∧
      (∀ (l : ℕ) (m : ℤ), l < L → |m| ≤ l → flm.getD (elm2ind l m) 0 =
        if m = 0 then ((Real.exp (-(l * (l + 1) : ℝ) / (2 * sigma ^ 2)) : ℝ) : ℂ) else 0) ∧ RealSignal L flm) ∧
    (sigma = 0 → 0 < L → gaussian L sigma = .error .zeroDivisionError) := by
  constructor
  · intro hs
    obtain ⟨b, hb, hl, hv⟩ := axisym_writes (fun l => ((Real.exp (-(l * (l + 1) : ℝ) / (2 * sigma ^ 2)) : ℝ) : ℂ)) L
      (fun flm ell => do
        let x ← Functions.div (-(ell : ℝ) * ((ell : ℝ) + 1)) (2 * sigma ^ 2)
        setItem flm (elm2ind ell 0) (Real.exp x : ℂ))
      (by
        intro a ell _
        unfold Functions.div
        rw [if_neg (by positivity), neg_mul]
        rfl)
    exact ⟨b, hb, hl, hv, real_of_axisym _ hl hv⟩
  · rintro rfl hL
    obtain ⟨k, rfl⟩ : ∃ k, L = k + 1 := ⟨L - 1, by omega⟩
    unfold gaussian
    rw [List.range_succ_eq_map, List.foldlM_cons]
    simp [Functions.div, bind, Except.bind]

/-- C55. The documented Gaussian `exp(-l²/2σ²)` is not what is computed: already for `l = 1`. -/
theorem C55_gaussian_documented_violated (sigma : ℝ) (hs : sigma ≠ 0) :
    ∃ flm, gaussian 2 sigma = .ok flm ∧ flm.getD (elm2ind 1 0) 0 ≠ ((Real.exp (-(1 : ℝ) ^ 2 / (2 * sigma ^ 2)) : ℝ) : ℂ) := by
  obtain ⟨flm, h1, _, h3, _⟩ := (C55_gaussian 2 sigma).1 hs
  refine ⟨flm, h1, ?_⟩
  rw [h3 1 0 (by norm_num) (by norm_num), if_pos rfl]
  intro h
  have h := Real.exp_injective (ofReal_injective h)
  have h2 : (2 * sigma ^ 2) ≠ 0 := by positivity
  rw [div_left_inj' h2] at h
  norm_num at h

/-- C55. The harmonic Gaussian: `exp(-(l²/2σ_l² + m²/2σ_m²))` at every degree and order. -/
theorem C55_harmonic_gaussian (L : ℕ) (ls ms : ℝ) (hls : ls ≠ 0) (hms : ms ≠ 0) :
    ∃ flm, harmonicGaussian L ls ms = .ok flm ∧ flm.length = L ^ 2 ∧
      ∀ (l : ℕ) (m : ℤ), l < L → |m| ≤ l → flm.getD (elm2ind l m) 0 =
        ((Real.exp (-((l : ℝ) ^ 2 / (2 * ls ^ 2) + (m : ℝ) ^ 2 / (2 * ms ^ 2))) : ℝ) : ℂ) := by
  have hsq : ∀ {ell}, ell < L → (ell + 1) ^ 2 ≤ L ^ 2 := fun h => Nat.pow_le_pow_left (by omega) 2
  have hexp : ∀ (l : ℕ) (m : ℤ), Real.exp (-((l : ℝ) / ls) ^ 2 / 2) * Real.exp (-((m : ℝ) / ms) ^ 2 / 2) =
      Real.exp (-((l : ℝ) ^ 2 / (2 * ls ^ 2) + (m : ℝ) ^ 2 / (2 * ms ^ 2))) := by
    intro l m
    rw [← Real.exp_add]
    congr 1
    field_simp
    ring
  obtain ⟨b, hb, hl, hv⟩ := writes_degrees
    (fun l m => ((Real.exp (-((l : ℝ) ^ 2 / (2 * ls ^ 2) + (m : ℝ) ^ 2 / (2 * ms ^ 2))) : ℝ) : ℂ)) (fun _ _ => True) (L ^ 2)
    (fun (flm : List ℂ) (ell : ℕ) => do
      let x ← Functions.div (ell : ℝ) ls
      let upsilon := Real.exp (-(x ^ 2) / 2)
      (arangeEmm ell).foldlM (fun (flm : List ℂ) (m : ℤ) => do
        let y ← Functions.div (m : ℝ) ms
        setItem flm (elm2ind ell m) ((upsilon * Real.exp (-(y ^ 2) / 2) : ℝ) : ℂ)) flm) L
    (by
      intro ell a h1 h2
      obtain ⟨b, hb, hl, hv⟩ := writes_orders
        (fun m => ((Real.exp (-((ell : ℝ) ^ 2 / (2 * ls ^ 2) + (m : ℝ) ^ 2 / (2 * ms ^ 2))) : ℝ) : ℂ)) ell (L ^ 2) (hsq h1)
        (fun (flm : List ℂ) (m : ℤ) => do
          let y ← Functions.div (m : ℝ) ms
          setItem flm (elm2ind ell m) ((Real.exp (-(((ell : ℝ) / ls) ^ 2) / 2) * Real.exp (-(y ^ 2) / 2) : ℝ) : ℂ))
        (by
          intro b m hb hm
          have hlt : elm2ind ell m < L ^ 2 := Noise.elm2ind_lt_of_sq hm (hsq h1)
          simp only [Functions.div, if_neg hms, bind, Except.bind]
          rw [setItem_of_lt _ _ _ (by rw [hb]; exact hlt), hexp])
        (arangeEmm ell) a h2 (fun m hm => mem_arangeEmm.1 hm)
      refine ⟨b, ?_, hl, fun l m h => ?_⟩
      · simp only [Functions.div, if_neg hls, bind, Except.bind]
        simp only [Functions.div, bind, Except.bind] at hb
        exact hb
      · rw [hv l m h]
        by_cases hl' : l = ell
        · subst hl'
          simp [mem_arangeEmm, h]
        · simp [hl'])
    (List.replicate (L ^ 2) 0) (by simp)
  refine ⟨b, hb, hl, fun l m h1 h2 => ?_⟩
  rw [hv l m h2, if_pos ⟨h1, trivial⟩]

/-- C55. The harmonic Gaussian is not flagged real, and rightly: for `L ≥ 2` it is not a real signal. -/
theorem C55_harmonic_gaussian_not_real (L : ℕ) (hL : 2 ≤ L) (ls ms : ℝ) (hls : ls ≠ 0) (hms : ms ≠ 0) :
    ∃ flm, harmonicGaussian L ls ms = .ok flm ∧ ¬ RealSignal L flm := by
  obtain ⟨flm, h1, h2, h3⟩ := C55_harmonic_gaussian L ls ms hls hms
  refine ⟨flm, h1, fun h => ?_⟩
  have h4 := h.2 1 1 (by omega) (by norm_num)
  rw [h3 1 1 (by omega) (by norm_num), h3 1 (-1) (by omega) (by norm_num), conj_ofReal] at h4
  simp only [zpow_one, neg_mul, one_mul, Int.cast_neg, Int.cast_one, even_two, Even.neg_pow] at h4
  have h5 : Real.exp (-((1 : ℕ) ^ 2 / (2 * ls ^ 2) + 1 ^ 2 / (2 * ms ^ 2))) =
      -Real.exp (-((1 : ℕ) ^ 2 / (2 * ls ^ 2) + 1 ^ 2 / (2 * ms ^ 2))) := by
    exact_mod_cast h4
  have := Real.exp_pos (-((1 : ℕ) ^ 2 / (2 * ls ^ 2) + 1 ^ 2 / (2 * ms ^ 2)))
  linarith

/-- C55. The identity: all `L²` coefficients are one. -/
theorem C55_identity (L : ℕ) :
    (identity L).length = L ^ 2 ∧ ∀ (l : ℕ) (m : ℤ), l < L → |m| ≤ l → (identity L).getD (elm2ind l m) 0 = 1 := by
  refine ⟨by simp [identity], fun l m h1 h2 => ?_⟩
  have hlt : elm2ind l m < L ^ 2 := Noise.elm2ind_lt_of_sq h2 (Nat.pow_le_pow_left (by omega) 2)
  simp [identity, List.getD_eq_getElem?_getD, hlt]

/-- C55 is violated by the identity: it is flagged real (`identity.py:30-31`), but is not a real signal for `L ≥ 2`. -/
theorem C55_identity_violation (L : ℕ) (hL : 2 ≤ L) : ¬ RealSignal L (identity L) := by
  intro h
  have h4 := h.2 1 1 (by omega) (by norm_num)
  rw [(C55_identity L).2 1 1 (by omega) (by norm_num), (C55_identity L).2 1 (-1) (by omega) (by norm_num)] at h4
  norm_num at h4

/-- the ring: the loop starts at `|s|`. -/
private theorem ring_ok (L : ℕ) (spin : ℤ) :
    ∃ r, ring L spin = .ok r ∧ r.length = L ^ 2 ∧ ∀ (l : ℕ) (m : ℤ), l < L → |m| ≤ l →
      r.getD (elm2ind l m) 0 = if m = 0 ∧ spin.natAbs ≤ l then ((2 * Real.pi * spinHarmonicAtEquator l spin : ℝ) : ℂ) else 0 := by
  have key : ∀ k, spin.natAbs + k ≤ L → ∃ r, (List.range' spin.natAbs k).foldlM
      (fun r ell => setItem r (elm2ind ell 0) (ringEntry spin ell : ℂ)) (List.replicate (L ^ 2) 0) = .ok r ∧
      r.length = L ^ 2 ∧ ∀ (l : ℕ) (m : ℤ), l < L → |m| ≤ l → r.getD (elm2ind l m) 0 =
        if m = 0 ∧ spin.natAbs ≤ l ∧ l < spin.natAbs + k then (ringEntry spin l : ℂ) else 0 := by
    intro k
    induction k with
    | zero =>
      intro _
      refine ⟨_, rfl, by simp, fun l m _ _ => ?_⟩
      rw [if_neg (by omega)]
      simp only [List.getD_eq_getElem?_getD, List.getElem?_replicate]
      split_ifs <;> rfl
    | succ k ih =>
      intro hk
      obtain ⟨r, hr, hl, hv⟩ := ih (by omega)
      have hlt : elm2ind (spin.natAbs + k) 0 < r.length := by
        rw [hl]; exact Noise.elm2ind_lt_of_sq (by rw [abs_zero]; omega) (Nat.pow_le_pow_left (by omega) 2)
      refine ⟨r.set (elm2ind (spin.natAbs + k) 0) (ringEntry spin (spin.natAbs + k)), ?_, by simpa using hl, ?_⟩
      · rw [Noise.foldlM_range'_succ, hr]
        exact setItem_of_lt _ _ _ hlt
      · intro l m h1 h2
        rw [Noise.getD_set]
        simp only [hlt, and_true, Noise.elm2ind_inj (show |(0 : ℤ)| ≤ ((spin.natAbs + k : ℕ) : ℤ) by rw [abs_zero]; omega) h2]
        rw [hv l m h1 h2]
        by_cases hc : spin.natAbs + k = l ∧ 0 = m
        · rw [if_pos hc, if_pos (by omega), ← hc.1]
        · rw [if_neg hc]
          have : (m = 0 ∧ spin.natAbs ≤ l ∧ l < spin.natAbs + k) ↔ (m = 0 ∧ spin.natAbs ≤ l ∧ l < spin.natAbs + (k + 1)) := by
            omega
          simp only [this]
  by_cases hs : spin.natAbs ≤ L
  · obtain ⟨r, hr, hl, hv⟩ := key (L - spin.natAbs) (by omega)
    refine ⟨r, hr, hl, fun l m h1 h2 => ?_⟩
    rw [hv l m h1 h2]
    by_cases hc : m = 0 ∧ spin.natAbs ≤ l
    · rw [if_pos hc, if_pos (by omega), ringEntry_eq spin l hc.2]
    · rw [if_neg hc, if_neg (by omega)]
  · refine ⟨List.replicate (L ^ 2) 0, ?_, by simp, fun l m h1 h2 => ?_⟩
    · unfold ring
      rw [show L - spin.natAbs = 0 by omega]
      rfl
    · rw [if_neg (by omega)]
      simp only [List.getD_eq_getElem?_getD, List.getElem?_replicate]
      split_ifs <;> rfl

/-- C55. Ridgelets: each wavelet has `L²` coefficients, zero unless the order is 0 and the degree at least `|s|`; there it
is the generating function times `2π` times the spin-`s` harmonic on the equator (the coefficients of a ring), and for the
wavelets, not the scaling function, divided by `√2π`. -/
theorem C55_ridgelets (L : ℕ) (spin : ℤ) (kappas : List (List ℝ)) (hk : ∀ k ∈ kappas, L ≤ k.length) :
    ∃ ws, ridgelets L spin kappas = .ok ws ∧ ws.length = kappas.length ∧
      ∀ (j : ℕ) (kappa : List ℝ) (w : List ℂ), kappas[j]? = some kappa → ws[j]? = some w → w.length = L ^ 2 ∧
        ∀ (l : ℕ) (m : ℤ), l < L → |m| ≤ l → w.getD (elm2ind l m) 0 =
          if m = 0 ∧ spin.natAbs ≤ l then
            ((kappa.getD l 0 * (2 * Real.pi * spinHarmonicAtEquator l spin) /
              (if j = 0 then 1 else Real.sqrt (2 * Real.pi)) : ℝ) : ℂ) else 0 := by
  obtain ⟨r, hr, hrl, hrv⟩ := ring_ok L spin
  have row : ∀ (j : ℕ) (kappa : List ℝ), L ≤ kappa.length → ∃ w, ridgeletRow L r j kappa = .ok w ∧ w.length = L ^ 2 ∧
      ∀ (l : ℕ) (m : ℤ), l < L → |m| ≤ l → w.getD (elm2ind l m) 0 =
          if m = 0 ∧ spin.natAbs ≤ l then
            ((kappa.getD l 0 * (2 * Real.pi * spinHarmonicAtEquator l spin) /
              (if j = 0 then 1 else Real.sqrt (2 * Real.pi)) : ℝ) : ℂ) else 0 := by
    intro j kappa hkl
    obtain ⟨w, hw, hl, hv⟩ := axisym_writes (fun l => if j = 0 then (kappa.getD l 0 : ℂ) * r.getD (elm2ind l 0) 0
        else (kappa.getD l 0 : ℂ) * r.getD (elm2ind l 0) 0 / (Real.sqrt (2 * Real.pi) : ℂ)) L
      (fun w ell => do
        let k ← item kappa ell
        let x ← item r (elm2ind ell 0)
        setItem w (elm2ind ell 0) (if j = 0 then (k : ℂ) * x else (k : ℂ) * x / (Real.sqrt (2 * Real.pi) : ℂ)))
      (by
        intro a ell hell
        have hlt : elm2ind ell 0 < r.length := by
          rw [hrl]; exact Noise.elm2ind_lt_of_sq (by simp) (Nat.pow_le_pow_left (by omega) 2)
        have hk' : ell < kappa.length := by omega
        simp only [item_of_lt _ _ hk', item_getD hlt, bind, Except.bind]
        simp [List.getD_eq_getElem?_getD, hk'])
    refine ⟨w, hw, hl, fun l m h1 h2 => ?_⟩
    rw [hv l m h1 h2]
    by_cases hm : m = 0
    · subst hm
      rw [if_pos rfl, hrv l 0 h1 h2]
      by_cases hs : spin.natAbs ≤ l
      · by_cases hj : j = 0
        · simp only [hs, hj, and_self, if_true]; push_cast; ring
        · simp only [hs, hj, and_self, if_true, if_false]; push_cast; ring
      · by_cases hj : j = 0
        · simp [hj, hs]
        · simp [hj, hs]
    · rw [if_neg hm, if_neg (fun h => hm h.1)]
  classical
  let W : ℕ × List ℝ → List ℂ := fun jk => if h : L ≤ jk.2.length then (row jk.1 jk.2 h).choose else []
  have hW : ∀ jk : ℕ × List ℝ, L ≤ jk.2.length → ridgeletRow L r jk.1 jk.2 = .ok (W jk) := by
    intro jk h
    simp only [W, dif_pos h]
    exact (row jk.1 jk.2 h).choose_spec.1
  refine ⟨(List.zip (List.range kappas.length) kappas).map W, ?_, by simp, ?_⟩
  · unfold ridgelets
    rw [hr]
    refine mapM_eq_ok _ W _ fun jk hjk => hW jk ?_
    exact hk _ (List.of_mem_zip hjk).2
  · intro j kappa w h1 h2
    have hj : j < kappas.length := by
      by_contra hc
      rw [List.getElem?_eq_none (by omega)] at h1
      cases h1
    have hkap : L ≤ kappa.length := hk _ (List.mem_of_getElem? h1)
    have : w = W (j, kappa) := by
      simp only [List.getElem?_map, List.zip, List.getElem?_zipWith, h1, List.getElem?_range hj, Option.map_some,
        Option.some.injEq] at h2
      exact h2.symm
    rw [this]
    simp only [W, dif_pos hkap]
    exact (row j kappa hkap).choose_spec.2

/-- the value of the ring for spin 0 and degree 2: `2π √(5/4π) · P_2(0)` with `P_2(0) = -1/2`. -/
example : legendreAtEquator 2 0 = -1 / 2 := by
  unfold legendreAtEquator
  rw [show ((2 : ℕ) + (0 : ℤ)).toNat = 2 from rfl, rodrigues_coeff, if_pos (by norm_num)]
  norm_num [Nat.factorial]

/-- C56. `SphericalHarmonic(L, ell, m)` is accepted exactly for `0 ≤ ell < L`, `|m| ≤ ell`, and then there is a single
coefficient one at `(ell, m)`. -/
theorem C56_spherical_harmonic (L : ℕ) (ell m : ℤ) :
    (0 ≤ ell ∧ ell < L ∧ |m| ≤ ell → ∃ flm, sphericalHarmonic L ell m none = .ok flm ∧ flm.length = L ^ 2 ∧
      ∀ (l : ℕ) (m' : ℤ), l < L → |m'| ≤ l → flm.getD (elm2ind l m') 0 = if (l : ℤ) = ell ∧ m' = m then 1 else 0) ∧
    (¬(0 ≤ ell ∧ ell < L ∧ |m| ≤ ell) → ∃ e, sphericalHarmonic L ell m none = .error e ∧
      (e = .valueError ∨ (e = .keyError ∧ ¬(0 ≤ ell ∧ ell < L)))) := by
  constructor
  · rintro ⟨h1, h2, h3⟩
    obtain ⟨l₀, rfl⟩ := Int.eq_ofNat_of_zero_le h1
    have hlt : elm2ind l₀ m < L ^ 2 := Noise.elm2ind_lt_of_sq h3 (Nat.pow_le_pow_left (by omega) 2)
    refine ⟨(List.replicate (L ^ 2) (0 : ℂ)).set (elm2ind l₀ m) 1, ?_, by simp, ?_⟩
    · unfold sphericalHarmonic sphericalHarmonicArgs
      simp only [checkEll, if_neg (show ¬ ((l₀ : ℤ) < 0) by omega), if_neg (show ¬ ((l₀ : ℤ) ≥ L) by omega), checkM,
        if_neg (show ¬ (|m| > (l₀ : ℤ)) by omega), bind, Except.bind, pure, Except.pure, Int.toNat_natCast]
      unfold createSphericalHarmonic
      rw [if_pos hlt]
    · intro l m' hl hm
      rw [Noise.getD_set]
      simp only [List.length_replicate, hlt, and_true, Noise.elm2ind_inj h3 hm]
      by_cases hc : l₀ = l ∧ m = m'
      · rw [if_pos hc, if_pos (by omega)]
      · rw [if_neg hc, if_neg (by omega)]
        simp only [List.getD_eq_getElem?_getD, List.getElem?_replicate]
        split_ifs <;> rfl
  · intro h
    unfold sphericalHarmonic sphericalHarmonicArgs
    by_cases h1 : ell < 0
    · exact ⟨.keyError, by simp [checkEll, h1, checkM, bind, Except.bind], Or.inr ⟨rfl, by omega⟩⟩
    · by_cases h2 : ell ≥ L
      · exact ⟨.keyError, by simp [checkEll, h1, h2, checkM, bind, Except.bind], Or.inr ⟨rfl, by omega⟩⟩
      · refine ⟨.valueError, ?_, Or.inl rfl⟩
        have h3 : |m| > ell := by
          by_contra hc
          exact h ⟨by omega, by omega, by omega⟩
        simp [checkEll, h1, h2, checkM, h3, bind, Except.bind]

/-- C56. From the command line (`extra_args`) the same values are accepted, every other list is a `ValueError`, and the
coefficients are those of the two numbers given. -/
theorem C56_extra_args (L : ℕ) (hL : 0 < L) (xs : List ℤ) :
    (∀ ell m : ℤ, xs = [ell, m] → 0 ≤ ell ∧ ell < L ∧ |m| ≤ ell →
      sphericalHarmonic L 0 0 (some xs) = sphericalHarmonic L ell m none) ∧
    ((¬ ∃ ell m : ℤ, xs = [ell, m] ∧ 0 ≤ ell ∧ ell < L ∧ |m| ≤ ell) →
      sphericalHarmonic L 0 0 (some xs) = .error .valueError) := by
  have h0 : checkEll L 0 = .ok () := by
    unfold checkEll
    rw [if_neg (by omega), if_neg (by omega)]
  have hm0 : checkM (some 0) 0 = .ok () := by simp [checkM]
  constructor
  · rintro ell m rfl ⟨h1, h2, h3⟩
    have he : checkEll L ell = .ok () := by
      unfold checkEll
      rw [if_neg (by omega), if_neg (by omega)]
    have hm : checkM (some ell) m = .ok () := by
      simp only [checkM]
      rw [if_neg (by omega)]
    unfold sphericalHarmonic sphericalHarmonicArgs
    simp only [h0, hm0, he, hm, bind, Except.bind]
  · intro h
    unfold sphericalHarmonic sphericalHarmonicArgs
    simp only [h0, hm0, bind, Except.bind]
    match xs with
    | [] => rfl
    | [_] => rfl
    | _ :: _ :: _ :: _ => rfl
    | [ell, m] =>
      simp only [not_exists, not_and] at h
      have := h ell m rfl
      simp only
      by_cases h1 : ell < 0
      · simp [checkEll, h1]
      · by_cases h2 : ell ≥ L
        · simp [checkEll, h1, h2]
        · have h3 : |m| > ell := by
            by_contra hc
            exact this (by omega) (by omega) (by omega)
          simp [checkEll, h1, h2, checkM, h3]

/-- degree 2, order -1 for bandlimit 4. -/
example : (0 : ℤ) ≤ 2 ∧ (2 : ℤ) < (4 : ℕ) ∧ |(-1 : ℤ)| ≤ 2 := by norm_num

end Sleplet.Props
