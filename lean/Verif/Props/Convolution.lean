import Verif.Lemmas.Convolution
import Verif.Props.FunctionObjects
import Verif.Props.Wavelets
import Verif.Spec.Eigen

/-!
C86 (the sifting convolution and the translation as operations on fields), C87 (axisymmetric wavelets as correlations on the
sphere).
-/
namespace Sleplet.Props

open Complex NumPy Functions Spec Wavelets Gaunt

variable {L : ℕ}

/-- `ssht.create_ylm(theta, phi, L)` gives the spherical harmonics at the point, by degree and then order. -/
def CreatesHarmonics (L : ℕ) (ylm : ℝ → ℝ → List ℂ) : Prop := ∀ th ∈ Set.Icc 0 Real.pi, ∀ ph, (ylm th ph).length = L ^ 2 ∧
  ∀ (l : ℕ) (m : ℤ), l < L → |m| ≤ l → (ylm th ph).getD ((l : ℤ) ^ 2 + l + m).toNat 0 = sphHarm l m th ph

theorem CreatesHarmonics.harm {ylm : ℝ → ℝ → List ℂ} (h : CreatesHarmonics L ylm) {th : ℝ} (hth : th ∈ Set.Icc 0 Real.pi) (ph : ℝ)
    {i : ℕ} (hi : i < L ^ 2) : (ylm th ph).getD i 0 = Gaunt.harm i th ph := by
  have := (h th hth ph).2 (ind2elm i).1 (ind2elm i).2 (ind2elm_fst_lt hi) (ind2elm_abs_le i)
  rwa [index_eq (ind2elm_abs_le i), elm2ind_ind2elm] at this

/-- C86. The coefficients of a translated function are those of its translation as a field, which takes every spherical
harmonic to its product with its value at the point. -/
theorem C86_translation (ylm : ℝ → ℝ → List ℂ) (hy : CreatesHarmonics L ylm) (o : Obj) (hl : o.coefficients.length = L ^ 2)
    (hn : contains "dirac_delta" o.name = false) {beta : ℝ} (hb : beta ∈ Set.Icc 0 Real.pi) (alpha : ℝ) :
    ∃ t, translate o (flmHelper ylm alpha beta) none = (.ok t, false) ∧ t.length = L ^ 2 ∧
      ∀ th ph, synthesis L t th ph = translated L o.coefficients beta alpha th ph := by
  obtain ⟨t, ht, htl, htv⟩ := (C54_harmonic_translation ylm alpha beta (hy beta hb alpha).1 o hl).1 hn
  refine ⟨t, ht, htl, fun th ph => ?_⟩
  rw [synthesis_eq, translated_eq]
  refine Finset.sum_congr rfl fun i _ => ?_
  rw [htv i i.2, hy.harm hb alpha i.2]
  ring

/-- C86. The sifting convolution: at every point the integral over the sphere of the first function translated to that point
against the second. -/
theorem C86_sifting (f g : List ℂ) (hf : f.length = L ^ 2) (hg : g.length = L ^ 2) :
    ∃ h, convolve f g none = (.ok h, false) ∧ h.length = L ^ 2 ∧
      ∀ th ph, synthesis L h th ph = sphereInner (translated L f th ph) (synthesis L g) := by
  obtain ⟨h, hh, hl, hv⟩ := (C25_value f g 0).1 (by rw [hf, hg])
  refine ⟨h, by unfold convolve; rw [hh], by rw [hl, hf], fun th ph => ?_⟩
  have h1 : sphereInner (translated L f th ph) (synthesis L g) =
      sphereInner (fun a b => ∑ i : Fin (L ^ 2), (f.getD i 0 * harm i th ph) * harm i a b) (fun a b => ∑ i : Fin (L ^ 2), g.getD i 0 * harm i a b) := by
    congr 1
    · funext a b
      rw [translated_eq]
      exact Finset.sum_congr rfl fun i _ => by ring
    · funext a b
      exact synthesis_eq L g a b
  rw [h1, inner_sums, synthesis_eq]
  refine Finset.sum_congr rfl fun i _ => ?_
  rw [hv i (by rw [hf]; exact i.2)]
  ring

/-- C86. The Dirac delta: the integral of a bandlimited field against it is the value of the field at the north pole; translated
to a point it is the same field centred at that point (so that translating it to the north pole changes nothing), the integral
against it is the value at that point, and convolving with it translates. -/
theorem C86_dirac_delta (ylm : ℝ → ℝ → List ℂ) (hy : CreatesHarmonics L ylm) (o : Obj) (hn : contains "dirac_delta" o.name = true)
    {beta : ℝ} (hb : beta ∈ Set.Icc 0 Real.pi) (alpha : ℝ) :
    ∃ d t, diracDelta L = .ok d ∧ translate o (flmHelper ylm alpha beta) none = (.ok t, o.reality) ∧ t.length = L ^ 2 ∧
      (∀ (f : List ℂ) (ph : ℝ), sphereInner (synthesis L f) (synthesis L d) = synthesis L f 0 ph) ∧
      (∀ th ∈ Set.Icc 0 Real.pi, ∀ ph, synthesis L t th ph = centredAt (synthesis L d) beta alpha th ph) ∧
      (beta = 0 → t = d) ∧
      (∀ f : List ℂ, sphereInner (synthesis L f) (synthesis L t) = synthesis L f beta alpha) ∧
      ∀ f : List ℂ, f.length = L ^ 2 → ∃ h, convolve f t none = (.ok h, false) ∧
        ∀ th ph, synthesis L h th ph = translated L f beta alpha th ph := by
  obtain ⟨d, hd, hdl, hdv, -⟩ := C55_dirac_delta L
  have hyl := (hy beta hb alpha).1
  have htl : ((ylm beta alpha).map (starRingEnd ℂ)).length = L ^ 2 := by simp [hyl]
  have htv : ∀ i < L ^ 2, ((ylm beta alpha).map (starRingEnd ℂ)).getD i 0 = (starRingEnd ℂ) (harm i beta alpha) := by
    intro i hi
    rw [← hy.harm hb alpha hi]
    have : i < (ylm beta alpha).length := by omega
    simp [List.getD_eq_getElem?_getD, this]
  have hsift : ∀ f : List ℂ, sphereInner (synthesis L f) (synthesis L ((ylm beta alpha).map (starRingEnd ℂ))) = synthesis L f beta alpha := by
    intro f
    rw [inner_synthesis, synthesis_eq]
    refine Finset.sum_congr rfl fun i _ => ?_
    rw [htv i i.2, conj_conj]
  have hdi : ∀ i < L ^ 2, ∀ ph : ℝ, d.getD i 0 = (starRingEnd ℂ) (harm i 0 ph) := by
    intro i hi ph
    have := hdv (ind2elm i).1 (ind2elm i).2 (ind2elm_fst_lt hi) (ind2elm_abs_le i)
    rw [elm2ind_ind2elm] at this
    rw [this]
    unfold harm
    rw [sphHarm_north]
    split
    · rw [conj_ofReal]
    · rw [map_zero]
  refine ⟨d, (ylm beta alpha).map (starRingEnd ℂ), hd, by simp only [translate, flmHelper, hn, if_true], htl, ?_, ?_, ?_, hsift, ?_⟩
  · intro f ph
    rw [inner_synthesis, synthesis_eq]
    refine Finset.sum_congr rfl fun i _ => ?_
    rw [hdi i i.2 ph, conj_conj]
  · intro th hth ph
    rw [centredAt_eq L d (fun l m h1 h2 h3 => by rw [hdv l m h1 h2, if_neg h3]) hb hth, synthesis_eq]
    refine Finset.sum_congr rfl fun i _ => ?_
    rw [htv i i.2, hdv _ 0 (ind2elm_fst_lt i.2) (by simp), if_pos rfl, ← ofReal_mul, ← Real.sqrt_mul (by positivity)]
    have : (2 * ((ind2elm i).1 : ℝ) + 1) / (4 * Real.pi) * (4 * Real.pi / (2 * ((ind2elm i).1 : ℝ) + 1)) = 1 := by
      have := Real.pi_ne_zero
      field_simp
    rw [this]
    simp
  · intro h0
    subst h0
    refine List.ext_getElem (by rw [htl, hdl]) fun i h1 h2 => ?_
    have hi : i < L ^ 2 := by omega
    have e1 := htv i hi
    have e2 := hdi i hi alpha
    rw [← e2] at e1
    rwa [List.getD_eq_getElem _ _ h1, List.getD_eq_getElem _ _ h2] at e1
  · intro f hf
    obtain ⟨h, hh, hl, hv⟩ := (C25_value f ((ylm beta alpha).map (starRingEnd ℂ)) 0).1 (by rw [hf, htl])
    refine ⟨h, by unfold convolve; rw [hh], fun th ph => ?_⟩
    rw [synthesis_eq, translated_eq]
    refine Finset.sum_congr rfl fun i _ => ?_
    rw [hv i (by rw [hf]; exact i.2), htv i i.2, conj_conj]
    ring

/-- inner products of combinations of orthonormal rows. -/
theorem inner_rows {N : ℕ} (E : Fin N → Fin (L ^ 2) → ℂ) (hE : OrthonormalRows E) (a b : Fin N → ℂ) :
    sphereInner (fun th ph => ∑ p, a p * synthesis L (List.ofFn (E p)) th ph)
      (fun th ph => ∑ p, b p * synthesis L (List.ofFn (E p)) th ph) = ∑ p, a p * (starRingEnd ℂ) (b p) := by
  have hs : ∀ c : Fin N → ℂ, (fun th ph => ∑ p, c p * synthesis L (List.ofFn (E p)) th ph) =
      fun th ph => ∑ i : Fin (L ^ 2), (∑ p, c p * E p i) * harm i th ph := by
    intro c
    funext th ph
    simp only [synthesis_eq, Finset.mul_sum, Finset.sum_mul]
    rw [Finset.sum_comm]
    refine Finset.sum_congr rfl fun i _ => Finset.sum_congr rfl fun p _ => ?_
    simp only [List.getD_eq_getElem?_getD, List.getElem?_ofFn, i.2, dif_pos, Option.getD_some]
    ring
  rw [hs a, hs b, inner_sums]
  calc ∑ i, (∑ p, a p * E p i) * (starRingEnd ℂ) (∑ q, b q * E q i)
      = ∑ i, ∑ p, ∑ q, a p * (starRingEnd ℂ) (b q) * (E p i * (starRingEnd ℂ) (E q i)) := by
        refine Finset.sum_congr rfl fun i _ => ?_
        rw [map_sum, Finset.sum_mul_sum]
        exact Finset.sum_congr rfl fun p _ => Finset.sum_congr rfl fun q _ => by rw [map_mul]; ring
    _ = ∑ p, ∑ q, a p * (starRingEnd ℂ) (b q) * ∑ i, E p i * (starRingEnd ℂ) (E q i) := by
        rw [Finset.sum_comm]
        refine Finset.sum_congr rfl fun p _ => ?_
        rw [Finset.sum_comm]
        exact Finset.sum_congr rfl fun q _ => by rw [Finset.mul_sum]
    _ = _ := by simp [hE _ _]

/-- C86. The sifting convolution of Slepian coefficients, given the number `N` of Slepian functions to use: with orthonormal
Slepian functions `S_p` the result is at every point `ω` the integral of `Σ_p f_p S_p(ω) S_p` against `Σ_p g_p S_p`. -/
theorem C86_slepian_sifting {N : ℕ} (E : Fin N → Fin (L ^ 2) → ℂ) (hE : OrthonormalRows E) (f g : List ℂ) (hf : N ≤ f.length)
    (hg : N ≤ g.length) :
    let S : Fin N → ℝ → ℝ → ℂ := fun p => synthesis L (List.ofFn (E p))
    ∃ h, convolve f g (some N) = (.ok h, false) ∧ h.length = N ∧
      ∀ th ph, ∑ p : Fin N, h.getD p 0 * S p th ph = sphereInner (fun a b => ∑ p : Fin N, (f.getD p 0 * S p th ph) * S p a b)
        (fun a b => ∑ p : Fin N, g.getD p 0 * S p a b) := by
  intro S
  obtain ⟨h, hh, hl, hv⟩ := (C25_value f g N).2 hf hg
  refine ⟨h, by unfold convolve; rw [hh], hl, fun th ph => ?_⟩
  rw [inner_rows E hE (fun p : Fin N => f.getD p 0 * S p th ph) (fun p : Fin N => g.getD p 0)]
  refine Finset.sum_congr rfl fun p _ => ?_
  rw [hv p p.2]
  ring

/-- C31. The signal-to-noise ratio of two vectors of coefficients is, in decibels, the ratio of the energies of the two fields on
the sphere. -/
theorem C31_energy_ratio (signal noise : List ℂ) (hs : signal.length = L ^ 2) (hn : noise.length = L ^ 2) :
    Noise.computeSnr signal noise = 10 * Real.logb 10 ((sphereInner (synthesis L signal) (synthesis L signal)).re /
      (sphereInner (synthesis L noise) (synthesis L noise)).re) := by
  have h : ∀ c : List ℂ, c.length = L ^ 2 → (sphereInner (synthesis L c) (synthesis L c)).re = Noise.signalPower c := by
    intro c hc
    rw [inner_synthesis]
    simp only [mul_conj, normSq_eq_norm_sq]
    rw [← ofReal_sum, ofReal_re, Fin.sum_univ_eq_sum_range (fun i : ℕ => ‖c.getD i 0‖ ^ 2), ← hc]
    unfold Noise.signalPower
    clear hc
    induction c with
    | nil => simp
    | cons x xs ih =>
      rw [List.length_cons, Finset.sum_range_succ', List.map_cons, List.sum_cons, ← ih]
      simp [add_comm]
  unfold Noise.computeSnr
  rw [h signal hs, h noise hn]

/-! ### C87 -/

/-- the coefficients of an axisymmetric field. -/
def Axisymmetric (L : ℕ) (c : List ℂ) : Prop :=
  c.length = L ^ 2 ∧ ∀ (l : ℕ) (m : ℤ), l < L → |m| ≤ l → m ≠ 0 → c.getD ((l : ℤ) ^ 2 + l + m).toNat 0 = 0

theorem Axisymmetric.zero {c : List ℂ} (h : Axisymmetric L c) (l : ℕ) (m : ℤ) (h1 : l < L) (h2 : |m| ≤ l) (h3 : m ≠ 0) :
    c.getD (elm2ind l m) 0 = 0 := by
  rw [← index_eq h2]; exact h.2 l m h1 h2 h3

/-- C87. The wavelets are the axisymmetric fields `Σ_l κ_j(l) (2l+1)/4π P_l(cos θ)`. -/
theorem C87_wavelets (kappas : List (List ℝ)) (hk : ∀ k ∈ kappas, L ≤ k.length) :
    ∃ wavelets, createAxisym L kappas = .ok wavelets ∧ wavelets.length = kappas.length ∧ (∀ r ∈ wavelets, Axisymmetric L r) ∧
      ∀ (j : ℕ) (k : List ℝ) (r : List ℂ), kappas[j]? = some k → wavelets[j]? = some r → ∀ th ph : ℝ, synthesis L r th ph =
        ((∑ l ∈ Finset.range L, k.getD l 0 * ((2 * l + 1) / (4 * Real.pi)) * assocLegendre l 0 (Real.cos th) : ℝ) : ℂ) := by
  classical
  have hA := fun (k : List ℝ) (h : k ∈ kappas) => axisymRow_ok L k (hk k h)
  let A : List ℝ → List ℂ := fun k => if h : k ∈ kappas then (hA k h).choose else []
  have hAs : ∀ k ∈ kappas, axisymRow L k = .ok (A k) ∧ (A k).length = L ^ 2 ∧
      ∀ (l : ℕ) (m : ℤ), l < L → |m| ≤ l → (A k).getD (elm2ind l m) 0 =
        if m = 0 then (Real.sqrt ((2 * (l : ℝ) + 1) / (4 * Real.pi)) : ℂ) * (k.getD l 0 : ℂ) else 0 := by
    intro k h
    simp only [A, dif_pos h]
    exact (hA k h).choose_spec
  refine ⟨kappas.map A, ?_, by simp, ?_, ?_⟩
  · unfold createAxisym
    exact mapM_eq_ok _ _ _ fun k h => (hAs k h).1
  · intro r hr
    obtain ⟨k, hk, rfl⟩ := List.mem_map.1 hr
    refine ⟨(hAs k hk).2.1, fun l m h1 h2 h3 => ?_⟩
    rw [index_eq h2, (hAs k hk).2.2 l m h1 h2, if_neg h3]
  · intro j k r hj hr th ph
    rw [List.getElem?_map, hj, Option.map_some, Option.some.injEq] at hr
    subst hr
    have hmem := List.mem_of_getElem? hj
    unfold synthesis
    rw [ofReal_sum]
    refine Finset.sum_congr rfl fun l hl => ?_
    rw [Finset.mem_range] at hl
    rw [Finset.sum_eq_single 0]
    · rw [index_eq (by simp), (hAs k hmem).2.2 l 0 hl (by simp), if_pos rfl, sphHarm_zonal]
      have hs : Real.sqrt ((2 * (l : ℝ) + 1) / (4 * Real.pi)) * Real.sqrt ((2 * (l : ℝ) + 1) / (4 * Real.pi)) = (2 * l + 1) / (4 * Real.pi) :=
        Real.mul_self_sqrt (by positivity)
      have e : k.getD l 0 * ((2 * l + 1) / (4 * Real.pi)) * assocLegendre l 0 (Real.cos th) =
          Real.sqrt ((2 * (l : ℝ) + 1) / (4 * Real.pi)) * k.getD l 0 *
            (Real.sqrt ((2 * (l : ℝ) + 1) / (4 * Real.pi)) * assocLegendre l 0 (Real.cos th)) := by
        linear_combination (-(k.getD l 0 * assocLegendre l 0 (Real.cos th))) * hs
      rw [e]
      simp only [ofReal_mul]
    · intro m hm hm0
      rw [Finset.mem_Icc] at hm
      rw [index_eq (abs_le.2 hm), (hAs k hmem).2.2 l m hl (abs_le.2 hm), if_neg hm0, zero_mul]
    · intro hn; exact absurd (Finset.mem_Icc.2 ⟨by omega, by omega⟩) hn

/-- C87. Analysis: the wavelet coefficients at a point are the inner product of the signal with the wavelet centred at that
point. -/
theorem C87_forward (flm : List ℂ) (hf : flm.length = L ^ 2) (wavelets : List (List ℂ)) (hw : ∀ r ∈ wavelets, Axisymmetric L r) :
    ∃ w, axisymForward L flm wavelets = .ok w ∧ w.length = wavelets.length ∧
      ∀ (j : ℕ) (r c : List ℂ), wavelets[j]? = some r → w[j]? = some c → c.length = L ^ 2 ∧
        ∀ th ∈ Set.Icc 0 Real.pi, ∀ ph, synthesis L c th ph = sphereInner (synthesis L flm) (centredAt (synthesis L r) th ph) := by
  classical
  have hW := fun (r : List ℂ) (h : r ∈ wavelets) => forwardRow_ok L flm r hf (hw r h).1
  let W : List ℂ → List ℂ := fun r => if h : r ∈ wavelets then (hW r h).choose else []
  have hWs : ∀ r ∈ wavelets, forwardRow L flm r = .ok (W r) ∧ (W r).length = L ^ 2 ∧
      ∀ (l : ℕ) (m : ℤ), l < L → |m| ≤ l → (W r).getD (elm2ind l m) 0 =
        (Real.sqrt (4 * Real.pi / (2 * (l : ℝ) + 1)) : ℂ) * (starRingEnd ℂ) (r.getD (elm2ind l 0) 0) * flm.getD (elm2ind l m) 0 := by
    intro r h
    simp only [W, dif_pos h]
    exact (hW r h).choose_spec
  refine ⟨wavelets.map W, ?_, by simp, ?_⟩
  · unfold axisymForward
    exact mapM_eq_ok _ _ _ fun r h => (hWs r h).1
  · intro j r c hj hc
    rw [List.getElem?_map, hj, Option.map_some, Option.some.injEq] at hc
    subst hc
    have hmem := List.mem_of_getElem? hj
    refine ⟨(hWs r hmem).2.1, fun th hth ph => ?_⟩
    rw [sphereInner_congr (fun a _ b => synthesis_eq L flm a b) (fun a ha b => (centredAt_eq L r (hw r hmem).zero hth ha ph b).trans
      (Finset.sum_congr rfl fun i _ => (mul_assoc _ _ _).symm)), inner_sums, synthesis_eq]
    refine Finset.sum_congr rfl fun i _ => ?_
    have := (hWs r hmem).2.2 (ind2elm i).1 (ind2elm i).2 (ind2elm_fst_lt i.2) (ind2elm_abs_le i)
    rw [elm2ind_ind2elm] at this
    rw [this, map_mul, map_mul, conj_ofReal, conj_conj]
    ring

/-- C87. Synthesis: the signal at a point is the sum over the scales of the integral of the wavelet coefficients against the
wavelet centred at that point. -/
theorem C87_inverse (wavCoeffs wavelets : List (List ℂ)) (hlen : wavCoeffs.length = wavelets.length)
    (hc : ∀ r ∈ wavCoeffs, r.length = L ^ 2) (hw : ∀ r ∈ wavelets, Axisymmetric L r) :
    ∃ flm, axisymInverse L wavCoeffs wavelets = .ok flm ∧ flm.length = L ^ 2 ∧
      ∀ th ∈ Set.Icc 0 Real.pi, ∀ ph, synthesis L flm th ph = (List.zipWith (fun c r => surface 0 Real.pi 0 (2 * Real.pi)
        fun th' ph' => synthesis L c th' ph' * centredAt (synthesis L r) th ph th' ph') wavCoeffs wavelets).sum := by
  obtain ⟨flm, hflm, hl, hv⟩ := axisymInverse_ok L wavCoeffs wavelets hlen hc fun r h => (hw r h).1
  refine ⟨flm, hflm, hl, fun th hth ph => ?_⟩
  have hone : ∀ c r : List ℂ, r ∈ wavelets → (surface 0 Real.pi 0 (2 * Real.pi)
      fun th' ph' => synthesis L c th' ph' * centredAt (synthesis L r) th ph th' ph') = ∑ i : Fin (L ^ 2), c.getD i 0 *
        ((Real.sqrt (4 * Real.pi / (2 * ((ind2elm i).1 : ℝ) + 1)) : ℂ) * r.getD (elm2ind (ind2elm i).1 0) 0) * harm i th ph := by
    intro c r hr
    have h1 : (surface 0 Real.pi 0 (2 * Real.pi) fun th' ph' => synthesis L c th' ph' * centredAt (synthesis L r) th ph th' ph') =
        sphereInner (synthesis L c) (fun th' ph' => (starRingEnd ℂ) (centredAt (synthesis L r) th ph th' ph')) := by
      unfold sphereInner
      simp only [conj_conj]
    have h2 : ∀ a ∈ Set.Icc 0 Real.pi, ∀ b, (starRingEnd ℂ) (centredAt (synthesis L r) th ph a b) = ∑ i : Fin (L ^ 2),
        (starRingEnd ℂ) (r.getD (elm2ind (ind2elm i).1 0) 0 * (Real.sqrt (4 * Real.pi / (2 * ((ind2elm i).1 : ℝ) + 1)) : ℝ) * harm i th ph) *
          harm i a b := by
      intro a ha b
      have : centredAt (synthesis L r) th ph a b = centredAt (synthesis L r) a b th ph := by
        unfold centredAt; rw [angle_comm]
      rw [this, centredAt_eq L r (hw r hr).zero ha hth, map_sum]
      refine Finset.sum_congr rfl fun i _ => ?_
      simp only [map_mul, conj_conj]
      ring
    rw [h1, sphereInner_congr (fun a _ b => synthesis_eq L c a b) h2, inner_sums]
    refine Finset.sum_congr rfl fun i _ => ?_
    rw [conj_conj]
    ring
  rw [synthesis_eq]
  have h3 : ∀ i : Fin (L ^ 2), flm.getD i 0 * harm i th ph = (List.zipWith (fun c r => c.getD i 0 *
      ((Real.sqrt (4 * Real.pi / (2 * ((ind2elm i).1 : ℝ) + 1)) : ℂ) * r.getD (elm2ind (ind2elm i).1 0) 0) * harm i th ph)
        wavCoeffs wavelets).sum := by
    intro i
    have := hv (ind2elm i).1 (ind2elm i).2 (ind2elm_fst_lt i.2) (ind2elm_abs_le i)
    rw [elm2ind_ind2elm] at this
    have h5 := List.sum_map_mul_right (l := List.zipWith (fun c x => c.getD i 0 *
      ((Real.sqrt (4 * Real.pi / (2 * ((ind2elm i).1 : ℝ) + 1)) : ℂ) * x.getD (elm2ind (ind2elm i).1 0) 0)) wavCoeffs wavelets)
      (f := id) (r := harm i th ph)
    rw [List.map_id, List.map_zipWith] at h5
    rw [this, ← h5]
    rfl
  rw [Finset.sum_congr rfl fun i _ => h3 i]
  have h4 : ∀ (cs rs : List (List ℂ)), (∀ r ∈ rs, r ∈ wavelets) → ∑ i : Fin (L ^ 2), (List.zipWith (fun c r => c.getD i 0 *
      ((Real.sqrt (4 * Real.pi / (2 * ((ind2elm i).1 : ℝ) + 1)) : ℂ) * r.getD (elm2ind (ind2elm i).1 0) 0) * harm i th ph) cs rs).sum =
      (List.zipWith (fun c r => surface 0 Real.pi 0 (2 * Real.pi)
        fun th' ph' => synthesis L c th' ph' * centredAt (synthesis L r) th ph th' ph') cs rs).sum := by
    intro cs
    induction cs with
    | nil => intro rs _; simp
    | cons c cs ih =>
      intro rs hrs
      cases rs with
      | nil => simp
      | cons r rs =>
        simp only [List.zipWith_cons_cons, List.sum_cons, Finset.sum_add_distrib]
        rw [ih rs fun r' h => hrs r' (List.mem_cons_of_mem _ h), hone c r (hrs r List.mem_cons_self)]
  exact h4 wavCoeffs wavelets fun r h => h

/-- C87. Analysis keeps the energy when `Σ_j κ_j(l)² = 1` for every degree: the energies of the wavelet coefficients on the sphere
add up to that of the signal. -/
theorem C87_energy (kappas : List (List ℝ)) (hk : ∀ k ∈ kappas, L ≤ k.length)
    (had : ∀ l < L, (kappas.map fun k => k.getD l 0 ^ 2).sum = 1) (flm : List ℂ) (hf : flm.length = L ^ 2) :
    ∃ wavelets w, createAxisym L kappas = .ok wavelets ∧ axisymForward L flm wavelets = .ok w ∧
      (w.map fun c => sphereInner (synthesis L c) (synthesis L c)).sum = sphereInner (synthesis L flm) (synthesis L flm) := by
  classical
  have hA := fun (k : List ℝ) (h : k ∈ kappas) => axisymRow_ok L k (hk k h)
  let A : List ℝ → List ℂ := fun k => if h : k ∈ kappas then (hA k h).choose else []
  have hAs : ∀ k ∈ kappas, axisymRow L k = .ok (A k) ∧ (A k).length = L ^ 2 ∧
      ∀ (l : ℕ) (m : ℤ), l < L → |m| ≤ l → (A k).getD (elm2ind l m) 0 =
        if m = 0 then (Real.sqrt ((2 * (l : ℝ) + 1) / (4 * Real.pi)) : ℂ) * (k.getD l 0 : ℂ) else 0 := by
    intro k h
    simp only [A, dif_pos h]
    exact (hA k h).choose_spec
  have hW := fun (k : List ℝ) (h : k ∈ kappas) => forwardRow_ok L flm (A k) hf (hAs k h).2.1
  let W : List ℝ → List ℂ := fun k => if h : k ∈ kappas then (hW k h).choose else []
  have hWs : ∀ k ∈ kappas, forwardRow L flm (A k) = .ok (W k) ∧ ∀ (l : ℕ) (m : ℤ), l < L → |m| ≤ l →
      (W k).getD (elm2ind l m) 0 = (k.getD l 0 : ℂ) * flm.getD (elm2ind l m) 0 := by
    intro k h
    obtain ⟨e1, e2, e3⟩ := (hW k h).choose_spec
    simp only [W, dif_pos h]
    refine ⟨e1, fun l m h1 h2 => ?_⟩
    rw [e3 l m h1 h2, (hAs k h).2.2 l 0 h1 (by simp), if_pos rfl, map_mul, conj_ofReal, conj_ofReal]
    have : ((Real.sqrt (4 * Real.pi / (2 * (l : ℝ) + 1)) : ℝ) : ℂ) * ((Real.sqrt ((2 * (l : ℝ) + 1) / (4 * Real.pi)) : ℝ) : ℂ) = 1 := by
      rw [← ofReal_mul, ← Real.sqrt_mul (by positivity)]
      have : 4 * Real.pi / (2 * (l : ℝ) + 1) * ((2 * (l : ℝ) + 1) / (4 * Real.pi)) = 1 := by
        have := Real.pi_ne_zero
        field_simp
      rw [this]; simp
    linear_combination ((k.getD l 0 : ℂ) * flm.getD (elm2ind l m) 0) * this
  refine ⟨kappas.map A, kappas.map W, mapM_eq_ok _ _ _ fun k h => (hAs k h).1, ?_, ?_⟩
  · unfold axisymForward
    rw [List.mapM_map]
    exact mapM_eq_ok _ _ _ fun k h => (hWs k h).1
  · rw [List.map_map]
    have h1 : ∀ k ∈ kappas, ((fun c => sphereInner (synthesis L c) (synthesis L c)) ∘ W) k =
        ∑ i : Fin (L ^ 2), ((k.getD (ind2elm i).1 0 ^ 2 : ℝ) : ℂ) * (flm.getD i 0 * (starRingEnd ℂ) (flm.getD i 0)) := by
      intro k hk
      rw [Function.comp_apply, inner_synthesis]
      refine Finset.sum_congr rfl fun i _ => ?_
      have := (hWs k hk).2 (ind2elm i).1 (ind2elm i).2 (ind2elm_fst_lt i.2) (ind2elm_abs_le i)
      rw [elm2ind_ind2elm] at this
      rw [this, map_mul, conj_ofReal]
      push_cast
      ring
    have h2 : ∀ ks : List (List ℝ), (ks.map fun k => ∑ i : Fin (L ^ 2), ((k.getD (ind2elm i).1 0 ^ 2 : ℝ) : ℂ) *
        (flm.getD i 0 * (starRingEnd ℂ) (flm.getD i 0))).sum = ∑ i : Fin (L ^ 2),
          (((ks.map fun k => k.getD (ind2elm i).1 0 ^ 2).sum : ℝ) : ℂ) * (flm.getD i 0 * (starRingEnd ℂ) (flm.getD i 0)) := by
      intro ks
      induction ks with
      | nil => simp
      | cons k ks ih =>
        simp only [List.map_cons, List.sum_cons]
        rw [ih, ← Finset.sum_add_distrib]
        refine Finset.sum_congr rfl fun i _ => ?_
        rw [ofReal_add]; ring
    rw [List.map_congr_left h1, h2, inner_synthesis]
    refine Finset.sum_congr rfl fun i _ => ?_
    rw [had _ (ind2elm_fst_lt i.2)]
    simp

/-! ### the hypotheses can be met -/

/-- the exact table of spherical harmonics. -/
noncomputable def exactYlm (L : ℕ) (th ph : ℝ) : List ℂ := (List.range (L ^ 2)).map fun i => harm i th ph

theorem exactYlm_creates (L : ℕ) : CreatesHarmonics L (exactYlm L) := by
  intro th _ ph
  refine ⟨by simp [exactYlm], fun l m h1 h2 => ?_⟩
  have h3 : elm2ind l m < L ^ 2 := (elm2ind_lt_sq h2 L).2 h1
  rw [index_eq h2]
  simp only [exactYlm, List.getD_eq_getElem?_getD, List.getElem?_map, List.getElem?_range h3, Option.map_some, Option.getD_some, harm,
    ind2elm_elm2ind h2]

/-- a Gaussian of bandlimit 2 moved to the equator, and the Dirac delta. -/
example : (∃ t, translate ⟨2, "gaussian_10sig_L2", 0, true, [1, 0, 1, 0], none, none⟩
      (flmHelper (exactYlm 2) (Real.pi / 4) (Real.pi / 2)) none = (.ok t, false) ∧ t.length = 2 ^ 2 ∧
      ∀ th ph, synthesis 2 t th ph = translated 2 [1, 0, 1, 0] (Real.pi / 2) (Real.pi / 4) th ph) ∧
    ∃ d t, diracDelta 2 = .ok d ∧ translate ⟨2, "dirac_delta_L2", 0, true, [], none, none⟩
      (flmHelper (exactYlm 2) (Real.pi / 4) (Real.pi / 2)) none = (.ok t, true) ∧
      ∀ th ∈ Set.Icc 0 Real.pi, ∀ ph, synthesis 2 t th ph = centredAt (synthesis 2 d) (Real.pi / 2) (Real.pi / 4) th ph := by
  have hb : Real.pi / 2 ∈ Set.Icc 0 Real.pi := ⟨by positivity, by have := Real.pi_pos; linarith⟩
  refine ⟨C86_translation (exactYlm 2) (exactYlm_creates 2) _ (by simp) (by decide +kernel) hb _, ?_⟩
  obtain ⟨d, t, h1, h2, -, -, h3, -⟩ := C86_dirac_delta (exactYlm 2) (exactYlm_creates 2)
    ⟨2, "dirac_delta_L2", 0, true, [], none, none⟩ (by decide +kernel) hb (Real.pi / 4)
  exact ⟨d, t, h1, h2, h3⟩

/-- two scales for the two degrees below bandlimit 2. -/
example : ∃ wavelets w, createAxisym 2 [[1, 0], [0, 1]] = .ok wavelets ∧ axisymForward 2 [1, 2, I, 0] wavelets = .ok w ∧
      (w.map fun c => sphereInner (synthesis 2 c) (synthesis 2 c)).sum = sphereInner (synthesis 2 [1, 2, I, 0]) (synthesis 2 [1, 2, I, 0]) :=
  C87_energy [[1, 0], [0, 1]] (by simp) (by intro l hl; interval_cases l <;> simp) _ (by simp)

/-- two Slepian functions of bandlimit 2. -/
example : OrthonormalRows (fun (p : Fin 2) (i : Fin (2 ^ 2)) => if (i : ℕ) = p then (1 : ℂ) else 0) := by
  intro p q
  fin_cases p <;> fin_cases q <;> simp [Fin.sum_univ_four]

end Sleplet.Props
