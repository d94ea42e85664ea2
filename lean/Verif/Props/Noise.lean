import Verif.Lemmas.NoisePower
import Verif.Spec.RealSignal

/-!
C22 (real signals), C23 (reproducible noise), C31 (noise level and SNR).
-/
namespace Sleplet.Props

open Complex Noise Spec

theorem createNoise_ok (normals : ℕ → ℕ → ℝ) (L : ℕ) (signal : List ℂ) (snr : ℝ) (w : World) :
    ∃ nlm, createNoise normals L signal snr w = .ok (nlm, w ++ [(randomSeed, L ^ 2)]) ∧ nlm.length = L ^ 2 ∧
      ∀ (l : ℕ) (m : ℤ), l < L → |m| ≤ l →
        nlm.getD (elm2ind l m) 0 = coeff (normals randomSeed) (computeSigmaNoise signal snr none) (l ^ 2) m := by
  obtain ⟨b, hb, hl, hv⟩ := degrees_ok normals w.length
    (fun st ell => degreeBody normals w.length (computeSigmaNoise signal snr none) ell st)
    (fun _ => computeSigmaNoise signal snr none) (List.replicate (L ^ 2) 0) (w ++ [(randomSeed, 0)]) randomSeed 0 0
    (by simp) L (fun _ _ _ _ => rfl) (by simp)
  refine ⟨b, ?_, by simpa using hl, ?_⟩
  · unfold createNoise defaultRng
    simp only
    rw [List.range_eq_range', hb]
    simp
  · intro l m h1 h2
    rw [hv l m h2, if_pos (by omega)]
    simp

/-- the power of harmonic noise. -/
theorem noise_power (normals : ℕ → ℕ → ℝ) (L : ℕ) (signal : List ℂ) (snr : ℝ) (w : World) :
    ∃ nlm, createNoise normals L signal snr w = .ok (nlm, w ++ [(randomSeed, L ^ 2)]) ∧
      signalPower nlm = computeSigmaNoise signal snr none ^ 2 * ∑ k ∈ Finset.range (L ^ 2), normals 30 k ^ 2 := by
  obtain ⟨nlm, h, hl, hv⟩ := createNoise_ok normals L signal snr w
  exact ⟨nlm, h, power_of_coeffs _ _ L nlm hl hv⟩

private theorem ext_of_pairs {L : ℕ} {a b : List ℂ} (ha : a.length = L ^ 2) (hb : b.length = L ^ 2)
    (h : ∀ (l : ℕ) (m : ℤ), l < L → |m| ≤ l → a.getD (elm2ind l m) 0 = b.getD (elm2ind l m) 0) : a = b := by
  apply List.ext_getElem (by rw [ha, hb])
  intro i h1 h2
  have := h (ind2elm i).1 (ind2elm i).2 (ind2elm_fst_lt (by omega)) (ind2elm_abs_le i)
  rw [elm2ind_ind2elm] at this
  simpa [List.getD_eq_getElem?_getD, h1, h2] using this

/-- C22. Harmonic noise has `L²` coefficients, all drawn from the generator: `σ g` for order 0, `σ/√2 (g + i g')` for a
positive order, each value used for one coefficient, and the negative orders make the signal real. -/
theorem C22_noise_real (normals : ℕ → ℕ → ℝ) (L : ℕ) (signal : List ℂ) (snr : ℝ) (w : World) :
    ∃ nlm w', createNoise normals L signal snr w = .ok (nlm, w') ∧ RealSignal L nlm ∧
      ∀ l < L, nlm.getD (l ^ 2 + l) 0 = (computeSigmaNoise signal snr none : ℂ) * (normals 30 (l ^ 2) : ℂ) ∧
        ∀ m, 1 ≤ m → m ≤ l → nlm.getD (l ^ 2 + l + m) 0 = (computeSigmaNoise signal snr none : ℂ) / (Real.sqrt 2 : ℂ) *
          ((normals 30 (l ^ 2 + 2 * m - 1) : ℂ) + I * (normals 30 (l ^ 2 + 2 * m) : ℂ)) := by
  obtain ⟨nlm, h, hl, hv⟩ := createNoise_ok normals L signal snr w
  refine ⟨nlm, _, h, ⟨hl, ?_⟩, ?_⟩
  · intro l m h1 h2
    rw [hv l m h1 h2, hv l (-m) h1 (by rwa [abs_neg]), coeff_neg]
  · intro l h1
    refine ⟨?_, ?_⟩
    · have := hv l 0 h1 (by simp)
      rw [elm2ind_zero] at this
      rw [this]
      simp [coeff, randomSeed]
    · intro m hm1 hm2
      have hb : |(m : ℤ)| ≤ (l : ℤ) := by rw [Int.abs_eq_natAbs]; omega
      have := hv l m h1 hb
      rw [elm2ind_nat hm2] at this
      rw [this, coeff, if_neg (by omega), if_pos (by omega), Int.toNat_natCast, drawn,
        show l ^ 2 + (2 * m - 1) = l ^ 2 + 2 * m - 1 from by omega]
      rfl

/-- C23. For a given signal and SNR there is one noise: whatever generators exist and however far they have advanced, the
same coefficients come out, the other generators are untouched, and `L²` values are drawn from a new generator. -/
theorem C23_noise_reproducible (normals : ℕ → ℕ → ℝ) (L : ℕ) (signal : List ℂ) (snr : ℝ) :
    ∃ nlm, ∀ w, createNoise normals L signal snr w = .ok (nlm, w ++ [(30, L ^ 2)]) := by
  obtain ⟨nlm, _, hl, hv⟩ := createNoise_ok normals L signal snr []
  refine ⟨nlm, fun w => ?_⟩
  obtain ⟨nlm', h', hl', hv'⟩ := createNoise_ok normals L signal snr w
  have : nlm' = nlm := ext_of_pairs hl' hl fun l m h1 h2 => by rw [hv l m h1 h2, hv' l m h1 h2]
  rw [h', this]
  rfl

private theorem mesh_fold (normals : ℕ → ℕ → ℝ) (sigma : ℝ) (n : ℕ) (w : World) (k : ℕ) (hk : k ≤ n) :
    (List.range k).foldlM (meshBody normals w.length sigma) (List.replicate n 0, w ++ [(randomSeed, 0)]) =
      .ok ((List.range k).map (fun i => sigma * normals randomSeed i) ++ List.replicate (n - k) 0,
        w ++ [(randomSeed, k)]) := by
  induction k with
  | zero => simp [pure, Except.pure]
  | succ k ih =>
    rw [foldlM_range_succ, ih (by omega)]
    simp only [Except.bind]
    unfold meshBody
    simp only [bind, Except.bind]
    rw [standardNormal_ok normals _ w.length randomSeed k (by simp)]
    simp only
    rw [NumPy.setItem_of_lt _ _ _ (by simp; omega)]
    simp only [pure, Except.pure]
    have e : n - k = (n - (k + 1)) + 1 := by omega
    congr 2
    · rw [List.set_append_right _ _ (by simp), e, List.replicate_succ, List.range_succ, List.map_append]
      simp
    · rw [List.set_append_right _ _ (by simp)]
      simp

/-- C23 for meshes: the noise is `σ g₀, σ g₁, …` whatever happened before. -/
theorem C23_mesh_noise_reproducible (normals : ℕ → ℕ → ℝ) (u : List ℂ) (snr : ℝ) (w : World) :
    createMeshNoise normals u snr w = .ok
      ((List.range u.length).map (fun i => computeSigmaNoise u snr none * normals 30 i), w ++ [(30, u.length)]) := by
  unfold createMeshNoise defaultRng
  simp only
  rw [mesh_fold normals _ u.length w u.length le_rfl]
  simp [randomSeed]

/-- C23 for Slepian noise, on the sphere and on meshes: the outcome does not depend on the generators that exist. -/
theorem C23_slepian_noise_reproducible {F : Type} (normals : ℕ → ℕ → ℝ) (inv : List ℂ → Except Err F)
    (fwd : F → List ℂ) (sfwd : List ℂ → Except Err (List ℂ)) (mfwd : F → Except Err (List ℂ))
    (smfwd : List ℝ → Except Err (List ℂ)) (L : ℕ) (signal : List ℂ) (snr : ℝ) (w w' : World) :
    (createSlepianNoise normals inv fwd sfwd L signal snr w).map Prod.fst =
      (createSlepianNoise normals inv fwd sfwd L signal snr w').map Prod.fst ∧
    (createSlepianMeshNoise normals inv mfwd smfwd signal snr w).map Prod.fst =
      (createSlepianMeshNoise normals inv mfwd smfwd signal snr w').map Prod.fst := by
  constructor
  · unfold createSlepianNoise
    cases inv signal with
    | error e => rfl
    | ok f =>
      obtain ⟨nlm, h⟩ := C23_noise_reproducible normals L (fwd f) snr
      simp only [bind, Except.bind, h]
      cases sfwd nlm <;> rfl
  · unfold createSlepianMeshNoise
    cases inv signal with
    | error e => rfl
    | ok f =>
      simp only [bind, Except.bind]
      cases mfwd f with
      | error e => rfl
      | ok u =>
        simp only [C23_mesh_noise_reproducible]
        cases smfwd _ <;> rfl

/-- C22 for the simulated WMAP data: real signal, nothing below degree 2, and degree `l` drawn with its own power `C_l`;
the same whatever was drawn before (C23). -/
theorem C22_wmap_real (normals : ℕ → ℕ → ℝ) (cl : List ℝ) (L : ℕ) (hcl : L ≤ cl.length + 2) :
    ∃ flm, (∀ w, createWmap normals cl L w = .ok (flm, w ++ [(30, L ^ 2 - 4)])) ∧ RealSignal L flm ∧
      (∀ i < 4, flm.getD i 0 = 0) ∧
      ∀ l, 2 ≤ l → l < L → ∃ sigma : ℝ, sigma = Real.sqrt (2 * Real.pi / ((l : ℝ) * ((l : ℝ) + 1)) * cl.getD (l - 2) 0) ∧
        flm.getD (l ^ 2 + l) 0 = (sigma : ℂ) * (normals 30 (l ^ 2 - 4) : ℂ) ∧
        ∀ m, 1 ≤ m → m ≤ l → flm.getD (l ^ 2 + l + m) 0 = (sigma : ℂ) / (Real.sqrt 2 : ℂ) *
          ((normals 30 (l ^ 2 - 4 + 2 * m - 1) : ℂ) + I * (normals 30 (l ^ 2 - 4 + 2 * m) : ℂ)) := by
  have key : ∀ w : World, ∃ flm, createWmap normals cl L w = .ok (flm, w ++ [(30, L ^ 2 - 4)]) ∧ flm.length = L ^ 2 ∧
      ∀ (l : ℕ) (m : ℤ), l < L → |m| ≤ l → flm.getD (elm2ind l m) 0 =
        if l < 2 then 0 else coeff (normals 30)
          (Real.sqrt (2 * Real.pi / ((l : ℝ) * ((l : ℝ) + 1)) * cl.getD (l - 2) 0)) (l ^ 2 - 4) m := by
    intro w
    unfold createWmap defaultRng
    simp only
    by_cases hL : L < 2
    · rw [show L - 2 = 0 from by omega]
      refine ⟨List.replicate (L ^ 2) 0, ?_, by simp, ?_⟩
      · have : L ^ 2 - 4 = 0 := by
          have := Nat.pow_le_pow_left (show L ≤ 2 by omega) 2
          omega
        simp [this, pure, Except.pure, randomSeed]
      · intro l m h1 h2
        rw [if_pos (by omega)]
        simp only [List.getD_eq_getElem?_getD, List.getElem?_replicate]
        split_ifs <;> rfl
    · push Not at hL
      obtain ⟨b, hb, hl, hv⟩ := degrees_ok normals w.length
        (fun st ell => do
          let c ← NumPy.item cl (ell - 2)
          let sigma := Real.sqrt (2 * Real.pi / ((ell : ℝ) * ((ell : ℝ) + 1)) * c)
          degreeBody normals w.length sigma ell st)
        (fun l => Real.sqrt (2 * Real.pi / ((l : ℝ) * ((l : ℝ) + 1)) * cl.getD (l - 2) 0))
        (List.replicate (L ^ 2) 0) (w ++ [(randomSeed, 0)]) randomSeed 0 2 (by simp) (L - 2)
        (by
          intro ell st h1 h2
          have : ell - 2 < cl.length := by omega
          simp only [NumPy.item_of_lt _ _ this, bind, Except.bind]
          simp [List.getD_eq_getElem?_getD, this])
        (by rw [show 2 + (L - 2) = L from by omega]; simp)
      rw [show 2 + (L - 2) = L from by omega] at hb
      refine ⟨b, ?_, by simpa using hl, ?_⟩
      · rw [hb]
        simp [randomSeed]
      · intro l m h1 h2
        rw [hv l m h2]
        by_cases h : l < 2
        · rw [if_neg (by omega), if_pos h]
          simp only [List.getD_eq_getElem?_getD, List.getElem?_replicate]
          split_ifs <;> rfl
        · rw [if_pos (by omega), if_neg h]
          simp [randomSeed]
  obtain ⟨flm, _, hl, hv⟩ := key []
  refine ⟨flm, ?_, ⟨hl, ?_⟩, ?_, ?_⟩
  · intro w
    obtain ⟨flm', h', hl', hv'⟩ := key w
    have : flm' = flm := ext_of_pairs hl' hl fun l m h1 h2 => by rw [hv l m h1 h2, hv' l m h1 h2]
    rw [h', this]
  · intro l m h1 h2
    rw [hv l m h1 h2, hv l (-m) h1 (by rwa [abs_neg])]
    by_cases h : l < 2
    · simp [h]
    · rw [if_neg h, if_neg h, coeff_neg]
  · intro i hi
    by_cases hiL : i < L ^ 2
    · have := hv (ind2elm i).1 (ind2elm i).2 (ind2elm_fst_lt hiL) (ind2elm_abs_le i)
      rw [elm2ind_ind2elm, if_pos (ind2elm_fst_lt (L := 2) (by omega))] at this
      exact this
    · rw [List.getD_eq_getElem?_getD, List.getElem?_eq_none (by omega)]
      rfl
  · intro l h1 h2
    refine ⟨_, rfl, ?_, ?_⟩
    · have := hv l 0 h2 (by simp)
      rw [elm2ind_zero, if_neg (by omega)] at this
      rw [this]
      simp [coeff]
    · intro m hm1 hm2
      have := hv l m h2 (by rw [Int.abs_eq_natAbs]; omega)
      rw [elm2ind_nat hm2, if_neg (by omega), coeff, if_neg (by omega), if_pos (by omega), Int.toNat_natCast, drawn] at this
      rw [this, show l ^ 2 - 4 + (2 * m - 1) = l ^ 2 - 4 + 2 * m - 1 from by omega]

/-- a power spectrum shorter than the bandlimit needs is an `IndexError`. -/
theorem C22_wmap_short (normals : ℕ → ℕ → ℝ) (cl : List ℝ) (L : ℕ) (hcl : cl.length + 2 < L) (w : World) :
    createWmap normals cl L w = .error .indexError := by
  obtain ⟨b, hb, _, _⟩ := degrees_ok normals w.length
    (fun st ell => do
      let c ← NumPy.item cl (ell - 2)
      let sigma := Real.sqrt (2 * Real.pi / ((ell : ℝ) * ((ell : ℝ) + 1)) * c)
      degreeBody normals w.length sigma ell st)
    (fun l => Real.sqrt (2 * Real.pi / ((l : ℝ) * ((l : ℝ) + 1)) * cl.getD (l - 2) 0))
    (List.replicate (L ^ 2) 0) (w ++ [(randomSeed, 0)]) randomSeed 0 2 (by simp) cl.length
    (by
      intro ell st h1 h2
      have : ell - 2 < cl.length := by omega
      simp only [NumPy.item_of_lt _ _ this, bind, Except.bind]
      simp [List.getD_eq_getElem?_getD, this])
    (by simpa using Nat.pow_le_pow_left (show 2 + cl.length ≤ L by omega) 2)
  unfold createWmap defaultRng
  simp only
  obtain ⟨k, hk⟩ : ∃ k, L - 2 = cl.length + (1 + k) := ⟨L - 2 - cl.length - 1, by omega⟩
  rw [hk, ← List.range'_append_1, List.foldlM_append, hb]
  simp only [bind, Except.bind]
  rw [Nat.add_comm 1 k, List.range'_succ, List.foldlM_cons]
  simp only [bind, Except.bind]
  rw [NumPy.item_of_ge _ _ (by omega)]

/-- a power spectrum of two values suffices for bandlimit 4. -/
example : 4 ≤ ([1, 2] : List ℝ).length + 2 := by simp

end Sleplet.Props
