import Verif.Lemmas.RandomSignals
import Verif.Lemmas.SigmaJ
import Verif.Lemmas.Wavelets
import Verif.Model.SigmaJ
import Verif.Props.MeshCoefficients

/-!
C81: the level of the noise on average over the random numbers, and the standard deviations of its wavelet coefficients.
-/
namespace Sleplet.Props

open Complex MeasureTheory Noise Spec NumPy Functions SigmaJ

variable {Ω : Type} [MeasurableSpace Ω] {P : Measure Ω} {normals : Ω → ℕ → ℕ → ℝ}

/-- the noise for every outcome. -/
private theorem noise_family (normals : Ω → ℕ → ℕ → ℝ) (L : ℕ) (signal : List ℂ) (snr : ℝ) (ω : Ω) :
    ∃ n : List ℂ, n.length = L ^ 2 ∧ (∀ w, createNoise (normals ω) L signal snr w = .ok (n, w ++ [(30, L ^ 2)])) ∧
      ∀ (l : ℕ) (m : ℤ), l < L → |m| ≤ l →
        n.getD (elm2ind l m) 0 = coeff (normals ω 30) (computeSigmaNoise signal snr none) (l ^ 2) m := by
  obtain ⟨n, hn⟩ := C23_noise_reproducible (normals ω) L signal snr
  obtain ⟨n', hn', hl, hv⟩ := createNoise_ok (normals ω) L signal snr []
  have : n' = n := by
    have := (hn []).symm.trans hn'
    injection this with this
    exact (congrArg Prod.fst this).symm
  subst this
  exact ⟨n', hl, hn, hv⟩

/-- C81.  Harmonic noise has mean zero, and on average its power is the power of the signal divided by the requested ratio
`10^(snr/10)`. -/
theorem C81_expected_power (h : StandardNormals P fun k ω => normals ω 30 k) (L : ℕ) (hL : 0 < L) (signal : List ℂ)
    (hs : signal.length = L ^ 2) (snr : ℝ) :
    ∃ n : Ω → List ℂ, (∀ ω w, createNoise (normals ω) L signal snr w = .ok (n ω, w ++ [(30, L ^ 2)])) ∧
      (∀ i, ∫ ω, (n ω).getD i 0 ∂P = 0) ∧
      ∫ ω, ((n ω).map fun x => ‖x‖ ^ 2).sum ∂P = (signal.map fun x => ‖x‖ ^ 2).sum / 10 ^ (snr / 10) := by
  choose n hl hn hv using noise_family normals L signal snr
  refine ⟨n, hn, fun i => ?_, ?_⟩
  · by_cases hi : i < L ^ 2
    · obtain ⟨c, hc, -⟩ := noise_linear L (computeSigmaNoise signal snr none) (fun j => if j = i then 1 else 0)
      have : (fun ω => (n ω).getD i 0) = fun ω => ∑ k ∈ Finset.range (L ^ 2), c k * ((normals ω 30 k : ℝ) : ℂ) := by
        funext ω
        have h1 := hc (normals ω 30) (n ω) (hv ω)
        rw [← h1]
        simp [hi]
      rw [this]
      exact first h _ c
    · have : (fun ω => (n ω).getD i 0) = fun _ => 0 := by
        funext ω
        rw [List.getD_eq_default _ _ (by rw [hl]; omega)]
      rw [this]
      simp
  · have : (fun ω => ((n ω).map fun x => ‖x‖ ^ 2).sum) =
        fun ω => computeSigmaNoise signal snr none ^ 2 * ∑ k ∈ Finset.range (L ^ 2), normals ω 30 k ^ 2 := by
      funext ω
      exact power_of_coeffs (normals ω 30) _ L (n ω) (hl ω) (hv ω)
    rw [this, integral_const_mul, integral_finset_sum]
    · have h1 : ∀ k, ∫ ω, normals ω 30 k ^ 2 ∂P = 1 := by
        intro k
        have := cov h k k
        simpa [sq] using this
      simp only [h1]
      have hpos : (0 : ℝ) < (L : ℝ) ^ 2 := by positivity
      have h2 : 0 ≤ signalPower signal := List.sum_nonneg (by simp)
      rw [computeSigmaNoise, Real.sq_sqrt (by positivity)]
      simp only [Option.getD_none, hs, Nat.cast_pow, Finset.sum_const, Finset.card_range, nsmul_eq_mul, mul_one]
      rw [div_mul_cancel₀ _ hpos.ne', neg_div, Real.rpow_neg (by norm_num)]
      unfold signalPower
      ring
    · intro k _
      have := (memLp h k).integrable_sq
      simpa using this

/-- C81.  Wavelets on the whole sphere: the wavelet coefficients of noise have mean zero at every sample, and `σ_j` is their
standard deviation.  Assumed of `ssht.inverse`: it sums spherical harmonics at the samples `(θ, φ)`. -/
theorem C81_axisymmetric {Pix : Type} (h : StandardNormals P fun k ω => normals ω 30 k) (L : ℕ) (signal : List ℂ) (snr : ℝ)
    (sshtInverse : List ℂ → Pix → ℂ) (th ph : Pix → ℝ) (hssht : ∀ c x, sshtInverse c x = synthesis L c (th x) (ph x))
    (psi : List (List ℂ)) (hpsi : ∀ r ∈ psi, r.length = L ^ 2)
    (hzonal : ∀ r ∈ psi, ∀ i, r.getD i 0 ≠ 0 → ∃ l, i = l ^ 2 + l) (j : ℕ) (hj : j < psi.length) :
    ∃ (s : ℝ) (f : Ω → Pix → ℂ), (sigmaJ signal psi snr)[j]? = some s ∧ 0 ≤ s ∧
      (∀ ω w, ∃ n w' ws W, createNoise (normals ω) L signal snr w = .ok (n, w') ∧ Wavelets.axisymForward L n psi = .ok ws ∧
        ws[j]? = some W ∧ f ω = sshtInverse W) ∧
      ∀ x, ∫ ω, f ω x ∂P = 0 ∧ ∫ ω, ‖f ω x‖ ^ 2 ∂P = s ^ 2 := by
  let Y : ℕ → Pix → ℂ := fun i x => harm i (th x) (ph x)
  have hY : ∀ c x, sshtInverse c x = ∑ i ∈ Finset.range (L ^ 2), c.getD i 0 * Y i x := fun c x => by
    rw [hssht, synthesis_eq]
  have hadd : ∀ l < L, ∀ x, ∑ t ∈ Finset.range (2 * l + 1), ‖Y (l ^ 2 + t) x‖ ^ 2 = (2 * l + 1) / (4 * Real.pi) :=
    fun l _ x => sum_norm_harm l (th x) (ph x)
  set σ := computeSigmaNoise signal snr none with hσ
  set r := psi[j] with hr
  have hrmem : r ∈ psi := List.getElem_mem hj
  have hσ0 : 0 ≤ σ := Real.sqrt_nonneg _
  choose n hl hn hv using noise_family normals L signal snr
  have hW : ∀ ω (row : List ℂ), ∃ W : List ℂ, row.length = L ^ 2 → Wavelets.forwardRow L (n ω) row = .ok W ∧ W.length = L ^ 2 ∧
      ∀ (l : ℕ) (m : ℤ), l < L → |m| ≤ l → W.getD (elm2ind l m) 0 =
        (Real.sqrt (4 * Real.pi / (2 * (l : ℝ) + 1)) : ℂ) * (starRingEnd ℂ) (row.getD (elm2ind l 0) 0) *
          (n ω).getD (elm2ind l m) 0 := by
    intro ω row
    by_cases hp : row.length = L ^ 2
    · obtain ⟨W, hW⟩ := Wavelets.forwardRow_ok L (n ω) row (hl ω) hp
      exact ⟨W, fun _ => hW⟩
    · exact ⟨[], fun h => absurd h hp⟩
  choose W hWs using hW
  refine ⟨σ * Real.sqrt (r.map fun x => ‖x‖ ^ 2).sum, fun ω => sshtInverse (W ω r), ?_, by positivity, ?_, ?_⟩
  · simp [sigmaJ, List.getElem?_eq_getElem hj, ← hσ, ← hr]
  · intro ω w
    refine ⟨n ω, _, psi.map (W ω), W ω r, hn ω w, ?_, ?_, rfl⟩
    · unfold Wavelets.axisymForward
      exact mapM_eq_ok _ _ _ fun row hrow => (hWs ω row (hpsi row hrow)).1
    · simp [List.getElem?_eq_getElem hj, ← hr]
  · intro x
    let a : ℕ → ℂ := fun l => (Real.sqrt (4 * Real.pi / (2 * (l : ℝ) + 1)) : ℂ) * (starRingEnd ℂ) (r.getD (l ^ 2 + l) 0)
    let B : ℕ → ℂ := fun i => a (Nat.sqrt i) * Y i x
    have hsqrt : ∀ l t, t < 2 * l + 1 → Nat.sqrt (l ^ 2 + t) = l := fun l t ht => by
      rw [sq, Nat.sqrt_add_eq l (by omega)]
    obtain ⟨c, hc, hcp⟩ := noise_linear L σ B
    have hf : ∀ ω, sshtInverse (W ω r) x = ∑ k ∈ Finset.range (L ^ 2), c k * ((normals ω 30 k : ℝ) : ℂ) := by
      intro ω
      rw [← hc (normals ω 30) (n ω) (hv ω), hY, sum_sq_blocks, sum_sq_blocks]
      refine Finset.sum_congr rfl fun l hlL => Finset.sum_congr rfl fun t ht => ?_
      rw [Finset.mem_range] at hlL ht
      have := (hWs ω r (hpsi r hrmem)).2.2 l ((t : ℤ) - l) hlL (by rw [abs_le]; omega)
      rw [elm2ind_block, elm2ind_zero] at this
      simp only [B, hsqrt l t ht, this, a]
      ring
    have hpow : ∑ i ∈ Finset.range (L ^ 2), ‖B i‖ ^ 2 = (r.map fun x => ‖x‖ ^ 2).sum := by
      rw [list_sum_eq r (fun x => ‖x‖ ^ 2), hpsi r hrmem, sum_sq_blocks, sum_sq_blocks]
      refine Finset.sum_congr rfl fun l hlL => ?_
      rw [Finset.mem_range] at hlL
      have h1 : ∑ t ∈ Finset.range (2 * l + 1), ‖B (l ^ 2 + t)‖ ^ 2 =
          ‖a l‖ ^ 2 * ∑ t ∈ Finset.range (2 * l + 1), ‖Y (l ^ 2 + t) x‖ ^ 2 := by
        rw [Finset.mul_sum]
        refine Finset.sum_congr rfl fun t ht => ?_
        rw [Finset.mem_range] at ht
        simp only [B, hsqrt l t ht, norm_mul, mul_pow]
      have h2 : ∑ t ∈ Finset.range (2 * l + 1), ‖r.getD (l ^ 2 + t) 0‖ ^ 2 = ‖r.getD (l ^ 2 + l) 0‖ ^ 2 := by
        apply Finset.sum_eq_single_of_mem l (by simp; omega)
        intro t ht htl
        rw [Finset.mem_range] at ht
        by_contra hne
        have hne' : r.getD (l ^ 2 + t) 0 ≠ 0 := by
          intro h0
          rw [h0] at hne
          simp at hne
        obtain ⟨l', hl'⟩ := hzonal r hrmem _ hne'
        have e1 := hsqrt l t ht
        rw [hl', hsqrt l' l' (by omega)] at e1
        subst e1
        omega
      rw [h1, h2, hadd l hlL x]
      simp only [a, norm_mul, mul_pow, RCLike.norm_conj]
      have hpos : (0 : ℝ) ≤ 4 * Real.pi / (2 * (l : ℝ) + 1) := by positivity
      rw [← Complex.normSq_eq_norm_sq, Complex.normSq_ofReal, Real.mul_self_sqrt hpos]
      have hpi := Real.pi_pos
      field_simp
    simp only [hf]
    refine ⟨first h _ c, ?_⟩
    rw [second h _ c, hcp, hpow, mul_pow, Real.sq_sqrt]
    exact List.sum_nonneg (by simp)

/-- hypotheses met: independent standard normals exist; a sample at `(1, 2)` and a wavelet of two degrees. -/
example : ∃ (Ω : Type) (_ : MeasurableSpace Ω) (P : Measure Ω) (ξ : ℕ → Ω → ℝ), StandardNormals P ξ ∧
    ∃ (s : ℝ) (f : Ω → Unit → ℂ), (sigmaJ [1, 0, 0, 0] [[1, 0, 2, 0]] 0)[0]? = some s ∧ 0 < s ∧
      ∫ ω, ‖f ω ()‖ ^ 2 ∂P = s ^ 2 := by
  obtain ⟨Ω, m, P, ξ, h⟩ := standardNormals_exist
  refine ⟨Ω, m, P, ξ, h, ?_⟩
  obtain ⟨s, f, h1, h2, -, h3⟩ := C81_axisymmetric (normals := fun ω _ k => ξ k ω) h 2 [1, 0, 0, 0] 0
    (fun c _ => synthesis 2 c 1 2) (fun _ => 1) (fun _ => 2) (fun _ _ => rfl) [[1, 0, 2, 0]] (by simp) (by
      intro r hr i hi
      have hr : r = [1, 0, 2, 0] := by simpa using hr
      subst hr
      match i with
      | 0 => exact ⟨0, rfl⟩
      | 1 => simp at hi
      | 2 => exact ⟨1, rfl⟩
      | 3 => simp at hi
      | i + 4 => simp at hi) 0 (by simp)
  refine ⟨s, f, h1, ?_, (h3 ()).2⟩
  simp [sigmaJ, computeSigmaNoise, signalPower] at h1
  rw [← h1]
  positivity

private theorem sift_ok (κ n : List ℂ) (N : ℕ) (hκ : N ≤ κ.length) (hn : n.length = N) :
    Wavelets.sift κ n (some N) = .ok (List.ofFn fun p : Fin N => κ.getD p 0 * (starRingEnd ℂ) (n.getD p 0)) := by
  unfold Wavelets.sift
  rw [broadcast_of_length_eq _ _ _ (by simp [upTo, hκ, hn])]
  congr 1
  apply List.ext_getElem
  · simp [upTo, hκ, hn]
  · intro i h1 h2
    simp at h2
    have h3 : i < κ.length := by omega
    have h4 : i < n.length := by omega
    simp [upTo, List.getD_eq_getElem?_getD, h3, h4]

/-- the power of a combination of orthonormal rows. -/
private theorem combination_power {N n : ℕ} (E : Fin N → Fin n → ℂ) (hE : OrthonormalRows E) (a : Fin N → ℂ) :
    ∑ i, ‖∑ p, a p * E p i‖ ^ 2 = ∑ p, ‖a p‖ ^ 2 := by
  have h1 : ∑ i, (∑ p, a p * E p i) * (starRingEnd ℂ) (∑ q, a q * E q i) = ∑ p, a p * (starRingEnd ℂ) (a p) := by
    calc ∑ i, (∑ p, a p * E p i) * (starRingEnd ℂ) (∑ q, a q * E q i)
        = ∑ i, ∑ p, ∑ q, a p * (starRingEnd ℂ) (a q) * (E p i * (starRingEnd ℂ) (E q i)) := by
          refine Finset.sum_congr rfl fun i _ => ?_
          rw [map_sum, Finset.sum_mul_sum]
          exact Finset.sum_congr rfl fun p _ => Finset.sum_congr rfl fun q _ => by rw [map_mul]; ring
      _ = ∑ p, ∑ q, a p * (starRingEnd ℂ) (a q) * ∑ i, E p i * (starRingEnd ℂ) (E q i) := by
          rw [Finset.sum_comm]
          refine Finset.sum_congr rfl fun p _ => ?_
          rw [Finset.sum_comm]
          exact Finset.sum_congr rfl fun q _ => by rw [Finset.mul_sum]
      _ = _ := by simp [hE _ _]
  simp only [mul_conj, normSq_eq_norm_sq] at h1
  exact_mod_cast h1

private theorem asVec_sum {L : ℕ} (n : List ℂ) (b : Fin (L ^ 2) → ℂ) :
    ∑ i, asVec L n i * b i = ∑ i ∈ Finset.range (L ^ 2), n.getD i 0 * (if hi : i < L ^ 2 then b ⟨i, hi⟩ else 0) := by
  rw [Finset.sum_range]
  exact Finset.sum_congr rfl fun i _ => by simp [asVec]

/-- What is assumed of the Slepian object and of the external transforms on the sphere: the first `N` eigenvectors `E` are there and
orthonormal, `ssht.inverse` is linear and `ssht.forward` inverts it. -/
structure GoodSphere {L : ℕ} {Pix : Type} (e : SlepianEnv L Pix) {N : ℕ} (E : Fin N → Fin (L ^ 2) → ℂ) : Prop where
  number : e.sl.N = N
  le : N ≤ L ^ 2
  rows : ∀ p : Fin N, e.sl.evecs[(p : ℕ)]? = some (E p)
  orth : OrthonormalRows E
  linear : ∃ Y : Fin (L ^ 2) → Pix → ℂ, ∀ c x, e.synth c x = ∑ i, c i * Y i x
  exact : ∀ c, e.sshtForward (e.synth c) = List.ofFn c

section
variable {L N : ℕ} {Pix : Type} [Fintype Pix] {e : SlepianEnv L Pix} {E : Fin N → Fin (L ^ 2) → ℂ}

/-- `_create_slepian_noise` for one outcome (`noise.py:99-112`). -/
private noncomputable abbrev slepianNoise (normals : ℕ → ℕ → ℝ) (e : SlepianEnv L Pix) (c : List ℂ) (snr : ℝ) (w : World) :=
  createSlepianNoise normals (Transform.slepianInverse e.sl e.synth) e.sshtForward
    (fun nlm => Transform.slepianForward e.sl e.synth e.weight { flm := some (asVec L nlm) } none) L c snr w

/-- Slepian noise is the projection of harmonic noise, at a level given by the first `N` coefficients and all `L²` harmonics. -/
private theorem slepianNoise_ok (hg : GoodSphere e E) (normals : ℕ → ℕ → ℝ) (c : Fin N → ℂ) (snr : ℝ) :
    ∃ n : List ℂ, (∀ w, slepianNoise normals e (List.ofFn c) snr w =
        .ok (List.ofFn fun p => ∑ i, asVec L n i * (starRingEnd ℂ) (E p i), w ++ [(30, L ^ 2)])) ∧
      ∀ (l : ℕ) (m : ℤ), l < L → |m| ≤ l → n.getD (elm2ind l m) 0 =
        coeff (normals 30) (computeSigmaNoise (List.ofFn c) snr (some (L ^ 2))) (l ^ 2) m := by
  obtain ⟨Y, hY⟩ := hg.linear
  have hinv := Transform.slepianInverse_ok e.sl e.synth E hg.number hg.rows c
  have hfield : (fun x => ∑ p, c p * e.synth (E p) x) = e.synth fun i => ∑ p, c p * E p i := by
    funext x
    rw [hY]
    simp only [hY, Finset.mul_sum, Finset.sum_mul]
    rw [Finset.sum_comm]
    exact Finset.sum_congr rfl fun i _ => Finset.sum_congr rfl fun p _ => by ring
  have hsig : computeSigmaNoise (List.ofFn fun i => ∑ p, c p * E p i) snr none =
      computeSigmaNoise (List.ofFn c) snr (some (L ^ 2)) := by
    have := combination_power E hg.orth c
    simp [computeSigmaNoise, signalPower, List.map_ofFn, List.sum_ofFn, Function.comp_def, this]
  obtain ⟨n, -, hn, hv⟩ := noise_family (Ω := Unit) (fun _ => normals) L (List.ofFn fun i => ∑ p, c p * E p i) snr ()
  rw [hsig] at hv
  refine ⟨n, fun w => ?_, hv⟩
  unfold slepianNoise createSlepianNoise
  rw [hinv]
  simp only [bind, Except.bind, hfield, hg.exact, hn, forward_flm e.sl e.synth e.weight E hg.number hg.le hg.rows, pure, Except.pure]

/-- C81.  Slepian noise has mean zero; on average, its power over the `N` coefficients is the power of the signal divided by the
requested ratio, times `N/L²`: only the part of the noise in the region is kept. -/
theorem C81_slepian_expected_power (h : StandardNormals P fun k ω => normals ω 30 k) (hg : GoodSphere e E) (c : Fin N → ℂ)
    (snr : ℝ) :
    ∃ n : Ω → Fin N → ℂ, (∀ ω w, createSlepianNoise (normals ω) (Transform.slepianInverse e.sl e.synth) e.sshtForward
        (fun nlm => Transform.slepianForward e.sl e.synth e.weight { flm := some (asVec L nlm) } none) L (List.ofFn c) snr w =
          .ok (List.ofFn (n ω), w ++ [(30, L ^ 2)])) ∧
      (∀ p, ∫ ω, n ω p ∂P = 0) ∧
      (∀ p, ∫ ω, ‖n ω p‖ ^ 2 ∂P = (∑ p, ‖c p‖ ^ 2) / 10 ^ (snr / 10) / L ^ 2) ∧
      ∑ p, ∫ ω, ‖n ω p‖ ^ 2 ∂P = (∑ p, ‖c p‖ ^ 2) / 10 ^ (snr / 10) * (N / L ^ 2) := by
  choose nlm hn hv using fun ω => slepianNoise_ok hg (normals ω) c snr
  set σ := computeSigmaNoise (List.ofFn c) snr (some (L ^ 2)) with hσ
  have key : ∀ p, ∫ ω, (∑ i, asVec L (nlm ω) i * (starRingEnd ℂ) (E p i)) ∂P = 0 ∧
      ∫ ω, ‖∑ i, asVec L (nlm ω) i * (starRingEnd ℂ) (E p i)‖ ^ 2 ∂P = σ ^ 2 := by
    intro p
    obtain ⟨a, ha, hap⟩ := noise_linear L σ (fun i => if hi : i < L ^ 2 then (starRingEnd ℂ) (E p ⟨i, hi⟩) else 0)
    have hf : ∀ ω, ∑ i, asVec L (nlm ω) i * (starRingEnd ℂ) (E p i) =
        ∑ k ∈ Finset.range (L ^ 2), a k * ((normals ω 30 k : ℝ) : ℂ) := by
      intro ω
      rw [← ha (normals ω 30) (nlm ω) (hv ω), asVec_sum]
    simp only [hf]
    refine ⟨first h _ a, ?_⟩
    rw [second h _ a, hap, Finset.sum_range]
    simp only [Fin.is_lt, dite_true, Fin.eta, RCLike.norm_conj]
    have := hg.orth p p
    simp only [if_true, mul_conj, normSq_eq_norm_sq] at this
    have h1 : ∑ i, ‖E p i‖ ^ 2 = 1 := by exact_mod_cast this
    rw [h1, mul_one]
  have hσ2 : σ ^ 2 = (∑ p, ‖c p‖ ^ 2) / 10 ^ (snr / 10) / L ^ 2 := by
    rw [hσ, computeSigmaNoise, Real.sq_sqrt]
    · simp only [signalPower, List.map_ofFn, List.sum_ofFn, Function.comp_def, Option.getD_some, Nat.cast_pow]
      rw [neg_div, Real.rpow_neg (by norm_num)]
      ring
    · have : 0 ≤ signalPower (List.ofFn c) := List.sum_nonneg (by simp)
      positivity
  refine ⟨fun ω p => ∑ i, asVec L (nlm ω) i * (starRingEnd ℂ) (E p i), hn, fun p => (key p).1, fun p => ?_, ?_⟩
  · rw [(key p).2, hσ2]
  · rw [Finset.sum_congr rfl fun p _ => (key p).2, hσ2]
    simp
    ring

/-- hypotheses met for `L = 2`, `N = 2`: eigenvectors `i·e₁`, `i·e₂` on a grid of four samples; the noise of a signal of power 2 has
power `1` on average when no more noise than signal was asked for. -/
example : ∃ (Ω : Type) (_ : MeasurableSpace Ω) (P : Measure Ω) (ξ : ℕ → Ω → ℝ) (e : SlepianEnv 2 (Fin (2 ^ 2)))
    (E : Fin 2 → Fin (2 ^ 2) → ℂ), StandardNormals P ξ ∧ GoodSphere e E ∧
      ∃ n : Ω → Fin 2 → ℂ, ∑ p, ∫ ω, ‖n ω p‖ ^ 2 ∂P = 1 := by
  obtain ⟨Ω, m, P, ξ, h⟩ := standardNormals_exist
  let E : Fin 2 → Fin (2 ^ 2) → ℂ := fun p i => if (i : ℕ) = p + 1 then I else 0
  have hg : GoodSphere (L := 2) (N := 2) ⟨⟨2, [1, 1 / 2], [E 0, E 1]⟩, fun c x => c x, fun _ => 1, fun f => List.ofFn f⟩ E :=
    ⟨rfl, by norm_num, by intro p; fin_cases p <;> rfl, by
      intro p q
      fin_cases p <;> fin_cases q <;> simp [E, Fin.sum_univ_four],
      ⟨fun i x => if i = x then 1 else 0, by simp⟩, fun _ => rfl⟩
  obtain ⟨n, -, -, -, hn⟩ := C81_slepian_expected_power (normals := fun ω _ k => ξ k ω) h hg (fun _ => 1) 0
  refine ⟨Ω, m, P, ξ, _, E, h, hg, n, ?_⟩
  rw [hn]
  norm_num

/-- C81.  Slepian wavelets on the sphere: at every sample `σ_j` is the standard deviation of the field of the wavelet coefficients of
Slepian noise, which has mean zero. -/
theorem C81_slepian_wavelets (h : StandardNormals P fun k ω => normals ω 30 k) (hg : GoodSphere e E) (c : Fin N → ℂ)
    (snr : ℝ) (psi : List (List ℂ)) (hpsi : ∀ r ∈ psi, N ≤ r.length) :
    ∃ s : List (Pix → ℝ), slepianSigmaJ e.sl e.synth (List.ofFn c) psi snr = .ok s ∧ s.length = psi.length ∧
      ∀ (j : ℕ) (κ : List ℂ) (sj : Pix → ℝ), psi[j]? = some κ → s[j]? = some sj → ∃ f : Ω → Pix → ℂ,
        (∀ ω w, ∃ n w' W, createSlepianNoise (normals ω) (Transform.slepianInverse e.sl e.synth) e.sshtForward
          (fun nlm => Transform.slepianForward e.sl e.synth e.weight { flm := some (asVec L nlm) } none) L (List.ofFn c) snr w =
            .ok (n, w') ∧ Wavelets.sift κ n (some N) = .ok W ∧ Transform.slepianInverse e.sl e.synth W = .ok (f ω)) ∧
        ∀ x, 0 ≤ sj x ∧ ∫ ω, f ω x ∂P = 0 ∧ ∫ ω, ‖f ω x‖ ^ 2 ∂P = sj x ^ 2 := by
  choose nlm hn hv using fun ω => slepianNoise_ok hg (normals ω) c snr
  set σ := computeSigmaNoise (List.ofFn c) snr (some (L ^ 2)) with hσ
  have hσ0 : 0 ≤ σ := Real.sqrt_nonneg _
  let s2 : ℕ → Pix → ℂ := fun p => e.synth (if hp : p < N then E ⟨p, hp⟩ else fun _ => 0)
  have hsp : Transform.computeSp e.sl e.synth (List.range e.sl.N) = .ok ((List.range N).map s2) := by
    rw [hg.number, Transform.computeSp_ok e.sl e.synth (fun p => if hp : p < N then E ⟨p, hp⟩ else fun _ => 0)]
    intro p hp
    have hp : p < N := by simpa using hp
    simp only [hp, dite_true]
    exact hg.rows ⟨p, hp⟩
  refine ⟨psi.map fun κ x => σ * Real.sqrt (∑ p : Fin N, ‖κ.getD p 0‖ ^ 2 * ‖e.synth (E p) x‖ ^ 2), ?_, by simp, ?_⟩
  · unfold slepianSigmaJ
    simp only [hsp, bind, Except.bind]
    refine mapM_eq_ok _ _ _ fun κ hκ => ?_
    rw [hg.number, List.map_map, Function.comp_def, waveletPower_ok κ N (hpsi κ hκ) (fun p x => ‖s2 p x‖ ^ 2)]
    simp [s2, pure, Except.pure, ← hσ]
  · intro j κ sj hκ hsj
    have hκl : N ≤ κ.length := hpsi κ (List.mem_of_getElem? hκ)
    simp only [List.getElem?_map, hκ, Option.map_some, Option.some.injEq] at hsj
    subst hsj
    refine ⟨fun ω x => ∑ p : Fin N, κ.getD p 0 * (starRingEnd ℂ) (∑ i, asVec L (nlm ω) i * (starRingEnd ℂ) (E p i)) * e.synth (E p) x,
      fun ω w => ⟨_, _, _, hn ω w, sift_ok κ _ N hκl (by simp), ?_⟩, fun x => ⟨by positivity, ?_⟩⟩
    · rw [Transform.slepianInverse_ok e.sl e.synth E hg.number hg.rows]
      simp [List.getD_eq_getElem?_getD]
    · let b : Fin (L ^ 2) → ℂ := fun i => ∑ p : Fin N, (κ.getD p 0 * e.synth (E p) x) * E p i
      obtain ⟨a, ha, hap⟩ := noise_linear L σ (fun i => if hi : i < L ^ 2 then (starRingEnd ℂ) (b ⟨i, hi⟩) else 0)
      have hf : ∀ ω, ∑ p : Fin N, κ.getD p 0 * (starRingEnd ℂ) (∑ i, asVec L (nlm ω) i * (starRingEnd ℂ) (E p i)) * e.synth (E p) x =
          ∑ k ∈ Finset.range (L ^ 2), (starRingEnd ℂ) (a k) * ((normals ω 30 k : ℝ) : ℂ) := by
        intro ω
        have h1 := congrArg (starRingEnd ℂ) (ha (normals ω 30) (nlm ω) (hv ω))
        rw [← asVec_sum (nlm ω) fun i => (starRingEnd ℂ) (b i)] at h1
        rw [map_sum, map_sum] at h1
        simp only [map_mul, conj_conj, conj_ofReal] at h1
        rw [← h1]
        simp only [b, map_sum, map_mul, conj_conj, Finset.mul_sum, Finset.sum_mul]
        rw [Finset.sum_comm]
        exact Finset.sum_congr rfl fun i _ => Finset.sum_congr rfl fun p _ => by ring
      simp only [hf]
      refine ⟨first h _ _, ?_⟩
      rw [second h _ _]
      simp only [RCLike.norm_conj]
      rw [hap, Finset.sum_range]
      simp only [Fin.is_lt, dite_true, Fin.eta, RCLike.norm_conj, b]
      rw [combination_power E hg.orth, mul_pow, Real.sq_sqrt (by positivity)]
      simp only [norm_mul, mul_pow]

end

section
variable {V : Type} [Fintype V] {K : ℕ} {e : MeshClasses.MEnv V} {φ : Fin K → V → ℝ} {ev : Fin K → ℝ} {S : Fin K → Fin K → ℝ} {rows : ℕ}

/-- C81.  Slepian wavelets on meshes: at every vertex `σ_j` is the standard deviation of the field of the wavelet coefficients of
Slepian noise, which has mean zero. -/
theorem C81_mesh_wavelets (h : StandardNormals P fun k ω => normals ω 30 k) (hg : GoodMesh e φ ev S rows) (c : List ℝ)
    (hc : c.length = e.slepian.N) (snr : ℝ) (psi : List (List ℂ)) (hpsi : ∀ r ∈ psi, e.slepian.N ≤ r.length)
    (hreal : ∀ r ∈ psi, ∀ x ∈ r, x.im = 0) :
    ∃ s : List (V → ℝ), meshSigmaJ e.slepian (c.map fun x : ℝ => (x : ℂ)) psi snr = .ok s ∧ s.length = psi.length ∧
      ∀ (j : ℕ) (κ : List ℂ) (sj : V → ℝ), psi[j]? = some κ → s[j]? = some sj → ∃ f : Ω → V → ℝ,
        (∀ ω w, ∃ n w' W, MeshClasses.slepianNoise { e with normals := normals ω } c snr w = .ok (n, w') ∧
          Wavelets.sift κ (n.map fun x : ℝ => (x : ℂ)) (some e.slepian.N) = .ok W ∧
          MeshT.slepianMeshInverse e.slepian (W.map Complex.re) = .ok (f ω)) ∧
        ∀ v, 0 ≤ sj v ∧ ∫ ω, f ω v ∂P = 0 ∧ ∫ ω, f ω v ^ 2 ∂P = sj v ^ 2 := by
  have hNK := hg.le_K
  obtain ⟨-, horth⟩ := hg.built.eigen
  set N := e.slepian.N with hN
  let T : Fin N → Fin K → ℝ := fun p => S ⟨p, by omega⟩
  let s : Fin N → V → ℝ := fun p v => ∑ i, T p i * φ i v
  have hTo : ∀ p q, ∑ i, T p i * T q i = if p = q then 1 else 0 := by
    intro p q
    have := horth ⟨p, by omega⟩ ⟨q, by omega⟩
    simpa [T, Fin.ext_iff] using this
  set σ := computeSigmaNoise (c.map fun x : ℝ => (x : ℂ)) snr (some e.slepian.evals.length) with hσ
  have hσ0 : 0 ≤ σ := Real.sqrt_nonneg _
  have hσ' : Real.sqrt (10 ^ (-snr / 10) * (∑ q : Fin N, c.getD q 0 ^ 2) / K) = σ := by
    have : (c.map fun x => x ^ 2).sum = ∑ q : Fin N, c.getD q 0 ^ 2 := by
      have h1 : c.map (fun x => x ^ 2) = List.ofFn fun q : Fin N => c.getD q 0 ^ 2 := by
        apply List.ext_getElem
        · simp [hc]
        · intro i h1 h2
          simp at h1
          simp [List.getD_eq_getElem?_getD, h1]
      rw [h1, List.sum_ofFn]
    rw [hσ, computeSigmaNoise, signalPower, ← this]
    simp [hg.built.evals, Function.comp_def]
  have hnoise : ∀ ω w, MeshClasses.slepianNoise { e with normals := normals ω } c snr w =
      .ok (List.ofFn fun p : Fin N => ∑ i : Fin K, σ * normals ω 30 i * T p i, w ++ [(30, K)]) := by
    intro ω w
    have hg' : GoodMesh { e with normals := normals ω } φ ev S rows := ⟨hg.built, hg.number⟩
    have := meshNoise_ok hg' c hc.ge snr w
    rw [this, ← hσ']
  have hsp : MeshT.computeSp e.slepian (List.range e.slepian.N) =
      .ok ((List.range N).map fun p v => if hp : p < N then s ⟨p, hp⟩ v else 0) := by
    refine MeshT.computeSp_ok e.slepian _ _ fun p hp => ?_
    have hp : p < N := by simpa using hp
    refine ⟨_, (hg.built.row ⟨p, by omega⟩ (by have := hg.built.le_rows; simp only; omega)).1, ?_⟩
    rw [hg.built.basis, MeshT.meshInverse_ofFn]
    simp only [hp, dite_true, s, T]
  refine ⟨psi.map fun κ v => σ * Real.sqrt (∑ p : Fin N, ‖κ.getD p 0‖ ^ 2 * |s p v| ^ 2), ?_, by simp, ?_⟩
  · unfold meshSigmaJ
    simp only [hsp, bind, Except.bind]
    refine mapM_eq_ok _ _ _ fun κ hκ => ?_
    rw [List.map_map, Function.comp_def, ← hN,
      waveletPower_ok κ N (hpsi κ hκ) (fun p v => |if hp : p < N then s ⟨p, hp⟩ v else 0| ^ 2)]
    simp [pure, Except.pure, ← hσ]
  · intro j κ sj hκ hsj
    have hκm := List.mem_of_getElem? hκ
    have hκl : N ≤ κ.length := hpsi κ hκm
    simp only [List.getElem?_map, hκ, Option.map_some, Option.some.injEq] at hsj
    subst hsj
    have hκr : ∀ p : Fin N, κ.getD p 0 = ((κ.getD p 0).re : ℂ) := by
      intro p
      have h1 : (p : ℕ) < κ.length := by omega
      have : (κ.getD p 0).im = 0 := by
        rw [List.getD_eq_getElem _ _ h1]
        exact hreal κ hκm _ (List.getElem_mem h1)
      exact Complex.ext rfl this
    refine ⟨fun ω v => ∑ p : Fin N, ((κ.getD p 0).re * ∑ i : Fin K, σ * normals ω 30 i * T p i) * s p v,
      fun ω w => ⟨_, _, _, hnoise ω w, sift_ok κ _ N hκl (by simp), ?_⟩, fun v => ⟨by positivity, ?_⟩⟩
    · rw [meshInverse_take hg _ (by simp [hN])]
      congr 1
      funext v
      refine Finset.sum_congr rfl fun p _ => ?_
      simp only [s, T]
      congr 1
      have h1 : (p : ℕ) < N := p.2
      have h2 : ∀ g : Fin N → ℂ, ((List.ofFn g).map Complex.re).getD p 0 = (g ⟨p, h1⟩).re := fun g => by
        simp [List.getD_eq_getElem?_getD, h1]
      have h3 : ∀ g : Fin N → ℝ, ((List.ofFn g).map fun x : ℝ => (x : ℂ)).getD p 0 = (g ⟨p, h1⟩ : ℂ) := fun g => by
        simp [List.getD_eq_getElem?_getD, h1]
      rw [h2]
      dsimp only
      rw [h3, conj_ofReal, re_mul_ofReal]
    · let b : ℕ → ℝ := fun i => if hi : i < K then σ * ∑ p : Fin N, ((κ.getD p 0).re * s p v) * T p ⟨i, hi⟩ else 0
      have hf : ∀ ω, ∑ p : Fin N, ((κ.getD p 0).re * ∑ i : Fin K, σ * normals ω 30 i * T p i) * s p v =
          ∑ k ∈ Finset.range K, b k * normals ω 30 k := by
        intro ω
        rw [Finset.sum_range]
        simp only [b, Fin.is_lt, dite_true, Fin.eta, Finset.mul_sum, Finset.sum_mul]
        rw [Finset.sum_comm]
        exact Finset.sum_congr rfl fun i _ => Finset.sum_congr rfl fun p _ => by ring
      simp only [hf]
      constructor
      · have := first h K fun k => (b k : ℂ)
        simp only [← ofReal_mul, ← ofReal_sum] at this
        rw [integral_complex_ofReal] at this
        exact_mod_cast this
      · rw [(second_real h K b).2, Finset.sum_range]
        simp only [b, Fin.is_lt, dite_true, Fin.eta, mul_pow]
        rw [← Finset.mul_sum, Real.sq_sqrt (by positivity)]
        congr 1
        have := MeshT.comb_comb T hTo (fun p : Fin N => (κ.getD p 0).re * s p v) (fun p : Fin N => (κ.getD p 0).re * s p v)
        simp only [← sq] at this
        rw [this]
        refine Finset.sum_congr rfl fun p _ => ?_
        have h1 : ‖κ.getD p 0‖ ^ 2 = (κ.getD p 0).re ^ 2 := by
          conv_lhs => rw [hκr p]
          simp
        rw [h1, sq_abs]
        ring

/-- hypotheses met on the mesh of three vertices, with one wavelet. -/
example (e₀ : MeshClasses.MEnv (Fin 3)) : ∃ (Ω : Type) (_ : MeasurableSpace Ω) (P : Measure Ω) (ξ : ℕ → Ω → ℝ)
    (e : MeshClasses.MEnv (Fin 3)), StandardNormals P ξ ∧
      ∃ (sj : Fin 3 → ℝ) (f : Ω → Fin 3 → ℝ), meshSigmaJ e.slepian ((List.replicate e.slepian.N (1 : ℝ)).map fun x : ℝ => (x : ℂ))
        [List.replicate e.slepian.N 1] 0 = .ok [sj] ∧ ∀ v, ∫ ω, f ω v ^ 2 ∂P = sj v ^ 2 := by
  obtain ⟨Ω, m, P, ξ, h⟩ := standardNormals_exist
  obtain ⟨e, φ, S, -, -, hg⟩ := goodMesh_exists e₀
  obtain ⟨s, h1, h2, h3⟩ := C81_mesh_wavelets (normals := fun ω _ k => ξ k ω) h hg (List.replicate e.slepian.N 1) (by simp) 0
    [List.replicate e.slepian.N 1] (by simp) (by
      intro r hr x hx
      have hr : r = List.replicate e.slepian.N 1 := by simpa using hr
      subst hr
      rw [List.eq_of_mem_replicate hx]
      rfl)
  obtain ⟨sj, rfl⟩ := List.length_eq_one_iff.1 h2
  obtain ⟨f, -, hf⟩ := h3 0 _ sj rfl rfl
  exact ⟨Ω, m, P, ξ, e, h, sj, f, h1, fun v => (hf v).2.2⟩

end

end Sleplet.Props
