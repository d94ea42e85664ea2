import Mathlib.Analysis.Real.Pi.Bounds
import Mathlib.Tactic.NormNum
import Verif.Lemmas.Functions
import Verif.Model.Ranks
import Verif.Props.Functions
import Verif.Props.Noise
import Verif.Props.SlepianTransform
import Verif.Spec.RealSignal

/-!
C52 (regions do not mask), C53 (noise), C54 (translation).
-/
namespace Sleplet.Props

open Complex NumPy Functions Spec

variable {L : ℕ} {Pix : Type}

/-! ### C52 -/

/-- everything but the name. -/
def Content (o : Obj) : List ℂ × Option (List ℂ) × Option ℝ × ℤ × Bool × ℕ :=
  (o.coefficients, o.unnoised, o.snr, o.spin, o.reality, o.L)

/-- C52 (violated). For every harmonic function and every region: construction with the region and without give the same
outcome, except for the name. -/
theorem C52_region_ignored (limDen : ℚ → ℚ) (normals : ℕ → ℕ → ℝ) (h : Hooks) (L : ℕ) (noise : Option ℚ)
    (smoothing : Option ℤ) (r : Region.Obj) (w : Noise.World) :
    (flm limDen normals h ⟨L, noise, some r, smoothing⟩ w).map (fun p => (Content p.1, p.2)) =
      (flm limDen normals h ⟨L, noise, none, smoothing⟩ w).map (fun p => (Content p.1, p.2)) := by
  unfold flm postInit flmNoise
  cases h.setupArgs with
  | error e => rfl
  | ok u =>
    simp only [bind, Except.bind]
    cases h.create w with
    | error e => rfl
    | ok p =>
      simp only
      cases addNoiseWith (fun c snr w => Noise.createNoise normals L c snr w) noise p.1 p.2 with
      | error e => rfl
      | ok q => rfl

/-- C52 (violated) on meshes. -/
theorem C52_mesh_region_ignored (limDen : ℚ → ℚ) (normals : ℕ → ℕ → ℝ) (h : Ranks.Hooks) (meshName : String) (zoom : Bool)
    (noise : Option ℚ) (w : Noise.World) :
    (Ranks.meshFunction limDen normals h ⟨meshName, zoom, noise, true⟩ w).map
        (fun p => (p.1.coefficients, p.1.unnoised, p.1.snr, p.2)) =
      (Ranks.meshFunction limDen normals h ⟨meshName, zoom, noise, false⟩ w).map
        (fun p => (p.1.coefficients, p.1.unnoised, p.1.snr, p.2)) := by
  unfold Ranks.meshFunction
  cases h.setupArgs with
  | error e => rfl
  | ok u =>
    simp only [bind, Except.bind]
    cases h.name with
    | error e => rfl
    | ok nm =>
      simp only
      cases h.create w with
      | error e => rfl
      | ok p =>
        simp only
        cases noise with
        | none => rfl
        | some n =>
          simp only
          cases Noise.createMeshNoise normals (p.1.map fun (x : ℝ) => (x : ℂ)) (n : ℝ) p.2 with
          | error e => rfl
          | ok q =>
            simp only
            cases broadcast (· + ·) p.1 q.1 <;> rfl

/-- the class `DiracDelta`. -/
noncomputable def diracHooks (L : ℕ) : Hooks where
  setupArgs := .ok ()
  name := "dirac_delta"
  spin := 0
  reality := true
  create := fun w => (diracDelta L).map fun c => (c, w)

/-- C52 is violated: for every bandlimit, all transforms with `forward 0 = 0` and every region that holds no sample, the
Dirac delta with that region is constructed, but with coefficients that differ from those of the function restricted to
the region. -/
theorem C52_violation (limDen : ℚ → ℚ) (normals : ℕ → ℕ → ℝ) (L : ℕ) (hL : 0 < L) (inverse : List ℂ → Pix → ℂ)
    (forward : (Pix → ℂ) → List ℂ) (h0 : forward (fun _ => 0) = List.replicate (L ^ 2) 0) (theta phi : Pix → ℝ)
    (r : Region.Obj) (hr : ∀ x, ¬ Region.inMask r (theta x) (phi x)) (w : Noise.World) :
    ∃ o, flm limDen normals (diracHooks L) ⟨L, none, some r, none⟩ w = .ok (o, w) ∧
      o.coefficients ≠ ensureMasked inverse forward (fun x => Region.inMask r (theta x) (phi x)) o.coefficients := by
  obtain ⟨c, hc, hl, hv, -⟩ := C55_dirac_delta L
  refine ⟨⟨L, addDetails limDen ⟨L, none, some r, none⟩ "dirac_delta", 0, true, c, none, none⟩, ?_, ?_⟩
  · simp only [flm, postInit, diracHooks, hc, bind, Except.bind, Except.map, flmNoise, addNoiseWith, pure, Except.pure]
  · simp only [ensureMasked, hr, if_false, h0]
    intro heq
    have h1 := hv 0 0 hL (by simp)
    rw [heq] at h1
    have h2 : (List.replicate (L ^ 2) (0 : ℂ)).getD (elm2ind 0 0) 0 = 0 := by
      simp only [List.getD_eq_getElem?_getD, List.getElem?_replicate]
      split_ifs <;> rfl
    rw [h2, if_pos rfl] at h1
    have h3 : Real.sqrt ((2 * ((0 : ℕ) : ℝ) + 1) / (4 * Real.pi)) ≠ 0 := by
      have := Real.pi_pos
      positivity
    exact h3 (by exact_mod_cast h1.symm)

/-- samples on the poles and the band `1 ≤ θ ≤ 2`. -/
example : ∀ x : Bool, ¬ Region.inMask ⟨{ thetaMin := 1, thetaMax := 2 }, "", "lim_lat_lon"⟩ (if x then 0 else Real.pi) 0 := by
  intro x
  simp only [Region.inMask, if_true]
  rintro ⟨h1, h2, -⟩
  cases x
  · simp only [Bool.false_eq_true, if_false] at h2
    have := Real.pi_gt_three
    linarith
  · simp only [if_true] at h1
    norm_num at h1

/-! ### C53 -/

/-- C53. Without noise the object has the created coefficients, no clean copy and no SNR. -/
theorem C53_no_noise (limDen : ℚ → ℚ) (normals : ℕ → ℕ → ℝ) [Fintype Pix] (e : SlepianEnv L Pix) (h : Hooks)
    (region : Option Region.Obj) (smoothing : Option ℤ) (w w₁ : Noise.World) (c : List ℂ) (hs : h.setupArgs = .ok ())
    (hc : h.create w = .ok (c, w₁)) :
    (∃ o, flm limDen normals h ⟨L, none, region, smoothing⟩ w = .ok (o, w₁) ∧
      o.coefficients = c ∧ o.unnoised = none ∧ o.snr = none) ∧
    (∃ o, fp limDen normals e h ⟨L, none, region, smoothing⟩ w = .ok (o, w₁) ∧
      o.coefficients = c ∧ o.unnoised = none ∧ o.snr = none) := by
  constructor
  all_goals
    simp only [flm, fp, postInit, hs, hc, bind, Except.bind, flmNoise, fpNoise, addNoiseWith, pure, Except.pure]
    exact ⟨_, rfl, rfl, rfl, rfl⟩

/-- C53. With noise, a harmonic function whose coefficients number `L²` becomes the sum of the clean coefficients and a real
noise signal; the clean coefficients are kept, and the reported SNR is that of the two vectors.  The noise is the same
whatever generators exist. -/
theorem C53_harmonic_noise (limDen : ℚ → ℚ) (normals : ℕ → ℕ → ℝ) (s : ℚ) (c : List ℂ) (hl : c.length = L ^ 2) :
    ∃ n, RealSignal L n ∧ ∀ (h : Hooks) (region : Option Region.Obj) (smoothing : Option ℤ) (w w₁ : Noise.World),
      h.setupArgs = .ok () → h.create w = .ok (c, w₁) →
      ∃ o w₂, flm limDen normals h ⟨L, some s, region, smoothing⟩ w = .ok (o, w₂) ∧ o.coefficients.length = L ^ 2 ∧
        (∀ i < L ^ 2, o.coefficients.getD i 0 = c.getD i 0 + n.getD i 0) ∧ o.unnoised = some c ∧
        o.snr = some (10 * Real.logb 10 ((c.map fun x => ‖x‖ ^ 2).sum / (n.map fun x => ‖x‖ ^ 2).sum)) := by
  obtain ⟨n, hn⟩ := C23_noise_reproducible normals L c (s : ℝ)
  have hreal : RealSignal L n := by
    obtain ⟨n', w', h1, h2, -⟩ := C22_noise_real normals L c (s : ℝ) []
    rw [hn []] at h1
    injection h1 with h1
    injection h1 with h1
    rw [h1]; exact h2
  refine ⟨n, hreal, fun h region smoothing w w₁ hs hc => ?_⟩
  refine ⟨⟨L, addDetails limDen ⟨L, some s, region, smoothing⟩ h.name, h.spin, h.reality, List.zipWith (· + ·) c n, some c,
    some (Noise.computeSnr c n)⟩, w₁ ++ [(30, L ^ 2)], ?_, ?_, ?_, rfl, rfl⟩
  · simp only [flm, postInit, hs, hc, bind, Except.bind, flmNoise, addNoiseWith, hn,
      broadcast_of_length_eq _ _ _ (hl.trans hreal.1.symm), pure, Except.pure]
  · simp [hl, hreal.1]
  · intro i hi
    have h1 : i < c.length := by omega
    have h2 : i < n.length := by rw [hreal.1]; exact hi
    simp [List.getD_eq_getElem?_getD, h1, h2]

/-- the first `N` eigenvectors are available, as after computing or loading. -/
def HasRows (sl : Transform.Slepian (L ^ 2)) : Prop := sl.N ≤ L ^ 2 ∧ sl.N ≤ sl.evecs.length

/-- Slepian noise has `N` entries when the inverse transform succeeds. -/
theorem fp_noise [Fintype Pix] (normals : ℕ → ℕ → ℝ) (e : SlepianEnv L Pix) (he : HasRows e.sl) (c : List ℂ)
    (hc : e.sl.N ≤ c.length) (s : ℝ) :
    ∃ n : List ℂ, n.length = e.sl.N ∧ ∀ w, Noise.createSlepianNoise normals (Transform.slepianInverse e.sl e.synth)
      e.sshtForward (fun nlm => Transform.slepianForward e.sl e.synth e.weight { flm := some (asVec L nlm) } none) L c s w =
        .ok (n, w ++ [(30, L ^ 2)]) := by
  have hrow : ∀ p : Fin e.sl.N, e.sl.evecs[(p : ℕ)]? = some (e.sl.evecs[(p : ℕ)]'(lt_of_lt_of_le p.2 he.2)) := fun p =>
    List.getElem?_eq_getElem _
  have hinv : ∃ f, Transform.slepianInverse e.sl e.synth c = .ok f := by
    have h1 := Transform.slepianInverse_ok e.sl e.synth _ rfl hrow fun p => c[(p : ℕ)]'(lt_of_lt_of_le p.2 hc)
    refine ⟨_, Eq.trans ?_ h1⟩
    unfold Transform.slepianInverse
    have : c.take e.sl.N = (List.ofFn fun p : Fin e.sl.N => c[(p : ℕ)]'(lt_of_lt_of_le p.2 hc)).take e.sl.N := by
      apply List.ext_getElem
      · simp; omega
      · intro i h1 h2
        simp
    rw [this]
  obtain ⟨f, hf⟩ := hinv
  obtain ⟨nlm, hn⟩ := C23_noise_reproducible normals L (e.sshtForward f) s
  refine ⟨List.ofFn fun p : Fin e.sl.N => ∑ i, asVec L nlm i * (starRingEnd ℂ)
    ((e.sl.evecs[(p : ℕ)]'(lt_of_lt_of_le p.2 he.2)) i), List.length_ofFn, fun w => ?_⟩
  unfold Noise.createSlepianNoise
  simp only [hf, hn, bind, Except.bind]
  rw [forward_flm e.sl e.synth e.weight _ rfl he.1 hrow]
  rfl

/-- C53 for Slepian functions whose vector has `N` entries (partial). -/
theorem C53_slepian_noise_partial [Fintype Pix] (limDen : ℚ → ℚ) (normals : ℕ → ℕ → ℝ) (e : SlepianEnv L Pix)
    (he : HasRows e.sl) (s : ℚ) (c : List ℂ) (hl : c.length = e.sl.N) :
    ∃ n : List ℂ, n.length = e.sl.N ∧ ∀ (h : Hooks) (region : Option Region.Obj) (smoothing : Option ℤ) (w w₁ : Noise.World),
      h.setupArgs = .ok () → h.create w = .ok (c, w₁) →
      ∃ o w₂, fp limDen normals e h ⟨L, some s, region, smoothing⟩ w = .ok (o, w₂) ∧ o.coefficients.length = e.sl.N ∧
        (∀ i < e.sl.N, o.coefficients.getD i 0 = c.getD i 0 + n.getD i 0) ∧ o.unnoised = some c ∧
        o.snr = some (10 * Real.logb 10 ((c.map fun x => ‖x‖ ^ 2).sum / (n.map fun x => ‖x‖ ^ 2).sum)) := by
  obtain ⟨n, hnl, hn⟩ := fp_noise normals e he c hl.ge (s : ℝ)
  refine ⟨n, hnl, fun h region smoothing w w₁ hs hc => ?_⟩
  refine ⟨⟨L, addDetails limDen ⟨L, some s, region, smoothing⟩ h.name, h.spin, h.reality, List.zipWith (· + ·) c n, some c,
    some (Noise.computeSnr c n)⟩, w₁ ++ [(30, L ^ 2)], ?_, ?_, ?_, rfl, rfl⟩
  · simp only [fp, postInit, hs, hc, bind, Except.bind, fpNoise, addNoiseWith, hn,
      broadcast_of_length_eq _ _ _ (hl.trans hnl.symm), pure, Except.pure]
  · simp [hl, hnl]
  · intro i hi
    have h1 : i < c.length := by omega
    have h2 : i < n.length := by omega
    simp [List.getD_eq_getElem?_getD, h1, h2]

/-- C53 is violated: the Slepian identity (and every Slepian function of `L²` coefficients) cannot be made noisy.  For every
region with `1 < N < L²`, `SlepianIdentity(L, region, noise)` raises `ValueError`. -/
theorem C53_slepian_identity_violation [Fintype Pix] (limDen : ℚ → ℚ) (normals : ℕ → ℕ → ℝ) (e : SlepianEnv L Pix)
    (he : HasRows e.sl) (h1 : 1 < e.sl.N) (h2 : e.sl.N < L ^ 2) (regionName : String) (s : ℚ)
    (region : Option Region.Obj) (smoothing : Option ℤ) (w : Noise.World) :
    fp limDen normals e (slepianIdentity L regionName) ⟨L, some s, region, smoothing⟩ w = .error .valueError := by
  have hlen : (identity L).length = L ^ 2 := by simp [identity]
  obtain ⟨n, hnl, hn⟩ := fp_noise normals e he (identity L) (by omega) (s : ℝ)
  simp only [fp, postInit, slepianIdentity, bind, Except.bind, fpNoise, addNoiseWith, hn]
  rw [broadcast_error _ _ _ (by omega) (by omega) (by omega)]

/-- C53 is violated for `N = 1` as well: no error, but the one noise coefficient is added to all `L²` coefficients. -/
theorem C53_slepian_identity_broadcast [Fintype Pix] (limDen : ℚ → ℚ) (normals : ℕ → ℕ → ℝ) (e : SlepianEnv L Pix)
    (he : HasRows e.sl) (h1 : e.sl.N = 1) (h2 : 1 < L) (regionName : String) (s : ℚ)
    (region : Option Region.Obj) (smoothing : Option ℤ) (w : Noise.World) :
    ∃ (x : ℂ) (o : Obj) (w' : Noise.World),
      fp limDen normals e (slepianIdentity L regionName) ⟨L, some s, region, smoothing⟩ w = .ok (o, w') ∧
      o.coefficients = List.replicate (L ^ 2) (1 + x) ∧ o.spin = 0 ∧ o.reality = false ∧
      ∃ details, o.name = "slepian_identity_" ++ regionName ++ details := by
  have hlen : (identity L).length = L ^ 2 := by simp [identity]
  have h3 : 1 < L ^ 2 := by nlinarith
  obtain ⟨n, hnl, hn⟩ := fp_noise normals e he (identity L) (by omega) (s : ℝ)
  obtain ⟨x, rfl⟩ : ∃ x, n = [x] := by
    rw [h1] at hnl
    match n with
    | [x] => exact ⟨x, rfl⟩
  have hb : broadcast (· + ·) (identity L) [x] = .ok ((identity L).map fun y => y + x) := by
    unfold broadcast
    rw [if_neg (by simp [hlen]; omega)]
    match hc : identity L with
    | [] => simp [hc] at hlen; omega
    | [_] => simp [hc] at hlen; omega
    | _ :: _ :: _ => rfl
  simp only [fp, postInit, slepianIdentity, bind, Except.bind, fpNoise, addNoiseWith, hn, hb, pure, Except.pure]
  refine ⟨x, _, _, rfl, by simp [identity], rfl, rfl, ?_⟩
  have hs : Strings.snake "SlepianIdentity" ++ "_" = "slepian_identity_" := by decide +kernel
  simp only [addDetails, hs]
  cases region <;> cases smoothing <;> simp only [] <;> try split
  all_goals exact ⟨_, by simp only [String.append_assoc]; rfl⟩

/-- C53 on meshes: the noisy coefficients are the clean ones plus `σ g₀, σ g₁, …`; without noise they are unchanged. -/
theorem C53_mesh_noise (limDen : ℚ → ℚ) (normals : ℕ → ℕ → ℝ) (h : Ranks.Hooks) (name meshName : String) (zoom region : Bool)
    (w w₁ : Noise.World) (c : List ℝ) (hs : h.setupArgs = .ok ()) (hn : h.name = .ok name) (hc : h.create w = .ok (c, w₁)) :
    (∃ o, Ranks.meshFunction limDen normals h ⟨meshName, zoom, none, region⟩ w = .ok (o, w₁) ∧
      o.coefficients = c ∧ o.unnoised = none ∧ o.snr = none) ∧
    ∀ s : ℚ, ∃ o w₂ sigma, Ranks.meshFunction limDen normals h ⟨meshName, zoom, some s, region⟩ w = .ok (o, w₂) ∧
      sigma = Real.sqrt (10 ^ (-(s : ℝ) / 10) * (c.map fun x => x ^ 2).sum / c.length) ∧
      o.coefficients.length = c.length ∧
      (∀ i < c.length, o.coefficients.getD i 0 = c.getD i 0 + sigma * normals 30 i) ∧ o.unnoised = some c ∧
      o.snr.isSome := by
  constructor
  · simp only [Ranks.meshFunction, hs, hn, hc, bind, Except.bind, pure, Except.pure]
    exact ⟨_, rfl, rfl, rfl, rfl⟩
  · intro s
    have hm := C23_mesh_noise_reproducible normals (c.map fun (x : ℝ) => (x : ℂ)) (s : ℝ) w₁
    have hsig : Noise.computeSigmaNoise (c.map fun (x : ℝ) => (x : ℂ)) (s : ℝ) none =
        Real.sqrt (10 ^ (-(s : ℝ) / 10) * (c.map fun x => x ^ 2).sum / c.length) := by
      simp [Noise.computeSigmaNoise, Noise.signalPower, Function.comp_def]
    have hb : broadcast (· + ·) c ((List.range (c.map fun (x : ℝ) => (x : ℂ)).length).map fun i =>
        Noise.computeSigmaNoise (c.map fun (x : ℝ) => (x : ℂ)) (s : ℝ) none * normals 30 i) = .ok (List.zipWith (· + ·) c
          ((List.range (c.map fun (x : ℝ) => (x : ℂ)).length).map fun i =>
            Noise.computeSigmaNoise (c.map fun (x : ℝ) => (x : ℂ)) (s : ℝ) none * normals 30 i)) :=
      broadcast_of_length_eq _ _ _ (by simp)
    simp only [Ranks.meshFunction, hs, hn, hc, bind, Except.bind, hm, hb, pure, Except.pure]
    refine ⟨_, _, _, rfl, rfl, ?_, ?_, rfl, rfl⟩
    · simp
    · intro i hi
      simp [List.getD_eq_getElem?_getD, hi, hsig]

/-! ### C54 -/

/-- C54. Translating a harmonic function by `(α, β)` multiplies its coefficients by the harmonics at the point `θ = β`,
`φ = α`, and clears the reality flag; the coefficients of a Dirac delta become the conjugate harmonics at that point, and
its flag is kept. -/
theorem C54_harmonic_translation (ylm : ℝ → ℝ → List ℂ) (alpha beta : ℝ) (hy : (ylm beta alpha).length = L ^ 2) (o : Obj)
    (hl : o.coefficients.length = L ^ 2) :
    (contains "dirac_delta" o.name = false → ∃ t, translate o (flmHelper ylm alpha beta) none = (.ok t, false) ∧
      t.length = L ^ 2 ∧ ∀ i < L ^ 2, t.getD i 0 = o.coefficients.getD i 0 * (ylm beta alpha).getD i 0) ∧
    (contains "dirac_delta" o.name = true → ∃ t, translate o (flmHelper ylm alpha beta) none = (.ok t, o.reality) ∧
      t.length = L ^ 2 ∧ ∀ i < L ^ 2, t.getD i 0 = (starRingEnd ℂ) ((ylm beta alpha).getD i 0)) := by
  constructor
  · intro hn
    refine ⟨List.zipWith (· * ·) o.coefficients (ylm beta alpha), ?_, by simp [hl, hy], fun i hi => ?_⟩
    · simp only [translate, flmHelper, hn, Bool.false_eq_true, if_false, convolve, Wavelets.sift, upTo, List.map_map,
        Function.comp_def, Complex.conj_conj, List.map_id']
      rw [broadcast_of_length_eq _ _ _ (by rw [hl, hy])]
    · have h1 : i < o.coefficients.length := by omega
      have h2 : i < (ylm beta alpha).length := by omega
      simp [List.getD_eq_getElem?_getD, h1, h2]
  · intro hn
    refine ⟨(ylm beta alpha).map (starRingEnd ℂ), ?_, by simp [hy], fun i hi => ?_⟩
    · simp only [translate, flmHelper, hn, if_true]
    · have h2 : i < (ylm beta alpha).length := by omega
      simp [List.getD_eq_getElem?_getD, h2]

/-- the translation vector of a Slepian function: the conjugate values of the first `N` functions, then zeros up to `L²`. -/
theorem fpHelper_ok (e : SlepianEnv L Pix) (he : HasRows e.sl) (x : Pix) :
    ∃ g, fpHelper e x = .ok g ∧ g.length = L ^ 2 ∧
      ∀ i : ℕ, g.getD i 0 = if h : i < e.sl.N then
        (starRingEnd ℂ) (e.synth (e.sl.evecs[i]'(lt_of_lt_of_le h he.2)) x) else 0 := by
  classical
  have hsp := Transform.computeSp_ok e.sl e.synth
    (fun p => if h : p < e.sl.evecs.length then e.sl.evecs[p] else fun _ => 0) (List.range e.sl.N) (by
      intro p hp
      have h1 : p < e.sl.evecs.length := lt_of_lt_of_le (List.mem_range.1 hp) he.2
      simp [h1])
  have hb : ¬ ((L : ℤ) ^ 2 - e.sl.N < 0) := by
    have : (e.sl.N : ℤ) ≤ ((L ^ 2 : ℕ) : ℤ) := by exact_mod_cast he.1
    push_cast at this
    omega
  have hto : ((L : ℤ) ^ 2 - e.sl.N).toNat = L ^ 2 - e.sl.N := by
    have : ((L ^ 2 : ℕ) : ℤ) = (L : ℤ) ^ 2 := by push_cast; rfl
    omega
  refine ⟨(((List.range e.sl.N).map fun p => e.synth (if h : p < e.sl.evecs.length then e.sl.evecs[p] else fun _ => 0) x) ++
      List.replicate (L ^ 2 - e.sl.N) 0).map (starRingEnd ℂ), ?_, ?_, ?_⟩
  · simp only [fpHelper, sPOmegaPrime, hsp, bind, Except.bind, boostCoefficientResolution, if_neg hb, hto, List.map_map,
      pure, Except.pure, Function.comp_def]
  · have := he.1
    simp; omega
  · intro i
    by_cases h : i < e.sl.N
    · have h1 : i < e.sl.evecs.length := lt_of_lt_of_le h he.2
      simp [List.getD_eq_getElem?_getD, h, h1, List.getElem?_append]
    · simp only [dif_neg h, List.getD_eq_getElem?_getD, List.getElem?_map, List.getElem?_append, List.length_map,
        List.length_range, if_neg h, List.getElem?_replicate]
      split_ifs <;> simp

/-- C54. Translating a Slepian function of `N` coefficients with the Shannon number `N`: coefficient `p` is multiplied by the
value of Slepian function `p` at the sample, and the reality flag is cleared. -/
theorem C54_slepian_translation (e : SlepianEnv L Pix) (he : HasRows e.sl) (x : Pix) (o : Obj)
    (hl : o.coefficients.length = e.sl.N) (hn : contains "dirac_delta" o.name = false) :
    ∃ t, translate o (fpHelper e x) (some e.sl.N) = (.ok t, false) ∧ t.length = e.sl.N ∧
      ∀ (p : ℕ) (v : Fin (L ^ 2) → ℂ), p < e.sl.N → e.sl.evecs[p]? = some v →
        t.getD p 0 = o.coefficients.getD p 0 * e.synth v x := by
  obtain ⟨g, hg, hgl, hgv⟩ := fpHelper_ok e he x
  have hN := he.1
  refine ⟨List.zipWith (· * ·) o.coefficients ((g.take e.sl.N).map (starRingEnd ℂ)), ?_, ?_, ?_⟩
  · simp only [translate, hg, hn, Bool.false_eq_true, if_false, convolve, Wavelets.sift, upTo]
    rw [if_pos (by omega), if_pos (by omega), Int.toNat_natCast, List.take_of_length_le (by omega), ← List.map_take,
      broadcast_of_length_eq _ _ _ (by simp; omega)]
  · simp; omega
  · intro p v hp hv
    have h1 : p < o.coefficients.length := by omega
    have h2 : p < g.length := by omega
    have h3 := hgv p
    rw [dif_pos hp] at h3
    have h4 : e.sl.evecs[p]'(lt_of_lt_of_le hp he.2) = v := by
      rw [List.getElem?_eq_getElem (lt_of_lt_of_le hp he.2)] at hv
      exact Option.some.inj hv
    rw [h4] at h3
    have h5 : g[p] = (starRingEnd ℂ) (e.synth v x) := by
      simpa [List.getD_eq_getElem?_getD, h2] using h3
    simp [List.getD_eq_getElem?_getD, h1, h2, hp, h5]

/-- C54. Without the Shannon number the same translation raises `ValueError`, unless `N` is 1 or `L²`. -/
theorem C54_slepian_needs_shannon (e : SlepianEnv L Pix) (he : HasRows e.sl) (h1 : e.sl.N ≠ 1) (h2 : e.sl.N < L ^ 2)
    (hL : 1 < L) (x : Pix) (o : Obj) (hl : o.coefficients.length = e.sl.N) (hn : contains "dirac_delta" o.name = false) :
    (translate o (fpHelper e x) none).1 = .error .valueError := by
  obtain ⟨g, hg, hgl, -⟩ := fpHelper_ok e he x
  have h3 : 1 < L ^ 2 := by nlinarith
  simp only [translate, hg, hn, Bool.false_eq_true, if_false, convolve, Wavelets.sift, upTo]
  exact broadcast_error _ _ _ (by simp; omega) (by omega) (by simp; omega)

/-- C54, a consequence of testing the name: a Gaussian restricted (by name only) to a mask called `dirac_delta` is
translated to the Dirac delta at the target. -/
theorem C54_name_collision (limDen : ℚ → ℚ) (ylm : ℝ → ℝ → List ℂ) (alpha beta : ℝ) (c : List ℂ) :
    let r : Region.Obj := ⟨{ maskName := "dirac_delta" }, "dirac_delta", "arbitrary"⟩
    let name := addDetails limDen ⟨4, none, some r, none⟩ "gaussian_10sig"
    (translate ⟨4, name, 0, true, c, none, none⟩ (flmHelper ylm alpha beta) none).1 =
      .ok ((ylm beta alpha).map (starRingEnd ℂ)) := by
  intro r name
  have h : contains "dirac_delta" name = true := by
    show contains "dirac_delta" (addDetails limDen ⟨4, none, some ⟨{ maskName := "dirac_delta" }, "dirac_delta", "arbitrary"⟩, none⟩
      "gaussian_10sig") = true
    simp only [addDetails]
    rw [if_neg (by decide +kernel)]
    decide +kernel
  simp only [translate, flmHelper, h, if_true]

/-- two Slepian functions of four coefficients. -/
example : HasRows (L := 2) ⟨2, [1, 1], [fun i => if i = 0 then 1 else 0, fun i => if i = 1 then 1 else 0]⟩ :=
  ⟨by norm_num, by simp⟩

end Sleplet.Props
