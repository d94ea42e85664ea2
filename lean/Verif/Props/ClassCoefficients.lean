import Verif.Props.ClassReality
import Verif.Props.SlepianClasses

/-!
C76: the coefficients of the classes drawn on the grid, of the noise classes, of ridgelets, of WMAP and of the Slepian wavelet classes.
-/
namespace Sleplet.Props

open Complex NumPy Classes Spec

private theorem construct_none {limDen : ℚ → ℚ} {e : Env} {fn : Fn} {L : ℕ} {region : Option Region.Obj} {smoothing : Option ℤ}
    {w w' : Noise.World} {c : List ℂ} (hs : fn.setupArgs e.jMax L none = .ok fn) (hc : fn.create e L smoothing w = .ok (c, w')) :
    fn.construct limDen e none ⟨L, none, region, smoothing⟩ w =
      .ok (⟨L, Functions.addDetails limDen ⟨L, none, region, smoothing⟩ (fn.name limDen), fn.spin, fn.reality, c, none, none⟩, w') := by
  simp only [Fn.construct, hs, Functions.flm, Functions.postInit, hc, bind, Except.bind, Functions.flmNoise, Functions.addNoiseWith,
    pure, Except.pure]

/-- C76.  The elongated Gaussian: the coefficients of `exp(-(θ²/2σ_θ² + (φ-π)²/2σ_φ²))` sampled on the grid, flagged real. -/
theorem C76_elongated_gaussian (limDen : ℚ → ℚ) (e : Env) (L : ℕ) (region : Option Region.Obj) (smoothing : Option ℤ) (w : Noise.World)
    (t p : ℚ) (ht : t ≠ 0) (hp : p ≠ 0) :
    ∃ o, (Fn.elongatedGaussian t p).construct limDen e none ⟨L, none, region, smoothing⟩ w = .ok (o, w) ∧ o.spin = 0 ∧
      o.reality = true ∧ o.coefficients = e.S.forward L true 0 fun i j =>
        ((Real.exp (-(e.S.theta L i j ^ 2 / (2 * (t : ℝ) ^ 2) + (e.S.phi L i j - Real.pi) ^ 2 / (2 * (p : ℝ) ^ 2))) : ℝ) : ℂ) := by
  refine ⟨_, construct_none rfl rfl, rfl, rfl, ?_⟩
  have ht' : (t : ℝ) ≠ 0 := by exact_mod_cast ht
  have hp' : (p : ℝ) ≠ 0 := by exact_mod_cast hp
  simp only [Masks.ensureBandlimited, elongatedGrid]
  congr 1
  funext i j
  congr 2
  field_simp
  ring

/-- C76.  The squashed Gaussian: the coefficients of `exp(-θ²/2σ_θ²) sin(ν φ)` sampled on the grid, flagged real. -/
theorem C76_squashed_gaussian (limDen : ℚ → ℚ) (e : Env) (L : ℕ) (region : Option Region.Obj) (smoothing : Option ℤ) (w : Noise.World)
    (t f : ℚ) (ht : t ≠ 0) :
    ∃ o, (Fn.squashedGaussian t f).construct limDen e none ⟨L, none, region, smoothing⟩ w = .ok (o, w) ∧ o.spin = 0 ∧
      o.reality = true ∧ o.coefficients = e.S.forward L true 0 fun i j =>
        ((Real.exp (-(e.S.theta L i j ^ 2 / (2 * (t : ℝ) ^ 2))) * Real.sin (f * e.S.phi L i j) : ℝ) : ℂ) := by
  refine ⟨_, construct_none rfl rfl, rfl, rfl, ?_⟩
  have ht' : (t : ℝ) ≠ 0 := by exact_mod_cast ht
  simp only [Masks.ensureBandlimited, squashedGrid]
  congr 1
  funext i j
  congr 3
  field_simp
  ring

/-- C76.  The noise of the Earth: `Earth(L, noise=s)` is `Earth(L)` plus `NoiseEarth(L, snr=s)`, whenever and in whatever order the
three are made. -/
theorem C76_noise_earth (limDen : ℚ → ℚ) (e : Env) (L : ℕ) (h : GoodEnv e L) (region : Option Region.Obj) (smoothing : Option ℤ)
    (w₀ w₀' : Noise.World) (s : ℚ) (o₀ : Functions.Obj)
    (h₀ : Fn.earth.construct limDen e none ⟨L, none, region, smoothing⟩ w₀ = .ok (o₀, w₀')) (w₁ w₂ : Noise.World) :
    ∃ o₁ w₁' o₂ w₂', (Fn.noiseEarth s).construct limDen e none ⟨L, none, region, smoothing⟩ w₁ = .ok (o₁, w₁') ∧
      Fn.earth.construct limDen e none ⟨L, some s, region, smoothing⟩ w₂ = .ok (o₂, w₂') ∧
      o₂.unnoised = some o₀.coefficients ∧ o₁.coefficients.length = L ^ 2 ∧ o₂.coefficients.length = L ^ 2 ∧
      ∀ i < L ^ 2, o₂.coefficients.getD i 0 = o₀.coefficients.getD i 0 + o₁.coefficients.getD i 0 := by
  have hlen := C70_length limDen e .earth none ⟨L, none, region, smoothing⟩ h w₀ w₀' o₀ h₀
  dsimp only at hlen
  cases hm : Masks.earth e.S L smoothing with
  | error x =>
    simp [Fn.construct, Fn.setupArgs, noArgs, Functions.flm, Functions.postInit, Fn.create, hm, bind, Except.bind, Except.map] at h₀
  | ok flm =>
    have hc : ∀ w, Fn.earth.create e L smoothing w = .ok (flm, w) := fun w => by simp only [Fn.create, hm, Except.map]
    rw [construct_none rfl (hc w₀)] at h₀
    simp only [Except.ok.injEq, Prod.mk.injEq] at h₀
    obtain ⟨rfl, -⟩ := h₀
    dsimp only at hlen ⊢
    obtain ⟨n, hn⟩ := C23_noise_reproducible e.normals L flm (s : ℝ)
    have hnl : n.length = L ^ 2 := by
      obtain ⟨n', w', h1, h2, -⟩ := C22_noise_real e.normals L flm (s : ℝ) []
      rw [hn []] at h1
      simp only [Except.ok.injEq, Prod.mk.injEq] at h1
      rw [h1.1]; exact h2.1
    have hc' : (Fn.noiseEarth s).create e L smoothing w₁ = .ok (n, w₁ ++ [(30, L ^ 2)]) := by
      simp only [Fn.create, hm, bind, Except.bind, hn]
    refine ⟨_, _, ⟨L, Functions.addDetails limDen ⟨L, some s, region, smoothing⟩ (Fn.earth.name limDen), Fn.earth.spin,
      Fn.earth.reality, List.zipWith (· + ·) flm n, some flm, some (Noise.computeSnr flm n)⟩, w₂ ++ [(30, L ^ 2)],
      construct_none rfl hc', ?_, rfl, hnl, by simp [hlen, hnl], ?_⟩
    · simp only [Fn.construct, Fn.setupArgs, noArgs, Functions.flm, Functions.postInit, hc w₂, bind, Except.bind, Functions.flmNoise,
        Functions.addNoiseWith, hn, broadcast_of_length_eq _ _ _ (hlen.trans hnl.symm), pure, Except.pure]
    · intro i hi
      have h1 : i < flm.length := by omega
      have h2 : i < n.length := by omega
      simp [List.getD_eq_getElem?_getD, h1, h2]

/-- C76.  Ridgelets: spin `s` as asked for, order zero only, and at degree `l ≥ |s|` the generating function of the selected scale times
`2π` times the spin harmonic at the equator, divided by `√(2π)` for a wavelet and not for the scaling function. -/
theorem C76_ridgelets (limDen : ℚ → ℚ) (e : Env) (L : ℕ) (h : GoodEnv e L) (region : Option Region.Obj) (smoothing : Option ℤ)
    (w : Noise.World) (v : Wave) (s : ℤ) (k : List ℝ)
    (hk : (e.kappas L v.B v.jMin)[match v.j with | none => 0 | some j => j + 1]? = some k) :
    ∃ o, (Fn.ridgelets v s).construct limDen e none ⟨L, none, region, smoothing⟩ w = .ok (o, w) ∧ o.spin = s ∧
      o.reality = false ∧ o.coefficients.length = L ^ 2 ∧
      ∀ (l : ℕ) (m : ℤ), l < L → |m| ≤ l → o.coefficients.getD (elm2ind l m) 0 =
        if m = 0 ∧ s.natAbs ≤ l then
          ((k.getD l 0 * (2 * Real.pi * spinHarmonicAtEquator l s) /
            (if v.j = none then 1 else Real.sqrt (2 * Real.pi)) : ℝ) : ℂ) else 0 := by
  obtain ⟨ws, h1, h2, h3⟩ := C55_ridgelets L s (e.kappas L v.B v.jMin) (h.kappas v.B v.jMin)
  have hj : (match v.j with | none => 0 | some j => j + 1) = Wavelets.jth v.j := by cases v.j <;> rfl
  rw [hj] at hk
  have hlt : Wavelets.jth v.j < ws.length := by
    rw [h2]
    by_contra hn
    rw [List.getElem?_eq_none (by omega)] at hk; cases hk
  obtain ⟨h4, h5⟩ := h3 _ k _ hk (List.getElem?_eq_getElem hlt)
  have hc : (Fn.ridgelets v s).create e L smoothing w = .ok (ws[Wavelets.jth v.j], w) := by
    simp only [Fn.create, h1, bind, Except.bind, item, List.getElem?_eq_getElem hlt, pure, Except.pure]
  refine ⟨_, construct_none rfl hc, rfl, rfl, h4, fun l m hl hm => ?_⟩
  dsimp only
  rw [h5 l m hl hm]
  have : (Wavelets.jth v.j = 0) ↔ v.j = none := by cases v.j <;> simp [Wavelets.jth]
  simp only [this]

/-- C76.  WMAP: nothing below degree two, and degree `l` drawn with power `2π C_l / l(l+1)` where `C_l` is entry `l - 2` of the file. -/
theorem C76_wmap (limDen : ℚ → ℚ) (e : Env) (L : ℕ) (hL : L ≤ e.wmapFile.length + 2) (region : Option Region.Obj)
    (smoothing : Option ℤ) (w : Noise.World) :
    ∃ o w', Fn.wmap.construct limDen e none ⟨L, none, region, smoothing⟩ w = .ok (o, w') ∧ o.coefficients.length = L ^ 2 ∧
      (∀ i < 4, o.coefficients.getD i 0 = 0) ∧
      ∀ l, 2 ≤ l → l < L → o.coefficients.getD (l ^ 2 + l) 0 =
        ((Real.sqrt (2 * Real.pi * e.wmapFile.getD (l - 2) 0 / (l * (l + 1))) * e.normals 30 (l ^ 2 - 4) : ℝ) : ℂ) := by
  obtain ⟨flm, h1, h2, h3, h4⟩ := C22_wmap_real e.normals e.wmapFile L hL
  refine ⟨_, _, construct_none rfl (h1 w), h2.1, h3, fun l hl hlL => ?_⟩
  obtain ⟨sigma, rfl, h5, -⟩ := h4 l hl hlL
  dsimp only
  rw [h5, mul_div_right_comm (2 * Real.pi)]
  push_cast
  rfl

/-! ### Slepian classes -/

variable {L : ℕ} {Pix : Type} [Fintype Pix]

private theorem sconstruct_none {limDen : ℚ → ℚ} {e : SEnv L Pix} {fn : SFn} {smoothing : Option ℤ} {w w' : Noise.World} {c : List ℂ}
    (hs : fn.setupArgs e.env.jMax L none = .ok fn) (hc : fn.create e smoothing w = .ok (c, w'))
    (hx : ∀ x, fn.expects = some x → e.region.nameEnding = x) :
    fn.construct limDen e none none smoothing w =
      .ok (⟨L, Functions.addDetails limDen ⟨L, none, some e.region, smoothing⟩ (fn.name limDen e.region.nameEnding), 0, false, c, none,
        none⟩, w') := by
  simp only [SFn.construct, hs, Functions.fp, Functions.postInit, hc, bind, Except.bind, Functions.fpNoise, Functions.addNoiseWith,
    pure, Except.pure]
  cases he : fn.expects with
  | none => rfl
  | some x => simp [checkRegion, hx x he]

/-- C76.  Slepian wavelets: coefficient `p` is the generating function of the selected scale at `p`, for a bandlimit of `L²`. -/
theorem C76_slepian_wavelets (limDen : ℚ → ℚ) (e : SEnv L Pix) (smoothing : Option ℤ) (w : Noise.World) (v : Wave) (k : List ℝ)
    (hk : (e.env.kappas (L ^ 2) v.B v.jMin)[match v.j with | none => 0 | some j => j + 1]? = some k) :
    ∃ o, (SFn.slepianWavelets v).construct limDen e none none smoothing w = .ok (o, w) ∧ o.spin = 0 ∧ o.reality = false ∧
      o.coefficients.length = k.length ∧ ∀ p, o.coefficients.getD p 0 = (k.getD p 0 : ℂ) := by
  have hj : (match v.j with | none => 0 | some j => j + 1) = Wavelets.jth v.j := by cases v.j <;> rfl
  rw [hj] at hk
  have hc : (SFn.slepianWavelets v).create e smoothing w = .ok (k.map fun x : ℝ => (x : ℂ), w) := by
    simp only [SFn.create, Wavelets.selectWavelet, SEnv.kappas, item, List.getElem?_map, hk, Option.map_some, Except.map]
  refine ⟨_, sconstruct_none rfl hc (by simp [SFn.expects]), rfl, rfl, by simp, fun p => ?_⟩
  simp only [List.getD_eq_getElem?_getD, List.getElem?_map]
  cases k[p]? <;> simp

/-- the two continents: the class of the map, of its noise and of its wavelet coefficients, and the name of the region. -/
def Lands (land : SFn) (noise : ℚ → SFn) (coefficients : Wave → SFn) (region : String) : Prop :=
  (land = .slepianAfrica ∧ noise = .slepianNoiseAfrica ∧ coefficients = .slepianWaveletCoefficientsAfrica ∧ region = "africa") ∨
  (land = .slepianSouthAmerica ∧ noise = .slepianNoiseSouthAmerica ∧ coefficients = .slepianWaveletCoefficientsSouthAmerica ∧
    region = "south_america")

private theorem lands_create {e : SEnv L Pix} {land : SFn} {noise : ℚ → SFn} {coefficients : Wave → SFn} {region : String}
    (hl : Lands land noise coefficients region) (smoothing : Option ℤ) :
    land.expects = some region ∧ (∀ s, (noise s).expects = some region) ∧ (∀ v, (coefficients v).expects = some region) ∧
    ∃ map, (∀ w, land.create e smoothing w = (slepianLand e map).map (·, w)) ∧
      (∀ s w, (noise s).create e smoothing w = slepianLandNoise e region map s w) ∧
      ∀ v w, (coefficients v).create e smoothing w = (slepianLandCoefficients e region map v).map (·, w) := by
  rcases hl with ⟨rfl, rfl, rfl, rfl⟩ | ⟨rfl, rfl, rfl, rfl⟩
  · exact ⟨rfl, fun _ => rfl, fun _ => rfl, africaMap e.env L smoothing, fun _ => rfl, fun _ _ => rfl, fun _ _ => rfl⟩
  · exact ⟨rfl, fun _ => rfl, fun _ => rfl, southAmericaMap e.env L smoothing, fun _ => rfl, fun _ _ => rfl, fun _ _ => rfl⟩

private theorem land_setup {jMax : JMax} {land : SFn} {noise : ℚ → SFn} {coefficients : Wave → SFn} {region : String}
    (hl : Lands land noise coefficients region) :
    land.setupArgs jMax L none = .ok land ∧ (∀ s, (noise s).setupArgs jMax L none = .ok (noise s)) ∧
    ∀ v, (coefficients v).setupArgs jMax L none = .ok (coefficients v) := by
  rcases hl with ⟨rfl, rfl, rfl, rfl⟩ | ⟨rfl, rfl, rfl, rfl⟩ <;> exact ⟨rfl, fun _ => rfl, fun _ => rfl⟩

/-- what an object of a continental map says about the map. -/
private theorem land_inv {limDen : ℚ → ℚ} {e : SEnv L Pix} {land : SFn} {region : String} {smoothing : Option ℤ}
    {w w' : Noise.World} {o : Functions.Obj} {m : Except Err (List ℂ)} (hset : land.setupArgs e.env.jMax L none = .ok land)
    (hexp : land.expects = some region) (hcr : land.create e smoothing w = (slepianLand e m).map (·, w))
    (h : land.construct limDen e none none smoothing w = .ok (o, w')) :
    slepianLand e m = .ok o.coefficients ∧ e.region.nameEnding = region := by
  cases hm : slepianLand e m with
  | error x =>
    rw [hm] at hcr
    simp only [Except.map] at hcr
    simp [SFn.construct, hset, Functions.fp, Functions.postInit, hcr, bind, Except.bind] at h
  | ok c =>
    rw [hm] at hcr
    simp only [Except.map] at hcr
    by_cases hr : e.region.nameEnding = region
    · rw [sconstruct_none hset hcr (by intro x hx; rw [hexp] at hx; cases hx; exact hr)] at h
      simp only [Except.ok.injEq, Prod.mk.injEq] at h
      rw [← h.1]
      exact ⟨rfl, hr⟩
    · simp only [SFn.construct, hset, Functions.fp, Functions.postInit, hcr, bind, Except.bind, Functions.fpNoise,
        Functions.addNoiseWith, pure, Except.pure, hexp, checkRegion, ne_eq, hr, not_false_eq_true, if_true] at h
      cases h

/-- C76.  The noise of a continent: the map with `noise=s` is the map plus the noise object with `snr=s`, whenever and in whatever order
the three are made. -/
theorem C76_slepian_noise (limDen : ℚ → ℚ) (e : SEnv L Pix) (h : GoodSEnv e) (land : SFn) (noise : ℚ → SFn)
    (coefficients : Wave → SFn) (region : String) (hl : Lands land noise coefficients region) (smoothing : Option ℤ)
    (w₀ w₀' : Noise.World) (s : ℚ) (o₀ : Functions.Obj) (h₀ : land.construct limDen e none none smoothing w₀ = .ok (o₀, w₀'))
    (w₁ w₂ : Noise.World) :
    ∃ o₁ w₁' o₂ w₂', (noise s).construct limDen e none none smoothing w₁ = .ok (o₁, w₁') ∧
      land.construct limDen e none (some s) smoothing w₂ = .ok (o₂, w₂') ∧
      o₂.unnoised = some o₀.coefficients ∧ o₁.coefficients.length = e.slepian.sl.N ∧ o₂.coefficients.length = e.slepian.sl.N ∧
      ∀ p < e.slepian.sl.N, o₂.coefficients.getD p 0 = o₀.coefficients.getD p 0 + o₁.coefficients.getD p 0 := by
  obtain ⟨e1, e2, -, m, c1, c2, -⟩ := lands_create (e := e) hl smoothing
  obtain ⟨s1, s2, -⟩ := land_setup (L := L) (jMax := e.env.jMax) hl
  obtain ⟨hm, hr⟩ := land_inv s1 e1 (c1 w₀) h₀
  have hlen : o₀.coefficients.length = e.slepian.sl.N := by
    refine (C72_counts limDen e h land none smoothing w₀ w₀' o₀ h₀).2 ?_
    rcases hl with ⟨rfl, -⟩ | ⟨rfl, -⟩ <;> exact id
  obtain ⟨n, hnl, hn⟩ := fp_noise e.env.normals e.slepian h.rows o₀.coefficients hlen.ge (s : ℝ)
  have hobj : slepianLandObject e region m = .ok o₀.coefficients := by
    simp only [slepianLandObject, hm, bind, Except.bind, checkRegion, hr, ne_eq, not_true_eq_false, if_false, pure, Except.pure]
  have hc1 : (noise s).create e smoothing w₁ = .ok (n, w₁ ++ [(30, L ^ 2)]) := by
    rw [c2]
    simp only [slepianLandNoise, hobj, bind, Except.bind, hn]
  have hc2 : land.create e smoothing w₂ = .ok (o₀.coefficients, w₂) := by
    rw [c1, hm]; rfl
  refine ⟨_, _, ⟨L, Functions.addDetails limDen ⟨L, some s, some e.region, smoothing⟩ (land.name limDen e.region.nameEnding), 0, false,
    List.zipWith (· + ·) o₀.coefficients n, some o₀.coefficients, some (Noise.computeSnr o₀.coefficients n)⟩, w₂ ++ [(30, L ^ 2)],
    sconstruct_none (s2 s) hc1 (by intro x hx; rw [e2] at hx; cases hx; exact hr), ?_, rfl, hnl, by simp [hlen, hnl], ?_⟩
  · simp only [SFn.construct, s1, Functions.fp, Functions.postInit, hc2, bind, Except.bind, Functions.fpNoise, Functions.addNoiseWith, hn,
      broadcast_of_length_eq _ _ _ (hlen.trans hnl.symm), pure, Except.pure, e1, checkRegion, hr, ne_eq, not_true_eq_false, if_false]
  · intro i hi
    have h1 : i < o₀.coefficients.length := by omega
    have h2 : i < n.length := by omega
    simp [List.getD_eq_getElem?_getD, h1, h2]

/-- C76.  Slepian wavelet coefficients of a continent, partial: if every scale up to the selected one sees the map (C28), the object has
`N` coefficients, the conjugates of the map's times the generating function of the selected scale. -/
theorem C76_slepian_wavelet_coefficients_partial (limDen : ℚ → ℚ) (e : SEnv L Pix) (h : GoodSEnv e) (land : SFn) (noise : ℚ → SFn)
    (coefficients : Wave → SFn) (region : String) (hl : Lands land noise coefficients region) (smoothing : Option ℤ)
    (w₀ w₀' : Noise.World) (v : Wave) (o₀ : Functions.Obj) (h₀ : land.construct limDen e none none smoothing w₀ = .ok (o₀, w₀'))
    (A B : List (List ℝ)) (k : List ℝ) (hk : e.env.kappas (L ^ 2) v.B v.jMin = A ++ k :: B)
    (hA : A.length = match v.j with | none => 0 | some j => j + 1)
    (hseen : ∀ x ∈ A ++ [k], ∃ p < e.slepian.sl.N, x.getD p 0 ≠ 0 ∧ o₀.coefficients.getD p 0 ≠ 0) (w₁ : Noise.World) :
    ∃ o₁, (coefficients v).construct limDen e none none smoothing w₁ = .ok (o₁, w₁) ∧ o₁.coefficients.length = e.slepian.sl.N ∧
      ∀ p < e.slepian.sl.N, o₁.coefficients.getD p 0 = (k.getD p 0 : ℂ) * (starRingEnd ℂ) (o₀.coefficients.getD p 0) := by
  obtain ⟨e1, -, e3, m, c1, -, c3⟩ := lands_create (e := e) hl smoothing
  obtain ⟨s1, -, s3⟩ := land_setup (L := L) (jMax := e.env.jMax) hl
  obtain ⟨hm, hr⟩ := land_inv s1 e1 (c1 w₀) h₀
  have hlen : o₀.coefficients.length = e.slepian.sl.N := by
    refine (C72_counts limDen e h land none smoothing w₀ w₀' o₀ h₀).2 ?_
    rcases hl with ⟨rfl, -⟩ | ⟨rfl, -⟩ <;> exact id
  have hobj : slepianLandObject e region m = .ok o₀.coefficients := by
    simp only [slepianLandObject, hm, bind, Except.bind, checkRegion, hr, ne_eq, not_true_eq_false, if_false, pure, Except.pure]
  have hj : (match v.j with | none => 0 | some j => j + 1) = Wavelets.jth v.j := by cases v.j <;> rfl
  rw [hj] at hA
  have hrows : (e.kappas v).rows = A.map (fun r => r.map fun x : ℝ => (x : ℂ)) ++ (k.map fun x : ℝ => (x : ℂ)) ::
      B.map (fun r => r.map fun x : ℝ => (x : ℂ)) := by
    simp [SEnv.kappas, hk]
  have hget : ∀ (r : List ℝ) (p : ℕ), (r.map fun x : ℝ => (x : ℂ)).getD p 0 = (r.getD p 0 : ℂ) := by
    intro r p
    simp only [List.getD_eq_getElem?_getD, List.getElem?_map]
    cases r[p]? <;> simp
  have hs : ∀ r ∈ A ++ [k], Seen o₀.coefficients e.slepian.sl.N (r.map fun x : ℝ => (x : ℂ)) := by
    intro r hr
    obtain ⟨p, hp, h1, h2⟩ := hseen r hr
    refine ⟨p, hp, ?_⟩
    rw [hget]
    simpa using ⟨h1, h2⟩
  obtain ⟨row, hrow, hrl, hrv⟩ := C28_selected_scale_partial o₀.coefficients (e.kappas v) (by
      intro r hr
      simp only [SEnv.kappas, List.mem_map] at hr
      obtain ⟨r', hr', rfl⟩ := hr
      simpa [SEnv.kappas] using h.kappas _ _ r' hr') e.slepian.sl.N hlen.ge h.rows.1 _ _ _ hrows
    (by
      intro x hx
      obtain ⟨r, hr, rfl⟩ := List.mem_map.1 hx
      exact hs r (by simp [hr])) (hs k (by simp)) v.j (by simp [hA])
  have h0 : ∃ x, item (e.kappas v).rows 0 = .ok x := by
    rw [hrows]
    cases A <;> exact ⟨_, rfl⟩
  obtain ⟨x, hx⟩ := h0
  have hc : (coefficients v).create e smoothing w₁ = .ok (row, w₁) := by
    rw [c3]
    simp only [slepianLandCoefficients, hx, hobj, bind, Except.bind, hrow, Except.map]
  refine ⟨_, sconstruct_none (s3 v) hc (by intro y hy; rw [e3] at hy; cases hy; exact hr), hrl, fun p hp => ?_⟩
  rw [← hget]
  exact hrv p hp

/-- one sample, two of four Slepian functions, the region Africa, whose mask is in a file, and one generating function. -/
private noncomputable def exampleLand : SEnv 2 Unit where
  env := { S := { shape := fun _ => (1, 1)
                  theta := fun _ _ _ => 0
                  phi := fun _ _ _ => 0
                  inverseReal := fun _ _ _ _ => 0
                  forward := fun _ _ _ _ => [3, 0, 0, 0]
                  rotate := fun _ flm _ _ _ => flm
                  smooth := fun flm _ _ => flm
                  earthFile := [1, 0, 2, 3] }
           store := ⟨fun _ => some ⟨(1, 1), fun _ _ => true⟩, fun _ => none⟩
           normals := fun _ _ => 1
           wmapFile := []
           kappas := fun n _ _ => [List.replicate n 1]
           jMax := fun _ _ jMin => jMin + 1 }
  slepian := ⟨⟨2, [1, 1], [fun i => if i = 0 then 1 else 0, fun i => if i = 1 then 1 else 0]⟩, fun v _ => v 0, fun _ => 1, fun _ => []⟩
  pixels := [()]
  region := ⟨{}, "africa", "arbitrary"⟩

/-- the hypotheses of C76 are met: the map of Africa exists and its only generating function sees it. -/
example (limDen : ℚ → ℚ) (w : Noise.World) : GoodSEnv exampleLand ∧
    Lands .slepianAfrica .slepianNoiseAfrica .slepianWaveletCoefficientsAfrica "africa" ∧
    ∃ o, SFn.slepianAfrica.construct limDen exampleLand none none none w = .ok (o, w) ∧
      exampleLand.env.kappas (2 ^ 2) 3 2 = [] ++ List.replicate 4 1 :: [] ∧
      ∃ p < exampleLand.slepian.sl.N, (List.replicate 4 (1 : ℝ)).getD p 0 ≠ 0 ∧ o.coefficients.getD p 0 ≠ 0 := by
  have hg : GoodSEnv exampleLand :=
    ⟨⟨by norm_num [exampleLand], by simp [exampleLand]⟩, by simp [exampleLand], by simp [exampleLand]⟩
  have hmap : Fn.africa.create exampleLand.env 2 none w = .ok ([3, 0, 0, 0], w) := by
    have he : Masks.earth exampleLand.env.S 2 none = .ok [1, -3, 2, 3] := by
      simp [Masks.earth, Noise.createEarth, exampleLand, List.range', Noise.earthOrder, elm2ind, item, setItem, bind, Except.bind, pure,
        Except.pure]
      exact ⟨map_ofNat _ 2, map_ofNat _ 3⟩
    simp only [Fn.create, africaMap, land, he, bind, Except.bind]
    simp [exampleLand, Masks.loadMask, Masks.Store.find, pure, Except.pure, Except.map]
  obtain ⟨c, h1, -, h2⟩ := C72_land exampleLand hg none w .slepianAfrica .africa (Or.inl ⟨rfl, rfl⟩) _ hmap
  refine ⟨hg, Or.inl ⟨rfl, rfl, rfl, rfl⟩, _, sconstruct_none rfl h1 (by simp [SFn.expects, exampleLand]), rfl, 0,
    by norm_num [exampleLand], by norm_num, ?_⟩
  dsimp only
  rw [h2 0 (fun i => if i = 0 then 1 else 0) (by norm_num [exampleLand]) rfl]
  simp

end Sleplet.Props
