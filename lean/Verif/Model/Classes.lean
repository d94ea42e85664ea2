import Verif.Model.Functions
import Verif.Model.Masks

/-!
The classes of functions on the sphere: parameters, extra arguments, names, flags and coefficients of the seventeen harmonic
classes (`functions/*.py`, listed in `_class_lists.py:47-65`) and of nine of the ten Slepian classes (`_class_lists.py:67-78`;
the tenth, `Slepian`, is in `Verif.Model.Ranks`).

Parameters of type `float` are rational numbers, and `np.float_power(10, n)` is the exact power.
-/
namespace Sleplet.Classes

open NumPy Functions

/-- The parameters of the wavelet classes, e.g. `functions/axisymmetric_wavelets.py:27-33`, after validation. -/
structure Wave where
  B : ℤ := 3
  jMin : ℤ := 2
  j : Option ℕ := none
  deriving DecidableEq

/-- A harmonic class with its parameters. -/
inductive Fn
  | africa
  | axisymmetricWaveletCoefficientsAfrica (w : Wave)
  | axisymmetricWaveletCoefficientsEarth (w : Wave)
  | axisymmetricWaveletCoefficientsSouthAmerica (w : Wave)
  | axisymmetricWavelets (w : Wave)
  | diracDelta
  | earth
  | elongatedGaussian (tSigma pSigma : ℚ)
  | gaussian (sigma : ℚ)
  | harmonicGaussian (lSigma mSigma : ℚ)
  | identity
  | noiseEarth (snr : ℚ)
  | ridgelets (w : Wave) (spin : ℤ)
  | southAmerica
  | sphericalHarmonic (ell m : ℤ)
  | squashedGaussian (tSigma freq : ℚ)
  | wmap
  deriving DecidableEq

/-- A Slepian class with its parameters. -/
inductive SFn
  | slepianAfrica
  | slepianDiracDelta
  | slepianIdentity
  | slepianNoiseAfrica (snr : ℚ)
  | slepianNoiseSouthAmerica (snr : ℚ)
  | slepianSouthAmerica
  | slepianWaveletCoefficientsAfrica (w : Wave)
  | slepianWaveletCoefficientsSouthAmerica (w : Wave)
  | slepianWavelets (w : Wave)
  deriving DecidableEq

/-- `self.__class__.__name__`. -/
def Fn.className : Fn → String
  | .africa => "Africa"
  | .axisymmetricWaveletCoefficientsAfrica _ => "AxisymmetricWaveletCoefficientsAfrica"
  | .axisymmetricWaveletCoefficientsEarth _ => "AxisymmetricWaveletCoefficientsEarth"
  | .axisymmetricWaveletCoefficientsSouthAmerica _ => "AxisymmetricWaveletCoefficientsSouthAmerica"
  | .axisymmetricWavelets _ => "AxisymmetricWavelets"
  | .diracDelta => "DiracDelta"
  | .earth => "Earth"
  | .elongatedGaussian _ _ => "ElongatedGaussian"
  | .gaussian _ => "Gaussian"
  | .harmonicGaussian _ _ => "HarmonicGaussian"
  | .identity => "Identity"
  | .noiseEarth _ => "NoiseEarth"
  | .ridgelets _ _ => "Ridgelets"
  | .southAmerica => "SouthAmerica"
  | .sphericalHarmonic _ _ => "SphericalHarmonic"
  | .squashedGaussian _ _ => "SquashedGaussian"
  | .wmap => "Wmap"

/-- `self.__class__.__name__`. -/
def SFn.className : SFn → String
  | .slepianAfrica => "SlepianAfrica"
  | .slepianDiracDelta => "SlepianDiracDelta"
  | .slepianIdentity => "SlepianIdentity"
  | .slepianNoiseAfrica _ => "SlepianNoiseAfrica"
  | .slepianNoiseSouthAmerica _ => "SlepianNoiseSouthAmerica"
  | .slepianSouthAmerica => "SlepianSouthAmerica"
  | .slepianWaveletCoefficientsAfrica _ => "SlepianWaveletCoefficientsAfrica"
  | .slepianWaveletCoefficientsSouthAmerica _ => "SlepianWaveletCoefficientsSouthAmerica"
  | .slepianWavelets _ => "SlepianWavelets"

/-! ### extra arguments -/

/-- Classes without parameters: `functions/africa.py:51-54`, `functions/dirac_delta.py:42-45`, `functions/earth.py:40-43`,
`functions/identity.py:36-39`, `functions/south_america.py:48-51`, `functions/wmap.py:37-40`,
`functions/slepian_africa.py:53-56`, `functions/slepian_dirac_delta.py:54-57`, `functions/slepian_identity.py:37-40`,
`functions/slepian_south_america.py:55-58`. -/
def noArgs {α : Type} (fn : α) : Option (List ℤ) → Except Err α
  | none => .ok fn
  | some _ => .error .typeError

/-- `functions/gaussian.py:46-52`. -/
def powArg {α : Type} (fn : α) (mk : ℚ → α) : Option (List ℤ) → Except Err α
  | none => .ok fn
  | some [x] => .ok (mk ((10 : ℚ) ^ x))
  | some _ => .error .valueError

/-- `functions/elongated_gaussian.py:54-62`, `functions/harmonic_gaussian.py:55-63`, `functions/squashed_gaussian.py:54-60`. -/
def powArgs {α : Type} (fn : α) (mk : ℚ → ℚ → α) : Option (List ℤ) → Except Err α
  | none => .ok fn
  | some [x, y] => .ok (mk ((10 : ℚ) ^ x) ((10 : ℚ) ^ y))
  | some _ => .error .valueError

/-- `functions/noise_earth.py:46-52`, `functions/slepian_noise_africa.py:65-71`,
`functions/slepian_noise_south_america.py:65-71`. -/
def snrArg {α : Type} (fn : α) (mk : ℚ → α) : Option (List ℤ) → Except Err α
  | none => .ok fn
  | some [x] => .ok (mk (x : ℚ))
  | some _ => .error .valueError

/-- The external `pys2let_j_max(B, limit, j_min)`. -/
abbrev JMax := ℤ → ℕ → ℤ → ℤ

/-- The parameters `B=…, j_min=…, j=…` of a wavelet class with its validator of `j`: `functions/axisymmetric_wavelets.py:77-96`,
`functions/axisymmetric_wavelet_coefficients_africa.py:93-112`, `functions/axisymmetric_wavelet_coefficients_earth.py:90-109`,
`functions/axisymmetric_wavelet_coefficients_south_america.py:92-111`, `functions/ridgelets.py:112-131` (`limit` is `L`),
`functions/slepian_wavelets.py:71-90`, `functions/slepian_wavelet_coefficients_africa.py:98-117`,
`functions/slepian_wavelet_coefficients_south_america.py:98-117` (`limit` is `L²`). -/
def keywords (jMax : JMax) (limit : ℕ) (B jMin : ℤ) (j : Option ℤ) : Except Err Wave := do
  let j' ← Wavelets.checkJ (jMax B limit jMin) jMin j
  return ⟨B, jMin, j'⟩

/-- `functions/axisymmetric_wavelets.py:61-67` and the same method of `functions/axisymmetric_wavelet_coefficients_africa.py:65-71`,
`functions/axisymmetric_wavelet_coefficients_earth.py:65-71`,
`functions/axisymmetric_wavelet_coefficients_south_america.py:64-70`, `functions/slepian_wavelets.py:59-65`,
`functions/slepian_wavelet_coefficients_africa.py:67-73`, `functions/slepian_wavelet_coefficients_south_america.py:67-73`.  The
attributes are assigned from left to right and each assignment is validated: the new `B` and `j_min` are in place when `j` is
checked. -/
def waveArgs (jMax : JMax) (limit : ℕ) (w : Wave) : Option (List ℤ) → Except Err Wave
  | none => .ok w
  | some [B, jMin, j] => keywords jMax limit B jMin (some j)
  | some _ => .error .valueError

/-- `functions/ridgelets.py:66-72`. -/
def ridgeletArgs (jMax : JMax) (limit : ℕ) (w : Wave) (spin : ℤ) : Option (List ℤ) → Except Err (Wave × ℤ)
  | none => .ok (w, spin)
  | some [B, jMin, spin', j] => do
    let w' ← keywords jMax limit B jMin (some j)
    return (w', spin')
  | some _ => .error .valueError

/-- `_setup_args` of the harmonic classes: the parameters afterwards. -/
def Fn.setupArgs (jMax : JMax) (L : ℕ) (fn : Fn) (extra : Option (List ℤ)) : Except Err Fn :=
  match fn with
  | .africa | .diracDelta | .earth | .identity | .southAmerica | .wmap => noArgs fn extra
  | .elongatedGaussian _ _ => powArgs fn .elongatedGaussian extra
  | .gaussian _ => powArg fn .gaussian extra
  | .harmonicGaussian _ _ => powArgs fn .harmonicGaussian extra
  | .squashedGaussian _ _ => powArgs fn .squashedGaussian extra
  | .noiseEarth _ => snrArg fn .noiseEarth extra
  | .sphericalHarmonic ell m => (sphericalHarmonicArgs L ell m extra).map fun x => .sphericalHarmonic x.1 x.2
  | .axisymmetricWavelets w => (waveArgs jMax L w extra).map .axisymmetricWavelets
  | .axisymmetricWaveletCoefficientsAfrica w => (waveArgs jMax L w extra).map .axisymmetricWaveletCoefficientsAfrica
  | .axisymmetricWaveletCoefficientsEarth w => (waveArgs jMax L w extra).map .axisymmetricWaveletCoefficientsEarth
  | .axisymmetricWaveletCoefficientsSouthAmerica w =>
    (waveArgs jMax L w extra).map .axisymmetricWaveletCoefficientsSouthAmerica
  | .ridgelets w spin => (ridgeletArgs jMax L w spin extra).map fun x => .ridgelets x.1 x.2

/-- `_setup_args` of the Slepian classes. -/
def SFn.setupArgs (jMax : JMax) (L : ℕ) (fn : SFn) (extra : Option (List ℤ)) : Except Err SFn :=
  match fn with
  | .slepianAfrica | .slepianDiracDelta | .slepianIdentity | .slepianSouthAmerica => noArgs fn extra
  | .slepianNoiseAfrica _ => snrArg fn .slepianNoiseAfrica extra
  | .slepianNoiseSouthAmerica _ => snrArg fn .slepianNoiseSouthAmerica extra
  | .slepianWaveletCoefficientsAfrica w => (waveArgs jMax (L ^ 2) w extra).map .slepianWaveletCoefficientsAfrica
  | .slepianWaveletCoefficientsSouthAmerica w => (waveArgs jMax (L ^ 2) w extra).map .slepianWaveletCoefficientsSouthAmerica
  | .slepianWavelets w => (waveArgs jMax (L ^ 2) w extra).map .slepianWavelets

/-! ### names and flags -/

/-- `functions/axisymmetric_wavelets.py:49-52` and its copies. -/
def waveName (limDen : ℚ → ℚ) (w : Wave) : String :=
  Strings.filenameArgs limDen (w.B : ℚ) "B" ++ Strings.filenameArgs limDen (w.jMin : ℚ) "jmin" ++
    Strings.waveletEnding limDen w.jMin (w.j.map fun n : ℕ => (n : ℤ))

/-- `_create_name` of the harmonic classes: `functions/africa.py:40-43`,
`functions/axisymmetric_wavelet_coefficients_africa.py:51-57`, `functions/axisymmetric_wavelet_coefficients_earth.py:51-57`,
`functions/axisymmetric_wavelet_coefficients_south_america.py:50-56`, `functions/axisymmetric_wavelets.py:47-53`,
`functions/dirac_delta.py:31-34`, `functions/earth.py:29-32`, `functions/elongated_gaussian.py:41-46`,
`functions/gaussian.py:34-38`, `functions/harmonic_gaussian.py:42-47`, `functions/identity.py:25-28`,
`functions/noise_earth.py:34-38`, `functions/ridgelets.py:51-58`, `functions/south_america.py:37-40`,
`functions/spherical_harmonic.py:31-36`, `functions/squashed_gaussian.py:41-46`, `functions/wmap.py:26-29`. -/
def Fn.name (limDen : ℚ → ℚ) (fn : Fn) : String :=
  Strings.snake fn.className ++ match fn with
  | .africa | .diracDelta | .earth | .identity | .southAmerica | .wmap => ""
  | .axisymmetricWaveletCoefficientsAfrica w => waveName limDen w
  | .axisymmetricWaveletCoefficientsEarth w => waveName limDen w
  | .axisymmetricWaveletCoefficientsSouthAmerica w => waveName limDen w
  | .axisymmetricWavelets w => waveName limDen w
  | .elongatedGaussian t p => Strings.filenameArgs limDen t "tsig" ++ Strings.filenameArgs limDen p "psig"
  | .gaussian s => Strings.filenameArgs limDen s "sig"
  | .harmonicGaussian l m => Strings.filenameArgs limDen l "lsig" ++ Strings.filenameArgs limDen m "msig"
  | .noiseEarth s => Strings.filenameArgs limDen s "snr"
  | .ridgelets w spin => Strings.filenameArgs limDen (w.B : ℚ) "B" ++ Strings.filenameArgs limDen (w.jMin : ℚ) "jmin" ++
      Strings.filenameArgs limDen (spin : ℚ) "spin" ++ Strings.waveletEnding limDen w.jMin (w.j.map fun n : ℕ => (n : ℤ))
  | .sphericalHarmonic ell m => Strings.filenameArgs limDen (ell : ℚ) "l" ++ Strings.filenameArgs limDen (m : ℚ) "m"
  | .squashedGaussian t f => Strings.filenameArgs limDen t "tsig" ++ Strings.filenameArgs limDen f "freq"

/-- `_create_name` of the Slepian classes, given `slepian.region._name_ending`: `functions/slepian_africa.py:42-45`,
`functions/slepian_dirac_delta.py:42-46`, `functions/slepian_identity.py:25-29`, `functions/slepian_noise_africa.py:53-57`,
`functions/slepian_noise_south_america.py:53-57`, `functions/slepian_south_america.py:44-47`,
`functions/slepian_wavelet_coefficients_africa.py:53-59`, `functions/slepian_wavelet_coefficients_south_america.py:53-59`,
`functions/slepian_wavelets.py:44-51`. -/
def SFn.name (limDen : ℚ → ℚ) (ending : String) (fn : SFn) : String :=
  Strings.snake fn.className ++ match fn with
  | .slepianAfrica | .slepianSouthAmerica => ""
  | .slepianDiracDelta | .slepianIdentity => "_" ++ ending
  | .slepianNoiseAfrica s => Strings.filenameArgs limDen s "snr"
  | .slepianNoiseSouthAmerica s => Strings.filenameArgs limDen s "snr"
  | .slepianWaveletCoefficientsAfrica w => waveName limDen w
  | .slepianWaveletCoefficientsSouthAmerica w => waveName limDen w
  | .slepianWavelets w => "_" ++ ending ++ waveName limDen w

/-- `_set_reality` of the harmonic classes (`return True` or `return False`): `functions/africa.py:45-46`,
`functions/axisymmetric_wavelet_coefficients_africa.py:59-60`, `functions/axisymmetric_wavelet_coefficients_earth.py:59-60`,
`functions/axisymmetric_wavelet_coefficients_south_america.py:58-59`, `functions/axisymmetric_wavelets.py:55-56`,
`functions/dirac_delta.py:36-37`, `functions/earth.py:34-35`, `functions/elongated_gaussian.py:48-49`,
`functions/gaussian.py:40-41`, `functions/harmonic_gaussian.py:49-50`, `functions/identity.py:30-31`,
`functions/noise_earth.py:40-41`, `functions/ridgelets.py:60-61`, `functions/south_america.py:42-43`,
`functions/spherical_harmonic.py:38-39`, `functions/squashed_gaussian.py:48-49`, `functions/wmap.py:31-32`.  The Slepian
classes all return `False`. -/
def Fn.reality : Fn → Bool
  | .africa | .axisymmetricWavelets _ | .diracDelta | .earth | .elongatedGaussian _ _ | .gaussian _ | .identity | .noiseEarth _
  | .southAmerica | .squashedGaussian _ _ | .wmap => true
  | .axisymmetricWaveletCoefficientsAfrica _ | .axisymmetricWaveletCoefficientsEarth _
  | .axisymmetricWaveletCoefficientsSouthAmerica _ | .harmonicGaussian _ _ | .ridgelets _ _ | .sphericalHarmonic _ _ => false

/-- `_set_spin`: zero except for ridgelets (`functions/ridgelets.py:63-64`). -/
def Fn.spin : Fn → ℤ
  | .ridgelets _ spin => spin
  | _ => 0

/-! ### coefficients -/

/-- The external parts: the transforms of the sphere, the mask files, the random numbers, the loaded power spectrum, the
generating functions `create_kappas(limit, B, j_min)` (`wavelet_methods.py:132-145`: one row per scale) and `pys2let_j_max`. -/
structure Env where
  S : Masks.Sphere
  store : Masks.Store
  normals : ℕ → ℕ → ℝ
  wmapFile : List ℝ
  kappas : ℕ → ℤ → ℤ → List (List ℝ)
  jMax : JMax

/-- `functions/africa.py:30-38,56-82` and `functions/south_america.py:27-35,53-82` with the rotation of the class; `name` is
`self.name`.  The mask is looked up in the files, else created (what is saved is in `Verif.Model.Masks`).  Simplification: a mask
file of another shape raises `ValueError` (NumPy would broadcast an axis of length one). -/
noncomputable def land (e : Env) (L : ℕ) (name : String) (rotate : List ℂ → List ℂ) (reality : Bool) (spin : ℤ)
    (smoothing : Option ℤ) : Except Err (List ℂ) := do
  let flm ← Masks.earth e.S L smoothing
  let f := e.S.inverseReal L (rotate flm)
  let (mask, _) ← Masks.loadMask e.S L (name ++ "_L" ++ toString L ++ ".npy") e.store
  if mask.shape = e.S.shape L then
    return e.S.forward L reality spin fun i j => ((if mask.val i j then f i j else 0 : ℝ) : ℂ)
  else .error .valueError

/-- The coefficients of `Africa(L, smoothing=…)`. -/
noncomputable def africaMap (e : Env) (L : ℕ) (smoothing : Option ℤ) : Except Err (List ℂ) :=
  land e L (Strings.snake "Africa") (Masks.rotateToAfrica e.S L) true 0 smoothing

/-- The coefficients of `SouthAmerica(L, smoothing=…)`. -/
noncomputable def southAmericaMap (e : Env) (L : ℕ) (smoothing : Option ℤ) : Except Err (List ℂ) :=
  land e L (Strings.snake "SouthAmerica") (Masks.rotateToSouthAmerica e.S L) true 0 smoothing

/-- `functions/elongated_gaussian.py:64-76`.  Simplification: Python's division of an array by a zero width gives inf/nan. -/
noncomputable def elongatedGrid (tSigma pSigma : ℝ) (theta phi : ℕ → ℕ → ℝ) (i j : ℕ) : ℝ :=
  Real.exp (-(((theta i j - 0) / tSigma) ^ 2 + ((phi i j - Real.pi) / pSigma) ^ 2) / 2)

/-- `functions/squashed_gaussian.py:62-70`. -/
noncomputable def squashedGrid (tSigma freq : ℝ) (theta phi : ℕ → ℕ → ℝ) (i j : ℕ) : ℝ :=
  Real.exp (-((theta i j - 0) / tSigma) ^ 2 / 2) * Real.sin (freq * phi i j)

/-- `functions/axisymmetric_wavelets.py:38-45`. -/
noncomputable def axisymSelect (e : Env) (L : ℕ) (w : Wave) : Except Err (List ℂ) := do
  let wavelets ← Wavelets.createAxisym L (e.kappas L w.B w.jMin)
  item wavelets (Wavelets.jth w.j)

/-- `functions/axisymmetric_wavelet_coefficients_africa.py:42-49,73-91`,
`functions/axisymmetric_wavelet_coefficients_earth.py:42-49,73-88`,
`functions/axisymmetric_wavelet_coefficients_south_america.py:41-48,72-90`, given the coefficients of the map. -/
noncomputable def axisymCoefficients (e : Env) (L : ℕ) (w : Wave) (map : Except Err (List ℂ)) : Except Err (List ℂ) := do
  let wavelets ← Wavelets.createAxisym L (e.kappas L w.B w.jMin)
  let flm ← map
  let coefficients ← Wavelets.axisymForward L flm wavelets
  item coefficients (Wavelets.jth w.j)

/-- `_create_coefficients` of the harmonic classes: those above, `functions/earth.py:21-27`, `functions/noise_earth.py:26-32`
(without the log message), `functions/ridgelets.py:42-49`, `functions/wmap.py:21-24`. -/
noncomputable def Fn.create (e : Env) (L : ℕ) (smoothing : Option ℤ) (fn : Fn) (w : Noise.World) :
    Except Err (List ℂ × Noise.World) :=
  match fn with
  | .africa => (africaMap e L smoothing).map (·, w)
  | .axisymmetricWaveletCoefficientsAfrica v => (axisymCoefficients e L v (africaMap e L smoothing)).map (·, w)
  | .axisymmetricWaveletCoefficientsEarth v => (axisymCoefficients e L v (Masks.earth e.S L smoothing)).map (·, w)
  | .axisymmetricWaveletCoefficientsSouthAmerica v => (axisymCoefficients e L v (southAmericaMap e L smoothing)).map (·, w)
  | .axisymmetricWavelets v => (axisymSelect e L v).map (·, w)
  | .diracDelta => (Functions.diracDelta L).map (·, w)
  | .earth => (Masks.earth e.S L smoothing).map (·, w)
  | .elongatedGaussian t p => .ok (Masks.ensureBandlimited e.S (elongatedGrid t p) L true 0, w)
  | .gaussian s => (Functions.gaussian L s).map (·, w)
  | .harmonicGaussian l m => (Functions.harmonicGaussian L l m).map (·, w)
  | .identity => .ok (Functions.identity L, w)
  | .noiseEarth snr => do
    let flm ← Masks.earth e.S L smoothing
    Noise.createNoise e.normals L flm snr w
  | .ridgelets v spin => do
    let wavelets ← Functions.ridgelets L spin (e.kappas L v.B v.jMin)
    let row ← item wavelets (Wavelets.jth v.j)
    return (row, w)
  | .southAmerica => (southAmericaMap e L smoothing).map (·, w)
  | .sphericalHarmonic ell m => (createSphericalHarmonic L (elm2ind ell.toNat m)).map (·, w)
  | .squashedGaussian t f => .ok (Masks.ensureBandlimited e.S (squashedGrid t f) L true 0, w)
  | .wmap => Noise.createWmap e.normals e.wmapFile L w

/-- `Class(L, extra_args=…, noise=…, region=…, smoothing=…, parameters)`: `functions/coefficients.py:66-73` with the methods
above. -/
noncomputable def Fn.construct (limDen : ℚ → ℚ) (e : Env) (fn : Fn) (extra : Option (List ℤ)) (s : Settings) (w : Noise.World) :
    Except Err (Obj × Noise.World) := do
  let fn' ← fn.setupArgs e.jMax s.L extra
  Functions.flm limDen e.normals
    { setupArgs := .ok (), name := fn'.name limDen, spin := fn'.spin, reality := fn'.reality,
      create := fn'.create e s.L s.smoothing } s w

/-! ### Slepian classes -/

/-- The first position of the largest element, `np.argwhere(sp == sp.max())[0]`; NumPy orders complex numbers by real part,
then by imaginary part.  `pix` lists the grid in row-major order. -/
noncomputable def argmaxFirst {Pix : Type} (sp : Pix → ℂ) : List Pix → Option Pix
  | [] => none
  | x :: xs => match argmaxFirst sp xs with
    | none => some x
    | some y => open Classical in
      if (sp x).re < (sp y).re ∨ ((sp x).re = (sp y).re ∧ (sp x).im < (sp y).im) then some y else some x

/-- The external parts of the Slepian classes: the Slepian object of the region, `ssht.forward`, the grid in row-major order, the
generating functions as an array, and the region (`Verif.Props.Region` C10: the region of the Slepian object has the same name). -/
structure SEnv (L : ℕ) (Pix : Type) where
  env : Env
  slepian : SlepianEnv L Pix
  pixels : List Pix
  region : Region.Obj

/-- `create_kappas(L², B, j_min)` as an array with `L²` columns. -/
noncomputable def SEnv.kappas {L : ℕ} {Pix : Type} (e : SEnv L Pix) (w : Wave) : Array2 ℂ :=
  ⟨L ^ 2, (e.env.kappas (L ^ 2) w.B w.jMin).map fun r => r.map fun x : ℝ => (x : ℂ)⟩

/-- `functions/slepian_africa.py:32-40`, `functions/slepian_south_america.py:31-42`, given the coefficients of the map. -/
noncomputable def slepianLand {L : ℕ} {Pix : Type} [Fintype Pix] (e : SEnv L Pix) (map : Except Err (List ℂ)) :
    Except Err (List ℂ) := do
  let flm ← map
  Transform.slepianForward e.slepian.sl e.slepian.synth e.slepian.weight { flm := some (asVec L flm) } none

/-- The check at the end of the constructors of the continental classes: `functions/slepian_africa.py:23-30`,
`functions/slepian_south_america.py:22-29`, `functions/slepian_noise_africa.py:27-34`,
`functions/slepian_noise_south_america.py:27-34`, `functions/slepian_wavelet_coefficients_africa.py:35-42`,
`functions/slepian_wavelet_coefficients_south_america.py:35-42`. -/
def checkRegion (expected ending : String) : Except Err Unit := if ending ≠ expected then .error .runtimeError else .ok ()

/-- The coefficients of `SlepianAfrica(L, region=…, smoothing=…)`, `SlepianSouthAmerica(…)` as used by the other classes. -/
noncomputable def slepianLandObject {L : ℕ} {Pix : Type} [Fintype Pix] (e : SEnv L Pix) (expected : String)
    (map : Except Err (List ℂ)) : Except Err (List ℂ) := do
  let c ← slepianLand e map
  checkRegion expected e.region.nameEnding
  return c

/-- `functions/slepian_noise_africa.py:36-51`, `functions/slepian_noise_south_america.py:36-51`, given the map. -/
noncomputable def slepianLandNoise {L : ℕ} {Pix : Type} [Fintype Pix] (e : SEnv L Pix) (expected : String)
    (map : Except Err (List ℂ)) (snr : ℝ) (w : Noise.World) : Except Err (List ℂ × Noise.World) := do
  let c ← slepianLandObject e expected map
  Noise.createSlepianNoise e.env.normals (Transform.slepianInverse e.slepian.sl e.slepian.synth) e.slepian.sshtForward
    (fun nlm => Transform.slepianForward e.slepian.sl e.slepian.synth e.slepian.weight { flm := some (asVec L nlm) } none) L c snr w

/-- `functions/slepian_wavelet_coefficients_africa.py:44-51,75-96`,
`functions/slepian_wavelet_coefficients_south_america.py:44-51,75-96`, given the map; the Slepian wavelets are made first. -/
noncomputable def slepianLandCoefficients {L : ℕ} {Pix : Type} [Fintype Pix] (e : SEnv L Pix) (expected : String)
    (map : Except Err (List ℂ)) (v : Wave) : Except Err (List ℂ) := do
  let _ ← item (e.kappas v).rows 0
  let c ← slepianLandObject e expected map
  Wavelets.selectCoefficients c (e.kappas v) e.slepian.sl.N v.j

/-- `functions/slepian_dirac_delta.py:31-40,59-79`.  `ValueError` (`max` of an empty array) on an empty grid. -/
noncomputable def slepianDirac {L : ℕ} {Pix : Type} (e : SEnv L Pix) : Except Err (List ℂ) := do
  let v ← item e.slepian.sl.evecs 0
  match argmaxFirst (e.slepian.synth v) e.pixels with
  | none => .error .valueError
  | some x => Functions.fpHelper e.slepian x

/-- `_create_coefficients` of the Slepian classes. -/
noncomputable def SFn.create {L : ℕ} {Pix : Type} [Fintype Pix] (e : SEnv L Pix) (smoothing : Option ℤ) (fn : SFn)
    (w : Noise.World) : Except Err (List ℂ × Noise.World) :=
  match fn with
  | .slepianAfrica => (slepianLand e (africaMap e.env L smoothing)).map (·, w)
  | .slepianDiracDelta => (slepianDirac e).map (·, w)
  | .slepianIdentity => .ok (Functions.identity L, w)
  | .slepianNoiseAfrica snr => slepianLandNoise e "africa" (africaMap e.env L smoothing) snr w
  | .slepianNoiseSouthAmerica snr => slepianLandNoise e "south_america" (southAmericaMap e.env L smoothing) snr w
  | .slepianSouthAmerica => (slepianLand e (southAmericaMap e.env L smoothing)).map (·, w)
  | .slepianWaveletCoefficientsAfrica v => (slepianLandCoefficients e "africa" (africaMap e.env L smoothing) v).map (·, w)
  | .slepianWaveletCoefficientsSouthAmerica v =>
    (slepianLandCoefficients e "south_america" (southAmericaMap e.env L smoothing) v).map (·, w)
  | .slepianWavelets v => (Wavelets.selectWavelet (e.kappas v) v.j).map (·, w)

/-- The region that the constructor of the class insists on. -/
def SFn.expects : SFn → Option String
  | .slepianAfrica | .slepianNoiseAfrica _ | .slepianWaveletCoefficientsAfrica _ => some "africa"
  | .slepianSouthAmerica | .slepianNoiseSouthAmerica _ | .slepianWaveletCoefficientsSouthAmerica _ => some "south_america"
  | .slepianDiracDelta | .slepianIdentity | .slepianWavelets _ => none

/-- `Class(L, region=…, …)`: `functions/fp.py:30-40` after the Slepian object of the region has been made, then the check of the
region. -/
noncomputable def SFn.construct {L : ℕ} {Pix : Type} [Fintype Pix] (limDen : ℚ → ℚ) (e : SEnv L Pix) (fn : SFn)
    (extra : Option (List ℤ)) (noise : Option ℚ) (smoothing : Option ℤ) (w : Noise.World) :
    Except Err (Obj × Noise.World) := do
  let fn' ← fn.setupArgs e.env.jMax L extra
  let o ← Functions.fp limDen e.env.normals e.slepian
    { setupArgs := .ok (), name := fn'.name limDen e.region.nameEnding, spin := 0, reality := false, create := fn'.create e smoothing }
    ⟨L, noise, some e.region, smoothing⟩ w
  match fn'.expects with
  | some x => checkRegion x e.region.nameEnding
  | none => pure ()
  return o

end Sleplet.Classes
