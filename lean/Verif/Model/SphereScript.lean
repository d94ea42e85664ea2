import Verif.Model.Ranks
import Verif.Model.Script

/-!
The command line of the sphere plots: `_scripts/plotting_on_sphere.py:34-171,355-398`, with `functions/slepian.py`,
`plot_methods.py:222-238` and `plotting/_create_plot_sphere.py`.  The steps between (`plot`) are in `Verif.Model.Script`.

The transforms, the Slepian object of a region and the default region are given.  Logging, fonts, colours, lighting and the option
`--version` are left out.
-/
namespace Sleplet.SphereScript

open NumPy Classes

/-- The command line.  Options with `nargs="?"` are `none` if absent, `some none` if given without a value.  Simplifications: the
bandlimit is not negative, and `float` options are rational numbers. -/
structure Args where
  function : String
  alpha : ℚ := 3 / 4
  bandlimit : ℕ := 16
  beta : ℚ := 1 / 8
  convolve : Option String := none
  extra : Option (List ℤ) := none
  gamma : ℚ := 0
  method : Option (Option String) := none
  noise : Option ℤ := none
  outline : Bool := false
  perspective : Option (Option String) := none
  region : Bool := false
  smoothing : Option ℤ := none
  type : Option (Option String) := none
  unnormalise : Bool := false
  unzeropad : Bool := false

/-- What `read_args` makes of the options with choices. -/
structure Parsed where
  function : String
  convolve : Option String
  method : Script.Method
  view : Script.View
  type : String

/-- `_scripts/plotting_on_sphere.py:34-41`, `valid_maps`. -/
def validMaps (name : String) : Except Err String :=
  if (Strings.classesToSnake Strings.MAPS_LM "").contains name then .ok name else .error .valueError

/-- `_scripts/plotting_on_sphere.py:44-51`, `valid_plotting`. -/
def validPlotting (name : String) : Except Err String :=
  if (Strings.classesToSnake Strings.COEFFICIENTS "").contains name then .ok name else .error .valueError

/-- an option with `nargs="?"`, `default` and `const`. -/
def optional (o : Option (Option String)) (default const : String) : String :=
  match o with
  | none => default
  | some none => const
  | some (some v) => v

/-- `--method` (lines 102-111). -/
def methodChoice (s : String) : Except Err Script.Method :=
  if s = "north" then .ok .north
  else if s = "rotate" then .ok .rotate
  else if s = "translate" then .ok .translate
  else .error .valueError

/-- `--perspective` (lines 119-128). -/
def viewChoice (s : String) : Except Err Script.View :=
  if s = "africa" then .ok .africa
  else if s = "south_america" then .ok .southAmerica
  else .error .valueError

/-- `--type` (lines 141-150). -/
def typeChoice (s : String) : Except Err String :=
  if ["abs", "real", "imag", "sum"].contains s then .ok s else .error .valueError

/-- `--convolve` (lines 81-90). -/
def convolveChoice (o : Option String) : Except Err (Option String) :=
  match o with
  | none => .ok none
  | some m => (validMaps m).map some

/-- `_scripts/plotting_on_sphere.py:54-171`, `read_args`.  Simplification: `argparse` exits with a message for a value that is
refused, here it is a `ValueError`. -/
def readArgs (a : Args) : Except Err Parsed := do
  let function ← validPlotting a.function
  let convolve ← convolveChoice a.convolve
  let method ← methodChoice (optional a.method "north" "north")
  let view ← viewChoice (optional a.perspective "south_america" "south_america")
  let type ← typeChoice (optional a.type "real" "real")
  return ⟨function, convolve, method, view, type⟩

/-! ### the classes with their defaults -/

/-- A class of functions on the sphere, with its parameters. -/
inductive AnyFn
  | harmonic (fn : Fn)
  | slepian (rank : ℤ)
  | slepianFn (fn : SFn)
  deriving DecidableEq

/-- `self.__class__.__name__`. -/
def AnyFn.className : AnyFn → String
  | .harmonic fn => fn.className
  | .slepian _ => "Slepian"
  | .slepianFn fn => fn.className

/-- The defaults of the parameters: `functions/axisymmetric_wavelets.py:27-31` and its copies, `functions/elongated_gaussian.py:23-26`,
`functions/gaussian.py:19`, `functions/harmonic_gaussian.py:23-26`, `functions/noise_earth.py:19`, `functions/ridgelets.py:29-37`,
`functions/spherical_harmonic.py:20-23`, `functions/squashed_gaussian.py:23-26`, `functions/slepian.py:21`,
`functions/slepian_noise_africa.py:23`, `functions/slepian_noise_south_america.py:23`. -/
def defaults : List AnyFn :=
  [.harmonic .africa, .harmonic (.axisymmetricWaveletCoefficientsAfrica {}), .harmonic (.axisymmetricWaveletCoefficientsEarth {}),
   .harmonic (.axisymmetricWaveletCoefficientsSouthAmerica {}), .harmonic (.axisymmetricWavelets {}), .harmonic .diracDelta,
   .harmonic .earth, .harmonic (.elongatedGaussian 1 (1 / 10)), .harmonic (.gaussian 10), .harmonic (.harmonicGaussian 10 10),
   .harmonic .identity, .harmonic (.noiseEarth 10), .harmonic (.ridgelets {} 2), .harmonic .southAmerica,
   .harmonic (.sphericalHarmonic 0 0), .harmonic (.squashedGaussian 1 (1 / 10)), .harmonic .wmap, .slepian 0,
   .slepianFn .slepianAfrica, .slepianFn .slepianDiracDelta, .slepianFn .slepianIdentity, .slepianFn (.slepianNoiseAfrica (-10)),
   .slepianFn (.slepianNoiseSouthAmerica (-10)), .slepianFn .slepianSouthAmerica, .slepianFn (.slepianWaveletCoefficientsAfrica {}),
   .slepianFn (.slepianWaveletCoefficientsSouthAmerica {}), .slepianFn (.slepianWavelets {})]

/-- the class with a given name, with the defaults of its parameters. -/
def classNamed (c : String) : Except Err AnyFn :=
  match defaults.find? fun f => f.className = c with
  | some f => .ok f
  | none => .error .indexError

/-! ### the objects -/

/-- The samples of the grid of a bandlimit (`ssht.sample_shape` with the sampling scheme of `_vars.py`). -/
abbrev Pix (L : ℕ) := Fin (L + 1) × Fin (2 * L)

/-- the array of values, by rows. -/
def toRows {L : ℕ} {α : Type} (f : Pix L → α) : List (List α) := List.ofFn fun t => List.ofFn fun p => f (t, p)

/-- `choose_slepian_method(L, region)`: the Slepian object, its list of orders (polar caps only) and the sample of
`ssht.theta_to_index`, `ssht.phi_to_index`. -/
structure SlepianOf (L : ℕ) where
  env : Functions.SlepianEnv L (Pix L)
  orders : Option (List ℤ)
  pixel : ℝ → ℝ → Pix L

/-- The external parts: those of the classes, `create_default_region()`, `choose_slepian_method`, `ssht.create_ylm`, `ssht.inverse`
and `ssht.forward` with the flag and the spin, and the format `e` of numbers. -/
structure SphereEnv where
  env : Env
  defaultRegion : Except Err Region.Obj
  slepian : (L : ℕ) → Region.Obj → Except Err (SlepianOf L)
  ylm : ℕ → ℝ → ℝ → List ℂ
  inverse : Bool → ℤ → ℕ → List ℂ → List (List ℂ)
  forward : Bool → ℤ → ℕ → List (List ℂ) → List ℂ
  fmt : ℝ → String

/-- `.replace(".", "-").replace("+", "")`. -/
def tidy (s : String) : String := String.ofList ((s.toList.map fun c => if c = '.' then '-' else c).filter fun c => c ≠ '+')

/-- The name of a `Slepian` function: `functions/slepian.py:29-42`, with `slepian_polar_cap.py:51-52`,
`slepian_limit_lat_lon.py:40-41`, `slepian_arbitrary.py:49-50` (`nameEnding` is the mask's name there). -/
noncomputable def slepianName (fmt : ℝ → String) (ending : String) {L : ℕ} (s : SlepianOf L) (rank : ℕ) : Except Err String := do
  let order ← (match s.orders with
    | none => .ok ""
    | some os => (item os rank).map fun m => "_m" ++ toString m : Except Err String)
  let ev ← item s.env.sl.evals rank
  return tidy ("slepian_" ++ ending ++ order ++ "_rank" ++ toString rank ++ "_lam" ++ fmt ev)

/-- `Slepian(L, rank=rank, extra_args=…, region=…, noise=…, smoothing=…)` once the Slepian object of the region has been made:
`functions/slepian.py:25-70`; `_validate_rank` comes before and is in `build`. -/
noncomputable def slepianObject (limDen : ℚ → ℚ) (e : SphereEnv) (L : ℕ) (r : Region.Obj) (s : SlepianOf L) (rank : ℤ)
    (extra : Option (List ℤ)) (noise : Option ℚ) (smoothing : Option ℤ) (w : Noise.World) :
    Except Err (Functions.Obj × Noise.World) := do
  let rank ← Ranks.setupRank rank extra
  let name ← slepianName e.fmt r.nameEnding s rank.toNat
  Functions.fp limDen e.env.normals s.env
    { setupArgs := .ok (), name := name, spin := 0, reality := false
      create := fun w => do
        let v ← item s.env.sl.evecs rank.toNat
        let c ← Transform.slepianForward s.env.sl s.env.synth s.env.weight { flm := some v } none
        return (c, w) } ⟨L, noise, some r, smoothing⟩ w

/-- A function object of the script: what `plot` uses of it, and for Slepian functions the Slepian object and the region. -/
structure Made (L : ℕ) where
  target : Script.Target
  slepian : Option (SlepianOf L × Region.Obj)

/-- the environment of the Slepian classes. -/
def SlepianOf.senv {L : ℕ} (s : SlepianOf L) (e : Env) (r : Region.Obj) : SEnv L (Pix L) :=
  ⟨e, s.env, (List.ofFn fun t => List.ofFn fun p => (t, p)).flatten, r⟩

/-- the region given, or else the default: `functions/fp.py:31-35`. -/
def regionOr (default : Except Err Region.Obj) (region : Option Region.Obj) : Except Err Region.Obj :=
  match region with
  | some r => .ok r
  | none => default

/-- `Class(L, extra_args=…, region=…, noise=…, smoothing=…)`: `functions/flm.py:21-22`, `functions/fp.py:30-40` (the default region
if none is given), `functions/slepian.py:25-27`. -/
noncomputable def build (limDen : ℚ → ℚ) (e : SphereEnv) (L : ℕ) (fn : AnyFn) (extra : Option (List ℤ)) (region : Option Region.Obj)
    (noise : Option ℚ) (smoothing : Option ℤ) (w : Noise.World) : Except Err (Made L × Noise.World) :=
  match fn with
  | .harmonic f => do
    let (o, w') ← f.construct limDen e.env extra ⟨L, noise, region, smoothing⟩ w
    return (⟨Script.harmonic e.env.S (e.ylm L) o, none⟩, w')
  | .slepian rank => do
    Ranks.checkRank rank
    Ranks.validateSlepian L extra
    let r ← regionOr e.defaultRegion region
    let s ← e.slepian L r
    let (o, w') ← slepianObject limDen e L r s rank extra noise smoothing w
    return (⟨Script.slepian s.env s.pixel o, some (s, r)⟩, w')
  | .slepianFn f => do
    let r ← regionOr e.defaultRegion region
    let s ← e.slepian L r
    let (o, w') ← f.construct limDen (s.senv e.env r) extra noise smoothing w
    return (⟨Script.slepian s.env s.pixel o, some (s, r)⟩, w')

/-- `plot_methods.py:241-256`, `_coefficients_to_field_sphere`, as rows; `reality` is the flag of the object at the time. -/
noncomputable def toField (e : SphereEnv) {L : ℕ} (f : Made L) (reality : Bool) (c : List ℂ) : Except Err (List (List ℂ)) :=
  match f.slepian with
  | some (s, _) => (Transform.slepianInverse s.env.sl s.env.synth c).map toRows
  | none => .ok (e.inverse reality f.target.obj.spin L c)

/-- `plot_methods.py:222-238`, `compute_amplitude_for_noisy_sphere_plots`. -/
noncomputable def amplitude (e : SphereEnv) {L : ℕ} (f : Made L) : Except Err (Option ℝ) :=
  match f.target.obj.unnoised with
  | none => .ok none
  | some c => do
    let u ← toField e f f.target.obj.reality c
    let m ← Plot.amax (u.flatten.map fun z => ‖z‖)
    return some m

/-- What is shown: the file name, the colours with the range of the scale, and the points annotated. -/
structure Shown where
  filename : String
  colours : List (List ℝ)
  cmin : ℝ
  cmax : ℝ
  annotation : List (ℝ × ℝ)

/-- the rows of a mask. -/
def maskRows (m : Masks.Mask) : List (List Bool) :=
  List.ofFn fun i : Fin m.shape.1 => List.ofFn fun j : Fin m.shape.2 => m.val i j

/-- `_scripts/plotting_on_sphere.py:250-265` with `plotting/_create_plot_sphere.py:51-120`: the field of the coefficients and its plot.
`none`: the field could not be normalised to finite values.  Simplification: a mask made here is not kept for later calls. -/
noncomputable def display (e : SphereEnv) {L : ℕ} (f : Made L) (fig : Script.Figure) (amp : Option ℝ) (normalise : Bool)
    (plotType : String) (upsample : Bool) : Except Err (Option Shown) := do
  let field ← toField e f fig.reality fig.coefficients
  let bare : Plot.SphereSettings := ⟨L, amp, normalise, plotType, upsample, none⟩
  let mask ← (match f.slepian with
    | none => .ok none
    | some (_, r) => (Masks.maskRegion e.env.S bare.resolution r e.env.store).map fun m => some fun _ => maskRows m.1 :
      Except Err (Option (ℕ → List (List Bool))))
  let settings := { bare with mask := mask }
  let spin := f.target.obj.spin
  let shown ← Plot.executeSphere (e.forward fig.reality spin) (e.inverse fig.reality spin) settings field
  return shown.map fun s => ⟨settings.filename fig.filename, s.colours, s.cmin, s.cmax, fig.annotation⟩

/-- The other map, `Map(args.bandlimit)`: `_scripts/plotting_on_sphere.py:372-380`. -/
noncomputable def otherMap (limDen : ℚ → ℚ) (e : SphereEnv) (L : ℕ) (name : Option String) (w : Noise.World) :
    Except Err (Option Functions.Obj × Noise.World) :=
  match name with
  | none => .ok (none, w)
  | some m => do
    let cls ← Strings.lookup Strings.MAPS_LM "" m
    match ← classNamed cls with
    | .harmonic g =>
      let (o, w') ← g.construct limDen e.env none ⟨L, none, none, none⟩ w
      return (some o, w')
    | _ => .error .typeError

/-- `_scripts/plotting_on_sphere.py:355-398`, `main`. -/
noncomputable def main (limDen : ℚ → ℚ) (e : SphereEnv) (a : Args) (w : Noise.World) : Except Err (Option Shown × Noise.World) := do
  let p ← readArgs a
  let mask ← (if a.region then e.defaultRegion.map some else .ok none : Except Err (Option Region.Obj))
  let cls ← Strings.lookup Strings.COEFFICIENTS "" p.function
  let fn ← classNamed cls
  let (f, w₁) ← build limDen e a.bandlimit fn a.extra mask (a.noise.map fun x : ℤ => (x : ℚ)) a.smoothing w
  let (g, w₂) ← otherMap limDen e a.bandlimit p.convolve w₁
  let amp ← amplitude e f
  let fig ← Script.plot limDen e.env.S f.target g ⟨a.alpha, a.beta, a.gamma, !a.outline, p.method, p.view⟩
  let shown ← display e f fig amp (!a.unnormalise) p.type (!a.unzeropad)
  return (shown, w₂)

end Sleplet.SphereScript
