import Verif.Model.Classes
import Verif.Model.Plot

/-!
The command that plots functions on the sphere: `_scripts/plotting_on_sphere.py:174-352`, with the methods of the functions it
calls (`functions/flm.py:24-38`, `functions/fp.py:42-62`, `plot_methods.py:241-256`).

Angles given as fractions of π are rational numbers.  Logging is left out.
-/
namespace Sleplet.Script

open NumPy Functions

/-- What the script uses of a function object `f`: its attributes, `f.rotate`, `f._translation_helper`, `slepian_forward` of
harmonic coefficients (for Slepian functions only) and `f.slepian.N`. -/
structure Target where
  obj : Functions.Obj
  rotate : ℝ → ℝ → ℝ → Except Err (List ℂ)
  helper : ℝ → ℝ → Except Err (List ℂ)
  project : List ℂ → Except Err (List ℂ)
  shannon : Option ℤ

/-- A harmonic function: `functions/flm.py:24-38`, and no attribute `slepian`. -/
noncomputable def harmonic (S : Masks.Sphere) (ylm : ℝ → ℝ → List ℂ) (o : Functions.Obj) : Target where
  obj := o
  rotate := fun alpha beta gamma => .ok (S.rotate o.L o.coefficients alpha beta gamma)
  helper := flmHelper ylm
  project := fun g => .ok g
  shannon := none

/-- A Slepian function: `functions/fp.py:42-62`; `pixel` is the external `ssht.theta_to_index`, `ssht.phi_to_index`. -/
noncomputable def slepian {L : ℕ} {Pix : Type} [Fintype Pix] (e : SlepianEnv L Pix) (pixel : ℝ → ℝ → Pix) (o : Functions.Obj) :
    Target where
  obj := o
  rotate := fun _ _ _ => .error .notImplementedError
  helper := fun alpha beta => fpHelper e (pixel alpha beta)
  project := fun g => Transform.slepianForward e.sl e.synth e.weight { flm := some (asVec L g) } none
  shannon := some e.sl.N

/-- `--method`. -/
inductive Method
  | north
  | rotate
  | translate
  deriving DecidableEq

/-- `--perspective`. -/
inductive View
  | africa
  | southAmerica
  deriving DecidableEq

/-- The arguments of `plot` that the computation depends on. -/
structure Args where
  alpha : ℚ
  beta : ℚ
  gamma : ℚ
  annotations : Bool
  method : Method
  view : View

/-- What is handed to the field transform and to `PlotSphere`: the coefficients, `f.reality` at that time, the file name, and the
point annotated (longitude, colatitude). -/
structure Figure where
  coefficients : List ℂ
  reality : Bool
  filename : String
  annotation : List (ℝ × ℝ)

/-- `_scripts/plotting_on_sphere.py:268-296`, `_rotation_helper`. -/
noncomputable def rotationHelper (limDen : ℚ → ℚ) (f : Target) (filename : String) (a : Args) : Except Err (List ℂ × String) := do
  let filename := filename ++ "_rotate_" ++ Strings.filenameAngle limDen a.alpha a.beta a.gamma
  let (alpha, beta) ← Plot.calcNearestGridPoint f.obj.L a.alpha a.beta
  let c ← f.rotate alpha beta ((a.gamma : ℝ) * Real.pi)
  return (c, filename)

/-- `_scripts/plotting_on_sphere.py:299-333`, `_translation_helper`: coefficients, the reality flag of `f` afterwards, the file name
and the point. -/
noncomputable def translationHelper (limDen : ℚ → ℚ) (f : Target) (filename : String) (a : Args) :
    Except Err (List ℂ × Bool × String × (ℝ × ℝ)) := do
  let filename := filename ++ "_translate_" ++ Strings.filenameAngle limDen a.alpha a.beta 0
  let (alpha, beta) ← Plot.calcNearestGridPoint f.obj.L a.alpha a.beta
  let (r, reality) := translate f.obj (f.helper alpha beta) f.shannon
  let c ← r
  return (c, reality, filename, (alpha, beta))

/-- `_scripts/plotting_on_sphere.py:336-352`, `_convolution_helper`, with the reality flag that `convolve` sets. -/
noncomputable def convolutionHelper (f : Target) (g : Functions.Obj) (coefficients : List ℂ) (filename : String) :
    Except Err (List ℂ × Bool × String) := do
  let gc ← f.project g.coefficients
  let (r, reality) := convolve gc coefficients f.shannon
  let c ← r
  return (c, reality, filename ++ "_convolved_" ++ g.name)

/-- `_scripts/plotting_on_sphere.py:190-223`: the method asked for (coefficients, flag, file name, annotations). -/
noncomputable def applyMethod (limDen : ℚ → ℚ) (f : Target) (a : Args) : Except Err (List ℂ × Bool × String × List (ℝ × ℝ)) :=
  match a.method with
  | .north => .ok (f.obj.coefficients, f.obj.reality, f.obj.name, [])
  | .rotate => do
    let (c, n) ← rotationHelper limDen f f.obj.name a
    return (c, f.obj.reality, n, [])
  | .translate => do
    let (c, r, n, p) ← translationHelper limDen f f.obj.name a
    return (c, r, n, if a.annotations then [p] else [])

/-- `_scripts/plotting_on_sphere.py:225-232`: the convolution, if a map is given. -/
noncomputable def applyConvolution (f : Target) (g : Option Functions.Obj) (c : List ℂ) (reality : Bool) (filename : String) :
    Except Err (List ℂ × Bool × String) :=
  match g with
  | none => .ok (c, reality, filename)
  | some g => convolutionHelper f g c filename

/-- `_scripts/plotting_on_sphere.py:234-247`: the view of the Earth. -/
noncomputable def applyView (S : Masks.Sphere) (L : ℕ) (c : List ℂ) (filename : String) (view : View) : List ℂ × String :=
  if contains "earth" filename then
    match view with
    | .africa => (Masks.rotateToAfrica S L c, filename ++ "_africa")
    | .southAmerica => (Masks.rotateToSouthAmerica S L c, filename)
  else (c, filename)

/-- `_scripts/plotting_on_sphere.py:174-265`, `plot`, up to the field. -/
noncomputable def plot (limDen : ℚ → ℚ) (S : Masks.Sphere) (f : Target) (g : Option Functions.Obj) (a : Args) : Except Err Figure := do
  let (c, reality, filename, annotation) ← applyMethod limDen f a
  let (c, reality, filename) ← applyConvolution f g c reality filename
  let (c, filename) := applyView S f.obj.L c filename a.view
  return ⟨c, reality, filename, annotation⟩

end Sleplet.Script
