import Verif.Model.MeshClasses
import Verif.Model.Plot

/-!
The command that plots functions on meshes: `_scripts/plotting_on_mesh.py:14-135`, with the parts of `meshes/mesh.py:62-92`,
`_plotly_methods.py:15-29`, `plot_methods.py:191-219` and `plotting/_create_plot_mesh.py:43-116` that decide what is shown.

Meshes and their settings files are given.  Logging, fonts, colours and lighting are left out.
-/
namespace Sleplet.MeshScript

open NumPy Classes MeshClasses

/-- The settings file of a mesh (`_mesh_methods.py:56-62`, `extract_mesh_config`), as far as the view depends on it.
Simplification: the zoom factors are not zero (they are not in the files shipped). -/
structure Config where
  cameraX : ℝ
  cameraY : ℝ
  cameraZ : ℝ
  centreX : ℝ
  centreY : ℝ
  centreZ : ℝ
  defaultZoom : ℝ
  regionZoom : ℝ
  defaultColourbarPos : ℝ
  regionColourbarPos : ℝ

/-- `go.layout.scene.Camera`: the eye and the centre. -/
structure Camera where
  eye : ℝ × ℝ × ℝ
  centre : ℝ × ℝ × ℝ

/-- `_plotly_methods.py:15-29`, `create_camera`. -/
noncomputable def createCamera (xEye yEye zEye zoom xCentre yCentre zCentre : ℝ) : Camera :=
  ⟨(xEye / zoom, yEye / zoom, zEye / zoom), (xCentre, yCentre, zCentre)⟩

/-- What the data files and external libraries give for the name of a mesh: `n` vertices, the faces, and everything else in
`MEnv`. -/
structure Loaded where
  n : ℕ
  config : Config
  env : MEnv (Fin n)
  vertices : Fin n → ℝ × ℝ × ℝ
  faces : List (Fin n × Fin n × Fin n)

/-- `Mesh(name, zoom=zoom)`: the attributes `name` and `zoom`. -/
def Loaded.mesh (l : Loaded) (name : String) (zoom : Bool) : MEnv (Fin l.n) := { l.env with meshName := name, zoom := zoom }

/-- `meshes/mesh.py:64-72`. -/
noncomputable def cameraView (c : Config) (zoom : Bool) : Camera :=
  createCamera c.cameraX c.cameraY c.cameraZ (if zoom then c.regionZoom else c.defaultZoom) (if zoom then c.centreX else 0)
    (if zoom then c.centreY else 0) (if zoom then c.centreZ else 0)

/-- `meshes/mesh.py:73-77`. -/
def colourbarPos (c : Config) (zoom : Bool) : ℝ := if zoom then c.regionColourbarPos else c.defaultColourbarPos

/-- `_class_lists.py:42-45`: the settings files in the package. -/
def MESHES : List String := ["bird", "cheetah", "cube", "dragon", "homer", "teapot"]

/-- The command line: `method` is `none` without the option, `some none` if the option has no value. -/
structure Args where
  function : String
  extra : Option (List ℤ) := none
  method : Option (Option String) := none
  noise : Option ℤ := none
  region : Bool := false
  unnormalise : Bool := false
  zoom : Bool := false

/-- `_scripts/plotting_on_mesh.py:14-19`, `valid_meshes`. -/
def validMeshes (name : String) : Except Err String := if MESHES.contains name then .ok name else .error .valueError

/-- `_scripts/plotting_on_mesh.py:22-30`, `valid_methods`. -/
def validMethods (name : String) : Except Err String :=
  if (Strings.classesToSnake Strings.MESH_COEFFICIENTS "Mesh").contains name then .ok name else .error .valueError

/-- `_scripts/plotting_on_mesh.py:33-87`, `read_args`: the names of the mesh and the method.  Simplification: `argparse` exits with
a message for a name that is refused, here the exception of the validator is kept. -/
def readArgs (a : Args) : Except Err (String × String) := do
  let function ← validMeshes a.function
  let method ← validMethods (match a.method with
    | none => "basis_functions"
    | some none => "basis_functions"
    | some (some m) => m)
  return (function, method)

/-- `plot_methods.py:210-219`, `_coefficients_to_field_mesh`; `slepian` says if `f` has the attribute `mesh_slepian`. -/
noncomputable def coefficientsToField {V : Type} (e : MEnv V) (slepian : Bool) (c : List ℝ) : Except Err (V → ℝ) :=
  if slepian then MeshT.slepianMeshInverse e.slepian c else MeshT.meshInverse e.slepian.basis c

/-- `plot_methods.py:191-207`, `compute_amplitude_for_noisy_mesh_plots`. -/
noncomputable def amplitude {n : ℕ} (e : MEnv (Fin n)) (slepian : Bool) (o : Ranks.Obj) : Except Err (Option ℝ) :=
  match o.unnoised with
  | none => .ok none
  | some c => do
    let u ← coefficientsToField e slepian c
    let m ← Plot.amax ((List.ofFn u).map fun x => |x|)
    return some m

/-- The figure: `go.Mesh3d` and its layout. -/
structure Figure where
  filename : String
  positions : List (ℝ × ℝ × ℝ)
  faces : List (ℕ × ℕ × ℕ)
  colours : List ℝ
  cmin : ℝ
  cmid : ℝ
  cmax : ℝ
  camera : Camera
  barPos : ℝ

/-- the faces as rows of vertex numbers. -/
def Loaded.faceRows (l : Loaded) : List (ℕ × ℕ × ℕ) := l.faces.map fun t => ((t.1 : ℕ), (t.2.1 : ℕ), (t.2.2 : ℕ))

/-- `_scripts/plotting_on_mesh.py:90-105`, `plot`, with `plotting/_create_plot_mesh.py:43-116`.  `none`: the field could not be
normalised to finite values. -/
noncomputable def plot (l : Loaded) (e : MEnv (Fin l.n)) (slepian : Bool) (o : Ranks.Obj) (normalise : Bool) (amp : Option ℝ) :
    Except Err (Option Figure) := do
  let field ← coefficientsToField e slepian o.coefficients
  let filename := if normalise then o.name ++ "_norm" else o.name
  let settings : Plot.MeshSettings := ⟨l.faceRows, List.ofFn e.slepian.region, amp, normalise, slepian⟩
  let shown ← Plot.executeMesh settings (List.ofFn field)
  return shown.map fun (colours, cmin, cmax) =>
    { filename := filename
      positions := List.ofFn fun v => ((l.vertices v).1, (l.vertices v).2.2, (l.vertices v).2.1)
      faces := l.faceRows
      colours := colours
      cmin := cmin
      cmid := if normalise then 1 / 2 else 0
      cmax := cmax
      camera := cameraView l.config e.zoom
      barPos := colourbarPos l.config e.zoom }

/-- the class with a given name, with the defaults of its parameters. -/
def classNamed (c : String) : Except Err MFn :=
  match defaults.find? fun f => f.className = c with
  | some f => .ok f
  | none => .error .indexError

/-- `_scripts/plotting_on_mesh.py:108-131`, `main`. -/
noncomputable def main (limDen : ℚ → ℚ) (load : String → Loaded) (a : Args) (w : Noise.World) :
    Except Err (Option Figure × Noise.World) := do
  let (function, method) ← readArgs a
  let l := load function
  let e := l.mesh function a.zoom
  let cls ← Strings.lookup Strings.MESH_COEFFICIENTS "Mesh" method
  let fn ← classNamed cls
  let (f, w') ← fn.construct limDen e a.extra (a.noise.map fun x : ℤ => (x : ℚ)) a.region w
  let amp ← amplitude e fn.isSlepian f
  let fig ← plot l e fn.isSlepian f (!a.unnormalise) amp
  return (fig, w')

end Sleplet.MeshScript
