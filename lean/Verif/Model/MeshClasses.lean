import Verif.Model.Classes
import Verif.Model.Ranks

/-!
The eight classes of functions on meshes (`meshes/*.py`, listed in `_class_lists.py:88-104`): parameters, extra arguments, names,
coefficients and noise.

Parameters of type `float` are rational numbers.  Arrays on meshes are real; where a shared function works on complex arrays
(wavelets, noise level) its input is embedded and the real parts of its result are taken.
-/
namespace Sleplet.MeshClasses

open NumPy Classes

/-- A mesh class with its parameters. -/
inductive MFn
  | basisFunctions (rank : ℤ)
  | field
  | noiseField (snr : ℚ)
  | slepianField
  | slepianFunctions (rank : ℤ)
  | slepianNoiseField (snr : ℚ)
  | slepianWaveletCoefficients (w : Wave)
  | slepianWavelets (w : Wave)
  deriving DecidableEq

/-- `self.__class__.__name__`. -/
def MFn.className : MFn → String
  | .basisFunctions _ => "MeshBasisFunctions"
  | .field => "MeshField"
  | .noiseField _ => "MeshNoiseField"
  | .slepianField => "MeshSlepianField"
  | .slepianFunctions _ => "MeshSlepianFunctions"
  | .slepianNoiseField _ => "MeshSlepianNoiseField"
  | .slepianWaveletCoefficients _ => "MeshSlepianWaveletCoefficients"
  | .slepianWavelets _ => "MeshSlepianWavelets"

/-- The defaults of the parameters: `meshes/mesh_basis_functions.py:21`, `meshes/mesh_noise_field.py:19`,
`meshes/mesh_slepian_functions.py:21`, `meshes/mesh_slepian_noise_field.py:22`,
`meshes/mesh_slepian_wavelet_coefficients.py:26-32`, `meshes/mesh_slepian_wavelets.py:24-30`. -/
def defaults : List MFn :=
  [.basisFunctions 0, .field, .noiseField 10, .slepianField, .slepianFunctions 0, .slepianNoiseField (-5),
   .slepianWaveletCoefficients {}, .slepianWavelets {}]

/-- The external parts: the mesh with its Slepian object, the second component of `igl.per_vertex_normals`, `format(x, "e")`,
`create_kappas`, `pys2let_j_max` and the random numbers.  `meshEvals` is `mesh.mesh_eigenvalues`. -/
structure MEnv (V : Type) where
  meshName : String
  zoom : Bool
  meshEvals : List ℝ
  slepian : MeshT.MeshSlepian V
  normalY : V → ℝ
  fmtE : ℝ → String
  kappas : ℕ → ℤ → ℤ → List (List ℝ)
  jMax : JMax
  normals : ℕ → ℕ → ℝ

/-- `_setup_args` preceded by the validation of the rank: `meshes/mesh_basis_functions.py:25-27,50-74`,
`meshes/mesh_field.py:31-34`, `meshes/mesh_noise_field.py:46-52`, `meshes/mesh_slepian_field.py:40-43`,
`meshes/mesh_slepian_functions.py:53-77`, `meshes/mesh_slepian_noise_field.py:56-62`,
`meshes/mesh_slepian_wavelet_coefficients.py:54-60,82-101`, `meshes/mesh_slepian_wavelets.py:52-87`.  `K` is the number of mesh
eigenvalues. -/
def MFn.setupArgs (jMax : JMax) (K : ℕ) (fn : MFn) (extra : Option (List ℤ)) : Except Err MFn :=
  match fn with
  | .basisFunctions rank => do
    Ranks.checkRank rank
    Ranks.validateBasis K extra
    (Ranks.setupRank rank extra).map .basisFunctions
  | .slepianFunctions rank => do
    Ranks.checkRank rank
    (Ranks.setupRank rank extra).map .slepianFunctions
  | .field | .slepianField => noArgs fn extra
  | .noiseField _ => snrArg fn .noiseField extra
  | .slepianNoiseField _ => snrArg fn .slepianNoiseField extra
  | .slepianWaveletCoefficients w => (waveArgs jMax K w extra).map .slepianWaveletCoefficients
  | .slepianWavelets w => (waveArgs jMax K w extra).map .slepianWavelets

/-- `.replace(".", "-").replace("+", "")`. -/
def tidy (s : String) : String :=
  String.ofList ((s.toList.map fun c => if c = '.' then '-' else c).filter fun c => c ≠ '+')

/-- `_create_name`: `meshes/mesh_basis_functions.py:40-48`, `meshes/mesh_field.py:28-29`, `meshes/mesh_noise_field.py:34-38`,
`meshes/mesh_slepian_field.py:37-38`, `meshes/mesh_slepian_functions.py:43-51`, `meshes/mesh_slepian_noise_field.py:44-48`,
`meshes/mesh_slepian_wavelet_coefficients.py:46-52`, `meshes/mesh_slepian_wavelets.py:44-50`.  The rank is not negative. -/
def MFn.name {V : Type} (limDen : ℚ → ℚ) (e : MEnv V) (fn : MFn) : Except Err String :=
  match fn with
  | .basisFunctions rank => do
    let x ← item e.meshEvals rank.toNat
    return tidy (e.meshName ++ "_rank" ++ toString rank ++ "_lam" ++ e.fmtE x)
  | .field => .ok (e.meshName ++ "_field")
  | .noiseField snr => .ok (e.meshName ++ "_noise_field" ++ Strings.filenameArgs limDen snr "snr")
  | .slepianField => .ok ("slepian_" ++ e.meshName ++ "_field")
  | .slepianFunctions rank => do
    let x ← item e.slepian.evals rank.toNat
    return tidy ("slepian_" ++ e.meshName ++ "_rank" ++ toString rank ++ "_lam" ++ e.fmtE x)
  | .slepianNoiseField snr => .ok ("slepian_" ++ e.meshName ++ "_noise_field" ++ Strings.filenameArgs limDen snr "snr")
  | .slepianWaveletCoefficients w => .ok ("slepian_wavelet_coefficients_" ++ e.meshName ++ waveName limDen w)
  | .slepianWavelets w => .ok ("slepian_wavelets_" ++ e.meshName ++ waveName limDen w)

section
variable {V : Type} [Fintype V]

/-- `meshes/mesh_field.py:21-26`, the coefficients of `MeshField(mesh)` with or without a region. -/
noncomputable def fieldCoefficients (e : MEnv V) : Except Err (List ℝ) :=
  MeshT.meshForward e.meshEvals.length e.slepian.basis e.normalY

/-- `meshes/mesh_slepian_field.py:24-35`. -/
noncomputable def slepianFieldCoefficients (e : MEnv V) : Except Err (List ℝ) := do
  let u ← fieldCoefficients e
  MeshT.slepianMeshForward e.slepian { ui := some u } none

/-- `noise.py:263-280`, `_create_slepian_mesh_noise`. -/
noncomputable def slepianNoise (e : MEnv V) (signal : List ℝ) (snr : ℝ) (w : Noise.World) :
    Except Err (List ℝ × Noise.World) := do
  let (n, w') ← Noise.createSlepianMeshNoise e.normals
    (fun s => MeshT.slepianMeshInverse e.slepian (s.map Complex.re))
    (fun f => (MeshT.meshForward e.meshEvals.length e.slepian.basis f).map fun u => u.map fun x : ℝ => (x : ℂ))
    (fun n => (MeshT.slepianMeshForward e.slepian { ui := some n } none).map fun u => u.map fun x : ℝ => (x : ℂ))
    (signal.map fun x : ℝ => (x : ℂ)) snr w
  return (n.map Complex.re, w')

/-- `create_kappas(K, B, j_min)` as an array with `K` columns (`meshes/mesh_slepian_wavelets.py:60-66`). -/
noncomputable def MEnv.wavelets (e : MEnv V) (v : Wave) : Array2 ℂ :=
  ⟨e.meshEvals.length, (e.kappas e.meshEvals.length v.B v.jMin).map fun r => r.map fun x : ℝ => (x : ℂ)⟩

/-- `meshes/mesh_slepian_wavelet_coefficients.py:37-44,62-80`; the wavelets are made first, with the scaling function selected. -/
noncomputable def coefficientsOfScale (e : MEnv V) (v : Wave) : Except Err (List ℝ) := do
  let _ ← item (e.wavelets v).rows 0
  let c ← slepianFieldCoefficients e
  let r ← Wavelets.selectCoefficients (c.map fun x : ℝ => (x : ℂ)) (e.wavelets v) e.slepian.N v.j
  return r.map Complex.re

/-- `_create_coefficients`: `meshes/mesh_basis_functions.py:29-38`, `meshes/mesh_field.py:21-26`,
`meshes/mesh_noise_field.py:26-32`, `meshes/mesh_slepian_field.py:24-35`, `meshes/mesh_slepian_functions.py:28-41`,
`meshes/mesh_slepian_noise_field.py:29-42`, `meshes/mesh_slepian_wavelet_coefficients.py:37-44`,
`meshes/mesh_slepian_wavelets.py:35-42`.  `MeshNoiseField` looks up `sleplet.meshes.mesh_slepian.MeshField`: the module
`meshes/mesh_slepian.py` defines `MeshSlepian` and imports `Mesh` only, so this raises `AttributeError`. -/
noncomputable def MFn.create (e : MEnv V) (fn : MFn) (w : Noise.World) : Except Err (List ℝ × Noise.World) :=
  match fn with
  | .basisFunctions rank => do
    let _ ← item e.meshEvals rank.toNat
    let phi ← item e.slepian.basis rank.toNat
    let c ← MeshT.meshForward e.meshEvals.length e.slepian.basis phi
    return (c, w)
  | .field => (fieldCoefficients e).map (·, w)
  | .noiseField _ => .error .attributeError
  | .slepianField => (slepianFieldCoefficients e).map (·, w)
  | .slepianFunctions rank => do
    let _ ← item e.slepian.evals rank.toNat
    let s ← item e.slepian.evecs rank.toNat
    let c ← MeshT.slepianMeshForward e.slepian { ui := some s } none
    return (c, w)
  | .slepianNoiseField snr => do
    let c ← slepianFieldCoefficients e
    slepianNoise e c snr w
  | .slepianWaveletCoefficients v => (coefficientsOfScale e v).map (·, w)
  | .slepianWavelets v => (Wavelets.selectWavelet (e.wavelets v) v.j).map fun r => (r.map Complex.re, w)

/-- A Slepian function on a mesh: `meshes/mesh_coefficients.py:59-64` with `meshes/mesh_slepian_coefficients.py:26-45`, after the
Slepian object of the mesh has been made. -/
noncomputable def slepianFunction (limDen : ℚ → ℚ) (e : MEnv V) (h : Ranks.Hooks) (s : Ranks.Settings) (w : Noise.World) :
    Except Err (Ranks.Obj × Noise.World) := do
  h.setupArgs
  let name ← h.name
  let (c, w₁) ← h.create w
  let name := Ranks.addDetails limDen s name
  match s.noise with
  | none => return (⟨name, c, none, none⟩, w₁)
  | some snrIn =>
    let (n, w₂) ← slepianNoise e c (snrIn : ℝ) w₁
    let snr := Noise.computeSnr (c.map fun x : ℝ => (x : ℂ)) (n.map fun x : ℝ => (x : ℂ))
    let c' ← broadcast (· + ·) c n
    return (⟨name, c', some c, some snr⟩, w₂)

/-- Is the class a subclass of `MeshSlepianCoefficients`? -/
def MFn.isSlepian : MFn → Bool
  | .basisFunctions _ | .field | .noiseField _ => false
  | .slepianField | .slepianFunctions _ | .slepianNoiseField _ | .slepianWaveletCoefficients _ | .slepianWavelets _ => true

/-- `Class(mesh, extra_args=…, noise=…, region=…)`. -/
noncomputable def MFn.construct (limDen : ℚ → ℚ) (e : MEnv V) (fn : MFn) (extra : Option (List ℤ)) (noise : Option ℚ)
    (region : Bool) (w : Noise.World) : Except Err (Ranks.Obj × Noise.World) := do
  let fn' ← fn.setupArgs e.jMax e.meshEvals.length extra
  let hooks : Ranks.Hooks := { setupArgs := .ok (), name := fn'.name limDen e, create := fn'.create e }
  let settings : Ranks.Settings := ⟨e.meshName, e.zoom, noise, region⟩
  if fn'.isSlepian then slepianFunction limDen e hooks settings w else Ranks.meshFunction limDen e.normals hooks settings w

end

end Sleplet.MeshClasses
