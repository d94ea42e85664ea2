import Verif.Model.Functions
import Verif.Model.MeshTransform

/-!
Constructors that select one function by rank, and the constructors of mesh functions:
`functions/slepian.py`, `meshes/mesh_basis_functions.py`, `meshes/mesh_slepian_functions.py`,
`meshes/mesh_coefficients.py`, `meshes/mesh_harmonic_coefficients.py`.
-/
namespace Sleplet.Ranks

open NumPy

/-- the validator of `rank` (`functions/slepian.py:80-88` and the mesh versions). -/
def checkRank (v : ℤ) : Except Err Unit := if v < 0 then .error .valueError else .ok ()

/-- `_setup_args` (`functions/slepian.py:64-70` and the mesh versions): the rank afterwards; the assignment validates. -/
def setupRank (rank : ℤ) : Option (List ℤ) → Except Err ℤ
  | none => .ok rank
  | some [x] => do
    checkRank x
    return x
  | some _ => .error .valueError

/-- `functions/slepian.py:72-78`, `_validate_rank`. -/
def validateSlepian (L : ℕ) : Option (List ℤ) → Except Err Unit
  | none => .ok ()
  | some [] => .error .indexError
  | some (x :: _) => if x ≥ (L : ℤ) ^ 2 then .error .valueError else .ok ()

/-- The coefficients of `Slepian(L, region=…, rank=rank, extra_args=extra)` (`functions/slepian.py:25-56`), without noise.
`orders` is the list `slepian.order` of polar caps, read for the name.  The rank is not negative when the arrays are read. -/
noncomputable def slepian {L : ℕ} {Pix : Type} [Fintype Pix] (e : Functions.SlepianEnv L Pix) (orders : Option (List ℤ))
    (rank : ℤ) (extra : Option (List ℤ)) : Except Err (List ℂ) := do
  checkRank rank
  validateSlepian L extra
  let r ← setupRank rank extra
  match orders with
  | none => pure ()
  | some os =>
    let _ ← item os r.toNat
  let _ ← item e.sl.evals r.toNat
  let v ← item e.sl.evecs r.toNat
  Transform.slepianForward e.sl e.synth e.weight { flm := some v } none

/-- `meshes/mesh_basis_functions.py:58-64`, `_validate_rank`, for `K` mesh eigenvalues. -/
def validateBasis (K : ℕ) : Option (List ℤ) → Except Err Unit
  | none => .ok ()
  | some [] => .error .indexError
  | some (x :: _) => if x > (K : ℤ) then .error .valueError else .ok ()

/-- The coefficients of `MeshBasisFunctions(mesh, rank=rank, extra_args=extra)` (`meshes/mesh_basis_functions.py:25-56`),
without noise. -/
noncomputable def meshBasis {V : Type} [Fintype V] (evals : List ℝ) (basis : List (V → ℝ)) (rank : ℤ)
    (extra : Option (List ℤ)) : Except Err (List ℝ) := do
  checkRank rank
  validateBasis evals.length extra
  let r ← setupRank rank extra
  let _ ← item evals r.toNat
  let phi ← item basis r.toNat
  MeshT.meshForward evals.length basis phi

/-- The coefficients of `MeshSlepianFunctions(mesh, rank=rank, extra_args=extra)`
(`meshes/mesh_slepian_functions.py:25-59`), without noise; `_validate_rank` (lines 61-67) is never called. -/
noncomputable def meshSlepian {V : Type} [Fintype V] (ms : MeshT.MeshSlepian V) (rank : ℤ) (extra : Option (List ℤ)) :
    Except Err (List ℝ) := do
  checkRank rank
  let r ← setupRank rank extra
  let _ ← item ms.evals r.toNat
  let v ← item ms.evecs r.toNat
  MeshT.slepianMeshForward ms { ui := some v } none

/-! ### mesh objects -/

/-- the abstract methods of `meshes/mesh_coefficients.py:75-97`. -/
structure Hooks where
  setupArgs : Except Err Unit
  name : Except Err String
  create : Noise.World → Except Err (List ℝ × Noise.World)

/-- the constructor arguments (`meshes/mesh_coefficients.py:24-33`) and the attributes of the mesh that are used. -/
structure Settings where
  meshName : String
  zoom : Bool
  noise : Option ℚ := none
  region : Bool := false

/-- the attributes after construction. -/
structure Obj where
  name : String
  coefficients : List ℝ
  unnoised : Option (List ℝ)
  snr : Option ℝ

/-- `meshes/mesh_coefficients.py:66-73`, `_add_details_to_name`. -/
def addDetails (limDen : ℚ → ℚ) (s : Settings) (name : String) : String :=
  let name := if s.region && !Functions.contains "slepian" s.meshName then name ++ "_region" else name
  let name := match s.noise with
    | some n => name ++ Strings.filenameArgs limDen n "noise"
    | none => name
  if s.zoom then name ++ "_zoom" else name

/-- A harmonic function on a mesh: `meshes/mesh_coefficients.py:59-64` with `meshes/mesh_harmonic_coefficients.py:22-33`. -/
noncomputable def meshFunction (limDen : ℚ → ℚ) (normals : ℕ → ℕ → ℝ) (h : Hooks) (s : Settings) (w : Noise.World) :
    Except Err (Obj × Noise.World) := do
  h.setupArgs
  let name ← h.name
  let (c, w₁) ← h.create w
  let name := addDetails limDen s name
  match s.noise with
  | none => return (⟨name, c, none, none⟩, w₁)
  | some snrIn =>
    let signal : List ℂ := c.map fun (x : ℝ) => (x : ℂ)
    let (n, w₂) ← Noise.createMeshNoise normals signal (snrIn : ℝ) w₁
    let snr := Noise.computeSnr signal (n.map fun (x : ℝ) => (x : ℂ))
    let c' ← broadcast (· + ·) c n
    return (⟨name, c', some c, some snr⟩, w₂)

end Sleplet.Ranks
