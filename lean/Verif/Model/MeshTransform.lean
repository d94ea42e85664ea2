import Mathlib.Analysis.SpecialFunctions.Pow.Real
import Verif.Model.NumPy
import Verif.Model.SlepianTransform

/-!
Transforms on a mesh: `_integration_methods.py:43-61`, `harmonic_methods.py:134-173`, `_mesh_methods.py:132-148`,
`meshes/_mesh_slepian_decomposition.py`, `slepian_methods.py:171-231`.

Fields are real functions on a finite vertex set `V`.
-/
namespace Sleplet.MeshT

open Sleplet.Transform (Method)

variable {V : Type} [Fintype V]

/-- `_integration_methods.py:43-50`, `integrate_whole_mesh` of two fields. -/
noncomputable def integrateWholeMesh (f g : V → ℝ) : ℝ := ∑ v, f v * g v

/-- `_integration_methods.py:53-61`, `integrate_region_mesh` of two fields; a Boolean counts as 0 or 1. -/
noncomputable def integrateRegionMesh (mask : V → Bool) (f g : V → ℝ) : ℝ :=
  ∑ v, f v * g v * (if mask v then 1 else 0)

/-- `_mesh_methods.py:132-148`, `_orthonormalise_basis_functions`: divide each function by the square root of its
integral squared.  Simplification: NumPy gives nan for a zero function, here it stays 0. -/
noncomputable def orthonormalise (basis : List (V → ℝ)) : List (V → ℝ) :=
  basis.map fun phi => fun v => phi v / Real.sqrt (integrateWholeMesh phi phi)

/-- `harmonic_methods.py:134-156`, `mesh_forward`: `u_i = zeros(K)` with `K` the number of mesh eigenvalues, then one
entry per basis function; writing past the end raises `IndexError`. -/
noncomputable def meshForward (K : ℕ) (basis : List (V → ℝ)) (u : V → ℝ) : Except Err (List ℝ) :=
  if basis.length ≤ K then
    .ok (basis.map (fun phi => integrateWholeMesh u phi) ++ List.replicate (K - basis.length) 0)
  else .error .indexError

omit [Fintype V] in
/-- `harmonic_methods.py:159-173`, `mesh_inverse`: `(u_i[:, newaxis] * basis).sum(axis=0)`. -/
noncomputable def meshInverse (basis : List (V → ℝ)) (ui : List ℝ) : Except Err (V → ℝ) := do
  let terms ← NumPy.broadcast (fun (c : ℝ) (phi : V → ℝ) => fun v => c * phi v) ui basis
  return fun v => (terms.map fun t => t v).sum

/-- `_mask_methods.py:133-140`, `ensure_masked_bandlimit_mesh_signal`: inverse, zero outside the region, forward. -/
noncomputable def maskedBandlimited (K : ℕ) (basis : List (V → ℝ)) (region : V → Bool) (ui : List ℝ) :
    Except Err (List ℝ) := do
  let field ← meshInverse basis ui
  meshForward K basis fun v => if region v then field v else 0

/-- The attributes of a `MeshSlepian` that the transforms use: `numBasis` is `mesh.number_basis_functions`. -/
structure MeshSlepian (V : Type) where
  numBasis : ℕ
  basis : List (V → ℝ)
  region : V → Bool
  N : ℕ
  evals : List ℝ
  evecs : List (List ℝ)

/-- arguments of the decomposition (`_mesh_slepian_decomposition.py:19-24`). -/
structure Inputs (V : Type) where
  u : Option (V → ℝ) := none
  ui : Option (List ℝ) := none
  mask : Bool := false

/-- `_mesh_slepian_decomposition.py:99-116`, `_detect_method`. -/
def detectMethod (hasU hasUi mask : Bool) : Except Err Method :=
  if hasUi then .ok .harmonicSum
  else if hasU then
    if mask then .ok .integrateRegion else .ok .integrateSphere
  else .error .runtimeError

/-- `_mesh_slepian_decomposition.py:118-128`, `_validate_rank`. -/
def validateRank (numBasis : ℕ) (rank : ℤ) : Except Err Unit :=
  if rank < 0 then .error .valueError
  else if rank ≥ numBasis then .error .valueError
  else .ok ()

omit [Fintype V] in
/-- `_mesh_slepian_decomposition.py:91-97`, `_harmonic_sum`. -/
noncomputable def harmonicSum (ms : MeshSlepian V) (ui : List ℝ) (rank : ℕ) : Except Err ℝ := do
  let row ← NumPy.item ms.evecs rank
  let prod ← NumPy.broadcast (· * ·) ui row
  return prod.sum

/-- `_mesh_slepian_decomposition.py:74-89`, `_integrate_mesh`. -/
noncomputable def integrateMesh (ms : MeshSlepian V) (u : V → ℝ) (rank : ℕ) : Except Err ℝ := do
  let row ← NumPy.item ms.evecs rank
  let sp ← meshInverse ms.basis row
  return integrateWholeMesh u sp

/-- `_mesh_slepian_decomposition.py:54-72`, `_integrate_region`. -/
noncomputable def integrateRegionMethod (ms : MeshSlepian V) (u : V → ℝ) (rank : ℕ) : Except Err ℝ := do
  let row ← NumPy.item ms.evecs rank
  let sp ← meshInverse ms.basis row
  let e ← NumPy.item ms.evals rank
  return integrateRegionMesh ms.region u sp / e

/-- `_mesh_slepian_decomposition.py:29-42`, `decompose`, with the method chosen at construction (line 27). -/
noncomputable def decompose (ms : MeshSlepian V) (inp : Inputs V) (rank : ℤ) : Except Err ℝ := do
  let method ← detectMethod inp.u.isSome inp.ui.isSome inp.mask
  validateRank ms.numBasis rank
  match method, inp.ui, inp.u with
  | .harmonicSum, some ui, _ => harmonicSum ms ui rank.toNat
  | .integrateSphere, _, some u => integrateMesh ms u rank.toNat
  | .integrateRegion, _, some u => integrateRegionMethod ms u rank.toNat
  | _, _, _ => .error .valueError

/-- `_mesh_slepian_decomposition.py:44-52`, `decompose_all`. -/
noncomputable def decomposeAll (ms : MeshSlepian V) (inp : Inputs V) : List ℕ → Except Err (List ℝ)
  | [] => .ok []
  | r :: rs => do
    let c ← decompose ms inp r
    let cs ← decomposeAll ms inp rs
    return c :: cs

/-- `slepian_methods.py:171-199`, `slepian_mesh_forward`. -/
noncomputable def slepianMeshForward (ms : MeshSlepian V) (inp : Inputs V) (nCoeffs : Option ℕ) : Except Err (List ℝ) := do
  let _ ← detectMethod inp.u.isSome inp.ui.isSome inp.mask
  decomposeAll ms inp (List.range (nCoeffs.getD ms.N))

omit [Fintype V] in
/-- `slepian_methods.py:221-231`, `_compute_mesh_s_p_pixel`. -/
noncomputable def computeSp (ms : MeshSlepian V) : List ℕ → Except Err (List (V → ℝ))
  | [] => .ok []
  | p :: ps => do
    let row ← NumPy.item ms.evecs p
    let s ← meshInverse ms.basis row
    let r ← computeSp ms ps
    return s :: r

omit [Fintype V] in
/-- `slepian_methods.py:202-218`, `slepian_mesh_inverse`. -/
noncomputable def slepianMeshInverse (ms : MeshSlepian V) (fp : List ℝ) : Except Err (V → ℝ) := do
  let sp ← computeSp ms (List.range ms.N)
  let terms ← NumPy.broadcast (fun (c : ℝ) (s : V → ℝ) => fun v => c * s v) (fp.take ms.N) sp
  return fun v => (terms.map fun t => t v).sum

end Sleplet.MeshT
