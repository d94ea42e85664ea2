import Verif.Model.Region
import Verif.Model.SlepianTransform
import Verif.Model.MeshTransform

/-!
Integration on the sphere: `_integration_methods.py`, the area of a mask (`slepian_arbitrary.py:58-62`), the Shannon
number of a mesh region (`_slepian_arbitrary_methods.py:37-42`).

Sample positions of `ssht.sample_positions(L, Method="MWSS")`: `L + 1` colatitudes `πt/L` and `2L` longitudes `πp/L`.
-/
namespace Sleplet.Integration

open Real

/-- colatitudes of the MWSS grid (external, `ssht_sampling_mw_ss_t2theta`). -/
noncomputable def thetas (L : ℕ) : List ℝ := (List.range (L + 1)).map fun t : ℕ => 2 * (t : ℝ) * π / (2 * (L : ℝ))

/-- longitudes of the MWSS grid (external, `ssht_sampling_mw_ss_p2phi`). -/
noncomputable def phis (L : ℕ) : List ℝ := (List.range (2 * L)).map fun p : ℕ => 2 * (p : ℝ) * π / (2 * (L : ℝ))

/-- `np.ediff1d`. -/
noncomputable def ediff1d (xs : List ℝ) : List ℝ := List.zipWith (fun a b => b - a) xs xs.tail

/-- `.mean()`.  Simplification: nan for an empty array. -/
noncomputable def mean (xs : List ℝ) : ℝ := xs.sum / xs.length

/-- the samples of bandlimit `L`. -/
abbrev Grid (L : ℕ) := Fin (L + 1) × Fin (2 * L)

/-- the colatitude of a sample. -/
noncomputable def theta {L : ℕ} (x : Grid L) : ℝ := (thetas L).getD x.1 0

/-- the longitude of a sample. -/
noncomputable def phi {L : ℕ} (x : Grid L) : ℝ := (phis L).getD x.2 0

/-- `_integration_methods.py:12-21`, `calc_integration_weight`. -/
noncomputable def weight (L : ℕ) (x : Grid L) : ℝ := sin (theta x) * mean (ediff1d (thetas L)) * mean (ediff1d (phis L))

/-- `_integration_methods.py:64-66`, `_multiply_args`: `functools.reduce` of products; `TypeError` without arguments. -/
def multiplyArgs {X K : Type} [Mul K] : List (X → K) → Except Err (X → K)
  | [] => .error .typeError
  | f :: fs => .ok (fs.foldl (fun a b => fun x => a x * b x) f)

/-- `_integration_methods.py:24-30`, `integrate_whole_sphere`, any number of functions. -/
noncomputable def wholeSphere {X : Type} [Fintype X] (w : X → ℝ) (fs : List (X → ℂ)) : Except Err ℂ := do
  let m ← multiplyArgs fs
  return ∑ x, m x * (w x : ℂ)

/-- `_integration_methods.py:33-40`, `integrate_region_sphere`; the mask holds numbers (Booleans count as 0 or 1). -/
noncomputable def regionSphere {X : Type} [Fintype X] (mask w : X → ℝ) (fs : List (X → ℂ)) : Except Err ℂ := do
  let m ← multiplyArgs fs
  return ∑ x, m x * (w x : ℂ) * (mask x : ℂ)

/-- `_integration_methods.py:43-50`, `integrate_whole_mesh` (real fields). -/
noncomputable def wholeMesh {V : Type} [Fintype V] (fs : List (V → ℝ)) : Except Err ℝ := do
  let m ← multiplyArgs fs
  return ∑ v, m v

/-- `_integration_methods.py:53-61`, `integrate_region_mesh` (real fields). -/
noncomputable def regionMesh {V : Type} [Fintype V] (mask : V → Bool) (fs : List (V → ℝ)) : Except Err ℝ := do
  let m ← multiplyArgs fs
  return ∑ v, m v * (if mask v then 1 else 0)

/-- `slepian_arbitrary.py:58-62`, `_calculate_area`, with the grid of bandlimit `2L` (lines 25, 46). -/
noncomputable def maskArea (L : ℕ) (mask : Grid (2 * L) → Bool) : ℝ :=
  ∑ x, (if mask x then 1 else 0) * weight (2 * L) x

/-- `_slepian_arbitrary_methods.py:37-42`, `compute_mesh_shannon`, for a mesh with vertices `V` (at least one; none gives
`ValueError` from rounding nan) and `K` basis functions. -/
noncomputable def meshShannon {V : Type} [Fintype V] (region : V → Bool) (K : ℕ) : ℤ :=
  Py.round (((Finset.univ.filter fun v => region v = true).card : ℝ) / (Fintype.card V : ℝ) * (K : ℝ))

end Sleplet.Integration
