import Mathlib.Analysis.SpecialFunctions.Pow.Real
import Verif.Model.MeshTransform

/-!
The basis functions of a mesh: `_mesh_methods.py:65-148` when nothing is cached (the files are in `Verif.Model.MeshCache`).

The vertices are numbered; positions are triples of real numbers.  `igl.cotmatrix` is written out, `scipy.sparse.linalg.eigsh` is given.
-/
namespace Sleplet.MeshLaplacian

variable {n : ℕ}

/-- the square of the distance of two points (`igl::squared_edge_lengths`). -/
def sqDist (p q : ℝ × ℝ × ℝ) : ℝ := (p.1 - q.1) ^ 2 + (p.2.1 - q.2.1) ^ 2 + (p.2.2 - q.2.2) ^ 2

/-- twice the area of a triangle (`igl::doublearea`), here from the sides by Heron's formula. -/
noncomputable def doubleArea (p q r : ℝ × ℝ × ℝ) : ℝ :=
  √(4 * sqDist p q * sqDist p r - (sqDist p q + sqDist p r - sqDist q r) ^ 2) / 2

/-- half the cotangent of the angle at `r` (`igl::cotmatrix_entries`).  Simplification: a triangle of area zero gives 0 instead of an infinity
or nan. -/
noncomputable def halfCot (p q r : ℝ × ℝ × ℝ) : ℝ := (sqDist p r + sqDist q r - sqDist p q) / doubleArea p q r / 4

/-- the four entries of `igl::cotmatrix` for an edge. -/
def edgeEntries (a b : Fin n) (c : ℝ) (u v : Fin n) : ℝ :=
  (if u = a ∧ v = b then c else 0) + (if u = b ∧ v = a then c else 0) + (if u = a ∧ v = a then -c else 0) + (if u = b ∧ v = b then -c else 0)

/-- `igl.cotmatrix` (external): entries with the same indices are added up. -/
noncomputable def cotmatrix (vertices : Fin n → ℝ × ℝ × ℝ) (faces : List (Fin n × Fin n × Fin n)) (u v : Fin n) : ℝ :=
  (faces.map fun (i, j, k) =>
    edgeEntries j k (halfCot (vertices j) (vertices k) (vertices i)) u v +
    edgeEntries k i (halfCot (vertices k) (vertices i) (vertices j)) u v +
    edgeEntries i j (halfCot (vertices i) (vertices j) (vertices k)) u v).sum

/-- `_mesh_methods.py:124-129`, `_mesh_laplacian`. -/
noncomputable def meshLaplacian (vertices : Fin n → ℝ × ℝ × ℝ) (faces : List (Fin n × Fin n × Fin n)) (u v : Fin n) : ℝ :=
  -cotmatrix vertices faces u v

/-- `scipy.sparse.linalg.eigsh(matrix, k, which=…, sigma=…)` (external): eigenvalues and eigenvectors. -/
abbrev Eigsh (n : ℕ) := (Fin n → Fin n → ℝ) → (k : ℕ) → (which : String) → (sigma : ℝ) → Except Err (List ℝ × List (Fin n → ℝ))

/-- `_mesh_methods.py:65-111`, `mesh_eigendecomposition` if there are no files: the eigenvalues, the basis functions and their number. -/
noncomputable def meshEigendecomposition (eigsh : Eigsh n) (vertices : Fin n → ℝ × ℝ × ℝ) (faces : List (Fin n × Fin n × Fin n))
    (number : Option ℕ) : Except Err (List ℝ × List (Fin n → ℝ) × ℕ) := do
  let k := number.getD (n / 4)
  let (w, v) ← eigsh (meshLaplacian vertices faces) k "LM" 0
  return (w, MeshT.orthonormalise v, k)

end Sleplet.MeshLaplacian
