import Mathlib.Data.List.Dedup
import Mathlib.Data.Real.Basic
import Verif.Model.Common

/-!
Reading a mesh: `_mesh_methods.py:114-121`.

`igl.read_triangle_mesh` is given, `igl.upsample` (external) is written out: every face is cut into four at the midpoints of its edges.
Simplification: edges are numbered by their first appearance, also where more than two faces meet.
-/
namespace Sleplet.MeshRead

/-- what `igl.read_triangle_mesh` and `igl.upsample` return: the positions of the vertices and the corners of the faces. -/
structure TriMesh where
  vertices : List (ℝ × ℝ × ℝ)
  faces : List (ℕ × ℕ × ℕ)

/-- an edge without its direction. -/
def edge (a b : ℕ) : ℕ × ℕ := (min a b, max a b)

/-- the edges of a face in the order of `igl::triangle_triangle_adjacency`. -/
def faceEdges : ℕ × ℕ × ℕ → List (ℕ × ℕ)
  | (a, b, c) => [edge a b, edge b c, edge c a]

/-- all edges, each once, by first appearance. -/
def edges (faces : List (ℕ × ℕ × ℕ)) : List (ℕ × ℕ) := (faces.flatMap faceEdges).reverse.dedup.reverse

/-- position of a vertex. -/
def TriMesh.pos (m : TriMesh) (v : ℕ) : ℝ × ℝ × ℝ := m.vertices.getD v 0

noncomputable def midpoint (p q : ℝ × ℝ × ℝ) : ℝ × ℝ × ℝ := ((p.1 + q.1) / 2, (p.2.1 + q.2.1) / 2, (p.2.2 + q.2.2) / 2)

/-- number of the new vertex on an edge. -/
def TriMesh.mid (m : TriMesh) (a b : ℕ) : ℕ := m.vertices.length + (edges m.faces).idxOf (edge a b)

/-- the four parts of a face. -/
def TriMesh.parts (m : TriMesh) : ℕ × ℕ × ℕ → List (ℕ × ℕ × ℕ)
  | (a, b, c) => [(a, m.mid a b, m.mid c a), (b, m.mid b c, m.mid a b), (m.mid a b, m.mid b c, m.mid c a), (m.mid b c, c, m.mid c a)]

/-- one subdivision. -/
noncomputable def subdivide (m : TriMesh) : TriMesh where
  vertices := m.vertices ++ (edges m.faces).map fun e => midpoint (m.pos e.1) (m.pos e.2)
  faces := m.faces.flatMap m.parts

/-- `igl.upsample(vertices, faces, number_of_subdivs=n)`. -/
noncomputable def upsample : ℕ → TriMesh → TriMesh
  | 0, m => m
  | n + 1, m => upsample n (subdivide m)

/-- `_mesh_methods.py:114-121`, `read_mesh`: the settings `FILENAME` and `UPSAMPLE`; `read` is `igl.read_triangle_mesh` on the file in the
data directory of the package. -/
noncomputable def readMesh (read : String → Except Err TriMesh) (filename : String) (subdivisions : ℕ) : Except Err TriMesh := do
  let m ← read ("meshes_polygons_" ++ filename)
  return upsample subdivisions m

end Sleplet.MeshRead
