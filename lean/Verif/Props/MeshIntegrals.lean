import Mathlib.Algebra.BigOperators.Fin
import Mathlib.Tactic.IntervalCases
import Verif.Model.Integration
import Verif.Props.CacheOrders
import Verif.Props.MeshRead

/-!
C109: sums over the vertices of a mesh and integrals over its surface.
-/
namespace Sleplet.Props

open Sleplet.MeshRead

/-- the integral over the surface of the function that has the values `f` at the vertices and is linear on every face. -/
noncomputable def surfaceIntegral (m : TriMesh) (f : ℕ → ℝ) : ℝ :=
  (m.faces.map fun t => faceArea m t * ((f t.1 + f t.2.1 + f t.2.2) / 3)).sum

/-- the part of the area that belongs to a vertex: a third of the faces around it. -/
noncomputable def vertexArea (m : TriMesh) (v : ℕ) : ℝ := surfaceIntegral m fun u => if u = v then 1 else 0

/-- the values at the vertices of the refined mesh of the function that is linear on every face. -/
noncomputable def refined (m : TriMesh) (f : ℕ → ℝ) (v : ℕ) : ℝ :=
  if v < m.vertices.length then f v
  else match (edges m.faces)[v - m.vertices.length]? with
    | some e => (f e.1 + f e.2) / 2
    | none => 0

private theorem refined_mid (m : TriMesh) (f : ℕ → ℝ) {a b : ℕ} (h : edge a b ∈ edges m.faces) : refined m f (m.mid a b) = (f a + f b) / 2 := by
  have hlt := List.idxOf_lt_length_of_mem h
  unfold refined TriMesh.mid
  rw [if_neg (by omega), Nat.add_sub_cancel_left, List.getElem?_eq_getElem hlt, List.getElem_idxOf hlt]
  unfold edge
  rcases le_total a b with hab | hab
  · simp only [min_eq_left hab, max_eq_right hab]
  · simp only [min_eq_right hab, max_eq_left hab]
    rw [add_comm]

/-- C109, the quantity meant: the integral of a function that is linear on the faces does not depend on the refinement. -/
theorem C109_surface_integral (m : TriMesh) (h : CornersExist m) (f : ℕ → ℝ) :
    surfaceIntegral (subdivide m) (refined m f) = surfaceIntegral m f ∧ surfaceIntegral m (fun _ => 1) = meshArea m ∧
    surfaceIntegral m f = ∑ v ∈ Finset.range m.vertices.length, f v * vertexArea m v := by
  refine ⟨?_, ?_, ?_⟩
  · unfold surfaceIntegral
    conv_lhs => simp only [subdivide]
    rw [List.map_flatMap, List.flatMap_def, List.sum_flatten, List.map_map]
    congr 1
    refine List.map_congr_left fun t ht => ?_
    rw [Function.comp_apply]
    have := parts_area m h t ht
    obtain ⟨a, b, c⟩ := t
    obtain ⟨h1, h2, h3⟩ := h _ ht
    obtain ⟨e1, e2, e3⟩ := edges_of_face m ht
    have r1 : refined m f a = f a := if_pos h1
    have r2 : refined m f b = f b := if_pos h2
    have r3 : refined m f c = f c := if_pos h3
    simp only [TriMesh.parts, List.mem_cons, List.not_mem_nil, or_false, forall_eq_or_imp, forall_eq] at this
    obtain ⟨t1, t2, t3, t4⟩ := this
    simp only [subdivide] at t1 t2 t3 t4
    simp only [TriMesh.parts, List.map_cons, List.map_nil, List.sum_cons, List.sum_nil, t1, t2, t3, t4, r1, r2, r3, refined_mid m f e1,
      refined_mid m f e2, refined_mid m f e3]
    ring
  · unfold surfaceIntegral meshArea
    congr 1
    refine List.map_congr_left fun t _ => ?_
    norm_num
  · unfold vertexArea surfaceIntegral
    have hmem : ∀ t ∈ m.faces, t.1 < m.vertices.length ∧ t.2.1 < m.vertices.length ∧ t.2.2 < m.vertices.length := h
    generalize m.faces = fs at hmem
    induction fs with
    | nil => simp
    | cons t ts ih =>
      simp only [List.map_cons, List.sum_cons, mul_add, Finset.sum_add_distrib]
      rw [ih fun s hs => hmem s (List.mem_cons_of_mem _ hs)]
      congr 1
      obtain ⟨h1, h2, h3⟩ := hmem t List.mem_cons_self
      have key : ∀ u, u < m.vertices.length → ∑ v ∈ Finset.range m.vertices.length, f v * (if u = v then (1 : ℝ) else 0) = f u := by
        intro u hu
        rw [Finset.sum_eq_single u]
        · simp
        · intro v _ hv
          rw [if_neg fun h => hv h.symm, mul_zero]
        · intro hn
          exact absurd (Finset.mem_range.2 hu) hn
      have : ∀ v, f v * (faceArea m t * (((if t.1 = v then (1 : ℝ) else 0) + (if t.2.1 = v then 1 else 0) + (if t.2.2 = v then 1 else 0)) / 3)) =
          faceArea m t / 3 * (f v * (if t.1 = v then 1 else 0) + f v * (if t.2.1 = v then 1 else 0) + f v * (if t.2.2 = v then 1 else 0)) := by
        intro v
        ring
      simp only [this, ← Finset.mul_sum, Finset.sum_add_distrib, key _ h1, key _ h2, key _ h3]
      ring

/-- C109 is violated: refining a mesh changes the sum over the vertices of the constant one, by one for every edge, although the surface and
its area are the same. -/
theorem C109_refine_violation (m : TriMesh) (h : CornersExist m) (hf : m.faces ≠ []) :
    Integration.wholeMesh [fun _ : Fin m.vertices.length => (1 : ℝ)] = .ok (m.vertices.length : ℝ) ∧
    (∃ E : ℕ, 0 < E ∧ Integration.wholeMesh [fun _ : Fin (subdivide m).vertices.length => (1 : ℝ)] = .ok ((m.vertices.length : ℝ) + E)) ∧
    surface (subdivide m) = surface m ∧ meshArea (subdivide m) = meshArea m := by
  have hone : ∀ k : ℕ, Integration.wholeMesh [fun _ : Fin k => (1 : ℝ)] = .ok (k : ℝ) := by
    intro k
    simp [Integration.wholeMesh, Integration.multiplyArgs, bind, Except.bind, pure, Except.pure]
  refine ⟨hone _, ⟨(edges m.faces).length, ?_, ?_⟩, (C108_surface 1 m h).1, (C108_area 1 m h).1⟩
  · obtain ⟨t, ht⟩ := List.exists_mem_of_ne_nil _ hf
    exact List.length_pos_of_mem (edges_of_face m (a := t.1) (b := t.2.1) (c := t.2.2) ht).1
  · rw [hone]
    simp [subdivide]

/-- C109, what holds: on a mesh all of whose vertices have the same part of the area, the sum over the vertices is the surface integral up to
a factor common to all functions, and so is the sum over a region. -/
theorem C109_uniform_partial (m : TriMesh) (h : CornersExist m) (f : ℕ → ℝ) (a : ℝ) (ha : ∀ v < m.vertices.length, vertexArea m v = a)
    (region : ℕ → Bool) :
    (∃ s, Integration.wholeMesh [fun v : Fin m.vertices.length => f v] = .ok s ∧ a * s = surfaceIntegral m f) ∧
    (∃ s, Integration.regionMesh (fun v : Fin m.vertices.length => region v) [fun v : Fin m.vertices.length => f v] = .ok s ∧
      a * s = surfaceIntegral m fun v => if region v then f v else 0) ∧
    m.vertices.length * a = meshArea m := by
  have hsum : ∀ g : ℕ → ℝ, a * ∑ v : Fin m.vertices.length, g v = surfaceIntegral m g := by
    intro g
    rw [(C109_surface_integral m h g).2.2, Finset.mul_sum, Finset.sum_range]
    refine Finset.sum_congr rfl fun v _ => ?_
    rw [ha v v.2, mul_comm]
  refine ⟨⟨∑ v : Fin m.vertices.length, f v, rfl, hsum f⟩, ⟨∑ v : Fin m.vertices.length, f v * (if region v then 1 else 0), rfl, ?_⟩, ?_⟩
  · rw [hsum fun v => f v * (if region v then 1 else 0)]
    congr 1
    funext v
    split_ifs <;> simp
  · rw [← (C109_surface_integral m h fun _ => 1).2.1, ← hsum fun _ => 1]
    simp [mul_comm]

/-- the hypotheses are met by a triangle: each vertex has a third of its area. -/
example : ∃ m : TriMesh, CornersExist m ∧ m.faces ≠ [] ∧ ∀ v < m.vertices.length, vertexArea m v = 1 / 6 := by
  refine ⟨⟨[(0, 0, 0), (1, 0, 0), (0, 1, 0)], [(0, 1, 2)]⟩, ?_, by simp, ?_⟩
  · intro f hf
    simp at hf
    subst hf
    decide
  · intro v hv
    have hv : v < 3 := hv
    have ha : faceArea ⟨[(0, 0, 0), (1, 0, 0), (0, 1, 0)], [(0, 1, 2)]⟩ (0, 1, 2) = 1 / 2 := by
      simp [faceArea, triangleArea, sideProduct, TriMesh.pos]
    simp only [vertexArea, surfaceIntegral, List.map_cons, List.map_nil, List.sum_cons, List.sum_nil, ha]
    interval_cases v <;> norm_num

/-- a square of two triangles. -/
private noncomputable def square : TriMesh := ⟨[(0, 0, 0), (1, 0, 0), (0, 1, 0), (1, 1, 0)], [(0, 1, 2), (1, 3, 2)]⟩

private theorem square_ok : CornersExist square := by
  intro f hf
  simp [square] at hf
  rcases hf with rfl | rfl <;> simp [square]

private theorem square_areas : faceArea square (0, 1, 2) = 1 / 2 ∧ faceArea square (1, 3, 2) = 1 / 2 := by
  constructor <;> simp [faceArea, triangleArea, sideProduct, TriMesh.pos, square] <;> norm_num

/-- C109 is violated on one mesh: functions with different surface integrals have the same sum over the vertices. -/
theorem C109_weights_violation : ∃ (m : TriMesh) (f g : ℕ → ℝ), CornersExist m ∧
    Integration.wholeMesh [fun v : Fin m.vertices.length => f v] = .ok 1 ∧
    Integration.wholeMesh [fun v : Fin m.vertices.length => g v] = .ok 1 ∧
    surfaceIntegral m f = 1 / 6 ∧ surfaceIntegral m g = 1 / 3 := by
  refine ⟨square, fun v => if v = 0 then 1 else 0, fun v => if v = 1 then 1 else 0, square_ok, ?_, ?_, ?_, ?_⟩
  · have : Integration.wholeMesh [fun v : Fin 4 => if (v : ℕ) = 0 then (1 : ℝ) else 0] = .ok 1 := by
      simp [Integration.wholeMesh, Integration.multiplyArgs, bind, Except.bind, pure, Except.pure]
    exact this
  · have : Integration.wholeMesh [fun v : Fin 4 => if (v : ℕ) = 1 then (1 : ℝ) else 0] = .ok 1 := by
      simp only [Integration.wholeMesh, Integration.multiplyArgs, List.foldl, bind, Except.bind, pure, Except.pure, Fin.sum_univ_four]
      norm_num
    exact this
  · have := square_areas
    simp [surfaceIntegral, square] at this ⊢
    rw [this.1]; norm_num
  · have := square_areas
    simp [surfaceIntegral, square] at this ⊢
    rw [this.1, this.2]; norm_num

/-- two triangles with a common edge, and a box around the first. -/
private noncomputable def pair : TriMesh := ⟨[(0, 0, 0), (1, 0, 0), (0, 1, 0), (1, -1, 0)], [(0, 1, 2), (0, 3, 1)]⟩

private def box : Region.Box := ⟨0, 1, 0, 1, 0, 0⟩

private theorem pair_ok : CornersExist pair := by
  intro f hf
  simp [pair] at hf
  rcases hf with rfl | rfl <;> simp [pair]

private theorem pair_refined : (subdivide pair).vertices = [(0, 0, 0), (1, 0, 0), (0, 1, 0), (1, -1, 0), (1 / 2, 0, 0), (1 / 2, 1 / 2, 0),
    (0, 1 / 2, 0), (1 / 2, -1 / 2, 0), (1, -1 / 2, 0)] := by
  have he : edges pair.faces = [(0, 1), (1, 2), (0, 2), (0, 3), (1, 3)] := by
    have : edges [(0, 1, 2), (0, 3, 1)] = [(0, 1), (1, 2), (0, 2), (0, 3), (1, 3)] := by decide
    exact this
  simp only [subdivide, he, List.map_cons, List.map_nil]
  simp [pair, TriMesh.pos, MeshRead.midpoint]

/-- the test of `create_mesh_region` at the vertices of a mesh. -/
noncomputable def inBox (b : Region.Box) (m : TriMesh) (v : Fin m.vertices.length) : Bool :=
  Region.createMeshRegion b (m.pos v).1 (m.pos v).2.1 (m.pos v).2.2

/-- C109 is violated by the Shannon number of a region: here the region is one of two faces of the same area, so half of the surface, and of
two basis functions one belongs to it; the number is two, and one after refining the mesh. -/
theorem C109_shannon_violation : ∃ (m : TriMesh) (b : Region.Box) (t u : ℕ × ℕ × ℕ), CornersExist m ∧ m.faces = [t, u] ∧
    faceArea m t = faceArea m u ∧ 0 < faceArea m t ∧
    (∀ x ∈ facePoints m t, Region.createMeshRegion b x.1 x.2.1 x.2.2 = true) ∧
    (∀ x ∈ facePoints m u, Region.createMeshRegion b x.1 x.2.1 x.2.2 = true → x ∈ facePoints m t) ∧
    Integration.meshShannon (inBox b m) 2 = 2 ∧ Integration.meshShannon (inBox b (subdivide m)) 2 = 1 := by
  have hv : ∀ (vs : List (ℝ × ℝ × ℝ)) (k c : ℕ) (m : TriMesh) (hm : m.vertices = vs) (hk : vs.length = k)
      (hc : (vs.map fun p => if Region.createMeshRegion box p.1 p.2.1 p.2.2 = true then 1 else 0).sum = c),
      Integration.meshShannon (inBox box m) 2 = Py.round ((c : ℝ) / (k : ℝ) * 2) := by
    rintro vs k c ⟨vs', fs⟩ rfl rfl rfl
    unfold Integration.meshShannon
    congr 3
    · congr 1
      rw [Finset.card_filter, ← Fin.sum_univ_fun_getElem]
      refine Finset.sum_congr rfl fun v _ => ?_
      have : (⟨vs', fs⟩ : TriMesh).pos v = vs'[(v : ℕ)] := by
        simp [TriMesh.pos, List.getD_eq_getElem?_getD]
      simp only [inBox, this]
    · simp
  refine ⟨pair, box, (0, 1, 2), (0, 3, 1), pair_ok, rfl, ?_, ?_, ?_, ?_, ?_, ?_⟩
  · simp [faceArea, triangleArea, sideProduct, TriMesh.pos, pair]
  · simp [faceArea, triangleArea, sideProduct, TriMesh.pos, pair]
  · rintro x ⟨u, v, w, hu, hv, hw, hs, rfl⟩
    rw [C37_mesh_region]
    simp [pair, TriMesh.pos, box]
    refine ⟨⟨?_, ?_⟩, ?_, ?_⟩ <;> linarith
  · rintro x ⟨u, v, w, hu, hv, hw, hs, rfl⟩ hx
    rw [C37_mesh_region] at hx
    simp [pair, TriMesh.pos, box] at hx
    have hv0 : v = 0 := by linarith [hx.2.1]
    subst hv0
    exact ⟨u, w, 0, hu, hw, le_rfl, by linarith, by simp [pair, TriMesh.pos]⟩
  · rw [hv _ 4 3 pair rfl rfl (by simp [pair, Region.createMeshRegion, box]; norm_num)]
    have h1 : ⌊(3 : ℝ) / 2⌋ = 1 := by rw [Int.floor_eq_iff]; norm_num
    have h2 : ((3 : ℕ) : ℝ) / ((4 : ℕ) : ℝ) * 2 = 3 / 2 := by norm_num
    rw [h2, Py.round, ← Int.self_sub_floor, h1]
    norm_num
  · rw [hv _ 9 6 (subdivide pair) pair_refined rfl (by simp [Region.createMeshRegion, box]; norm_num)]
    apply round_near
    norm_num

end Sleplet.Props
