import Mathlib.Analysis.SpecialFunctions.Pow.Real
import Mathlib.Analysis.Convex.Combination
import Mathlib.Tactic.FieldSimp
import Mathlib.Tactic.FinCases
import Mathlib.Tactic.Linarith
import Mathlib.Tactic.Ring
import Verif.Model.MeshRead
import Verif.Model.Region

/-!
C108: refining a mesh keeps its vertices, its surface and its area.
-/
namespace Sleplet.Props

open Sleplet.MeshRead

/-- the corners of the faces are vertices. -/
def CornersExist (m : TriMesh) : Prop :=
  ∀ f ∈ m.faces, f.1 < m.vertices.length ∧ f.2.1 < m.vertices.length ∧ f.2.2 < m.vertices.length

/-- the points of a triangle. -/
def trianglePoints (p q r : ℝ × ℝ × ℝ) : Set (ℝ × ℝ × ℝ) :=
  {x | ∃ u v w : ℝ, 0 ≤ u ∧ 0 ≤ v ∧ 0 ≤ w ∧ u + v + w = 1 ∧ x = u • p + v • q + w • r}

/-- the points of a face. -/
def facePoints (m : TriMesh) (f : ℕ × ℕ × ℕ) : Set (ℝ × ℝ × ℝ) := trianglePoints (m.pos f.1) (m.pos f.2.1) (m.pos f.2.2)

/-- the points of the surface. -/
def surface (m : TriMesh) : Set (ℝ × ℝ × ℝ) := {x | ∃ f ∈ m.faces, x ∈ facePoints m f}

/-- scalar product of `q - p` and `r - p`. -/
def sideProduct (p q r : ℝ × ℝ × ℝ) : ℝ := (q.1 - p.1) * (r.1 - p.1) + (q.2.1 - p.2.1) * (r.2.1 - p.2.1) + (q.2.2 - p.2.2) * (r.2.2 - p.2.2)

/-- the area of a triangle. -/
noncomputable def triangleArea (p q r : ℝ × ℝ × ℝ) : ℝ := √(sideProduct p q q * sideProduct p r r - sideProduct p q r ^ 2) / 2

/-- the area of the face of a mesh. -/
noncomputable def faceArea (m : TriMesh) (f : ℕ × ℕ × ℕ) : ℝ := triangleArea (m.pos f.1) (m.pos f.2.1) (m.pos f.2.2)

/-- the area of a mesh. -/
noncomputable def meshArea (m : TriMesh) : ℝ := (m.faces.map (faceArea m)).sum

theorem midpoint_comm (p q : ℝ × ℝ × ℝ) : MeshRead.midpoint p q = MeshRead.midpoint q p := by
  unfold MeshRead.midpoint
  rw [add_comm p.1, add_comm p.2.1, add_comm p.2.2]

theorem mem_edges {faces : List (ℕ × ℕ × ℕ)} {e : ℕ × ℕ} : e ∈ edges faces ↔ ∃ f ∈ faces, e ∈ faceEdges f := by
  unfold edges
  simp only [List.mem_reverse, List.mem_dedup, List.mem_flatMap]

theorem nodup_edges (faces : List (ℕ × ℕ × ℕ)) : (edges faces).Nodup := by
  unfold edges
  exact List.nodup_reverse.2 (List.nodup_dedup _)

theorem pos_old (m : TriMesh) {v : ℕ} (h : v < m.vertices.length) : (subdivide m).pos v = m.pos v := by
  unfold TriMesh.pos subdivide
  simp only [List.getD_eq_getElem?_getD]
  rw [List.getElem?_append_left h]

theorem mid_lt (m : TriMesh) {a b : ℕ} (h : edge a b ∈ edges m.faces) : m.mid a b < (subdivide m).vertices.length := by
  unfold TriMesh.mid subdivide
  simp only [List.length_append, List.length_map]
  have := List.idxOf_lt_length_of_mem h
  omega

theorem pos_mid (m : TriMesh) {a b : ℕ} (h : edge a b ∈ edges m.faces) :
    (subdivide m).pos (m.mid a b) = MeshRead.midpoint (m.pos a) (m.pos b) := by
  have hlt := List.idxOf_lt_length_of_mem h
  have : (subdivide m).pos (m.mid a b) = MeshRead.midpoint (m.pos (edge a b).1) (m.pos (edge a b).2) := by
    conv_lhs => unfold TriMesh.pos subdivide TriMesh.mid
    simp only [List.getD_eq_getElem?_getD]
    rw [List.getElem?_append_right (by omega), Nat.add_sub_cancel_left, List.getElem?_map, List.getElem?_eq_getElem hlt,
      List.getElem_idxOf hlt]
    rfl
  rw [this]
  unfold edge
  rcases le_total a b with hab | hab
  · simp only [min_eq_left hab, max_eq_right hab]
  · simp only [min_eq_right hab, max_eq_left hab]
    exact midpoint_comm _ _

/-- the edges of a face. -/
theorem edges_of_face (m : TriMesh) {a b c : ℕ} (h : (a, b, c) ∈ m.faces) :
    edge a b ∈ edges m.faces ∧ edge b c ∈ edges m.faces ∧ edge c a ∈ edges m.faces := by
  refine ⟨mem_edges.2 ⟨_, h, ?_⟩, mem_edges.2 ⟨_, h, ?_⟩, mem_edges.2 ⟨_, h, ?_⟩⟩ <;> simp [faceEdges]

theorem cornersExist_subdivide (m : TriMesh) (h : CornersExist m) : CornersExist (subdivide m) := by
  rintro f hf
  simp only [subdivide, List.mem_flatMap] at hf
  obtain ⟨⟨a, b, c⟩, hm, hp⟩ := hf
  obtain ⟨h1, h2, h3⟩ := h _ hm
  obtain ⟨e1, e2, e3⟩ := edges_of_face m hm
  have l : m.vertices.length ≤ (subdivide m).vertices.length := by simp [subdivide]
  have m1 := mid_lt m e1
  have m2 := mid_lt m e2
  have m3 := mid_lt m e3
  simp only [TriMesh.parts, List.mem_cons, List.not_mem_nil, or_false] at hp
  simp only at h1 h2 h3
  rcases hp with rfl | rfl | rfl | rfl <;> refine ⟨?_, ?_, ?_⟩ <;> simp only <;> omega

/-- C108.  Refining keeps the vertices with their numbers; the new ones are the midpoints of the edges, one for each edge; every face is
replaced by four, whose corners exist. -/
theorem C108_subdivide (m : TriMesh) (h : CornersExist m) :
    m.vertices <+: (subdivide m).vertices ∧ (subdivide m).faces.length = 4 * m.faces.length ∧ CornersExist (subdivide m) ∧
    ∃ es : List (ℕ × ℕ), es.Nodup ∧
      (∀ a b, (a, b) ∈ es ↔ a ≤ b ∧ ∃ f ∈ m.faces, (a = f.1 ∧ b = f.2.1) ∨ (a = f.2.1 ∧ b = f.1) ∨ (a = f.2.1 ∧ b = f.2.2) ∨
        (a = f.2.2 ∧ b = f.2.1) ∨ (a = f.2.2 ∧ b = f.1) ∨ (a = f.1 ∧ b = f.2.2)) ∧
      (subdivide m).vertices.drop m.vertices.length = es.map fun e => (1 / 2 : ℝ) • (m.pos e.1 + m.pos e.2) := by
  refine ⟨List.prefix_append _ _, ?_, cornersExist_subdivide m h, edges m.faces, nodup_edges _, fun a b => ?_, ?_⟩
  · simp only [subdivide, List.length_flatMap]
    have : (m.faces.map fun f => (m.parts f).length) = m.faces.map fun _ => 4 := List.map_congr_left fun f _ => rfl
    rw [this, List.map_const', List.sum_replicate, smul_eq_mul, mul_comm]
  · rw [mem_edges]
    constructor
    · rintro ⟨⟨x, y, z⟩, hf, he⟩
      simp only [faceEdges, edge, List.mem_cons, List.not_mem_nil, or_false, Prod.mk.injEq] at he
      refine ⟨by omega, (x, y, z), hf, ?_⟩
      simp only
      omega
    · rintro ⟨hab, ⟨x, y, z⟩, hf, he⟩
      refine ⟨(x, y, z), hf, ?_⟩
      simp only [faceEdges, edge, List.mem_cons, List.not_mem_nil, or_false, Prod.mk.injEq]
      simp only at he
      omega
  · simp only [subdivide, List.drop_left]
    refine List.map_congr_left fun e _ => ?_
    unfold MeshRead.midpoint
    ext <;> simp <;> ring

/-- the positions of the corners of the parts of a face. -/
theorem parts_pos (m : TriMesh) (h : CornersExist m) {a b c : ℕ} (hf : (a, b, c) ∈ m.faces) :
    (subdivide m).pos a = m.pos a ∧ (subdivide m).pos b = m.pos b ∧ (subdivide m).pos c = m.pos c ∧
    (subdivide m).pos (m.mid a b) = (1 / 2 : ℝ) • (m.pos a + m.pos b) ∧ (subdivide m).pos (m.mid b c) = (1 / 2 : ℝ) • (m.pos b + m.pos c) ∧
    (subdivide m).pos (m.mid c a) = (1 / 2 : ℝ) • (m.pos c + m.pos a) := by
  obtain ⟨h1, h2, h3⟩ := h _ hf
  obtain ⟨e1, e2, e3⟩ := edges_of_face m hf
  have hm : ∀ p q, MeshRead.midpoint p q = (1 / 2 : ℝ) • (p + q) := by
    intro p q
    unfold MeshRead.midpoint
    ext <;> simp <;> ring
  refine ⟨pos_old m h1, pos_old m h2, pos_old m h3, ?_, ?_, ?_⟩
  · rw [pos_mid m e1, hm]
  · rw [pos_mid m e2, hm]
  · rw [pos_mid m e3, hm]

/-- a triangle is the union of its four parts. -/
theorem triangle_parts (p q r x : ℝ × ℝ × ℝ) :
    x ∈ trianglePoints p q r ↔
      x ∈ trianglePoints p ((1 / 2 : ℝ) • (p + q)) ((1 / 2 : ℝ) • (r + p)) ∨ x ∈ trianglePoints q ((1 / 2 : ℝ) • (q + r)) ((1 / 2 : ℝ) • (p + q)) ∨
      x ∈ trianglePoints ((1 / 2 : ℝ) • (p + q)) ((1 / 2 : ℝ) • (q + r)) ((1 / 2 : ℝ) • (r + p)) ∨
      x ∈ trianglePoints ((1 / 2 : ℝ) • (q + r)) r ((1 / 2 : ℝ) • (r + p)) := by
  constructor
  · rintro ⟨u, v, w, hu, hv, hw, hs, rfl⟩
    by_cases h1 : 1 / 2 ≤ u
    · refine .inl ⟨2 * u - 1, 2 * v, 2 * w, by linarith, by linarith, by linarith, by linarith, ?_⟩
      have : u = 1 - v - w := by linarith
      subst this
      ext <;> simp <;> ring
    by_cases h2 : 1 / 2 ≤ v
    · refine .inr (.inl ⟨2 * v - 1, 2 * w, 2 * u, by linarith, by linarith, by linarith, by linarith, ?_⟩)
      have : v = 1 - u - w := by linarith
      subst this
      ext <;> simp <;> ring
    by_cases h3 : 1 / 2 ≤ w
    · refine .inr (.inr (.inr ⟨2 * v, 2 * w - 1, 2 * u, by linarith, by linarith, by linarith, by linarith, ?_⟩))
      have : w = 1 - u - v := by linarith
      subst this
      ext <;> simp <;> ring
    · refine .inr (.inr (.inl ⟨1 - 2 * w, 1 - 2 * u, 1 - 2 * v, by linarith, by linarith, by linarith, by linarith, ?_⟩))
      have : w = 1 - u - v := by linarith
      subst this
      ext <;> simp <;> ring
  · rintro (⟨u, v, w, hu, hv, hw, hs, rfl⟩ | ⟨u, v, w, hu, hv, hw, hs, rfl⟩ | ⟨u, v, w, hu, hv, hw, hs, rfl⟩ | ⟨u, v, w, hu, hv, hw, hs, rfl⟩)
    · refine ⟨u + v / 2 + w / 2, v / 2, w / 2, by linarith, by linarith, by linarith, by linarith, ?_⟩
      ext <;> simp <;> ring
    · refine ⟨w / 2, u + v / 2 + w / 2, v / 2, by linarith, by linarith, by linarith, by linarith, ?_⟩
      ext <;> simp <;> ring
    · refine ⟨u / 2 + w / 2, u / 2 + v / 2, v / 2 + w / 2, by linarith, by linarith, by linarith, by linarith, ?_⟩
      ext <;> simp <;> ring
    · refine ⟨w / 2, u / 2, u / 2 + v + w / 2, by linarith, by linarith, by linarith, by linarith, ?_⟩
      ext <;> simp <;> ring

theorem facePoints_parts (m : TriMesh) (h : CornersExist m) (f : ℕ × ℕ × ℕ) (hf : f ∈ m.faces) (x : ℝ × ℝ × ℝ) :
    x ∈ facePoints m f ↔ ∃ g ∈ m.parts f, x ∈ facePoints (subdivide m) g := by
  obtain ⟨a, b, c⟩ := f
  obtain ⟨p1, p2, p3, p4, p5, p6⟩ := parts_pos m h hf
  unfold facePoints
  rw [triangle_parts]
  simp [TriMesh.parts, p1, p2, p3, p4, p5, p6]

private theorem cornersExist_upsample (n : ℕ) (m : TriMesh) (h : CornersExist m) : CornersExist (upsample n m) := by
  induction n generalizing m with
  | zero => exact h
  | succ n ih => exact ih _ (cornersExist_subdivide m h)

/-- C108.  The surface after any number of subdivisions is the surface before, point by point; every face lies in a face of the mesh that
was read, the vertices of which keep their numbers. -/
theorem C108_surface (n : ℕ) (m : TriMesh) (h : CornersExist m) :
    surface (upsample n m) = surface m ∧ m.vertices <+: (upsample n m).vertices ∧ (upsample n m).faces.length = 4 ^ n * m.faces.length ∧
    CornersExist (upsample n m) ∧ ∀ g ∈ (upsample n m).faces, ∃ f ∈ m.faces, facePoints (upsample n m) g ⊆ facePoints m f := by
  induction n generalizing m with
  | zero => exact ⟨rfl, List.prefix_rfl, by simp [upsample], h, fun g hg => ⟨g, hg, subset_rfl⟩⟩
  | succ n ih =>
    obtain ⟨i1, i2, i3, i4, i5⟩ := ih (subdivide m) (cornersExist_subdivide m h)
    obtain ⟨s1, s2, s3, -⟩ := C108_subdivide m h
    refine ⟨?_, s1.trans i2, ?_, i4, fun g hg => ?_⟩
    · rw [upsample, i1]
      ext x
      constructor
      · rintro ⟨g, hg, hx⟩
        simp only [subdivide, List.mem_flatMap] at hg
        obtain ⟨f, hf, hg⟩ := hg
        exact ⟨f, hf, (facePoints_parts m h f hf x).2 ⟨g, hg, hx⟩⟩
      · rintro ⟨f, hf, hx⟩
        obtain ⟨g, hg, hx⟩ := (facePoints_parts m h f hf x).1 hx
        exact ⟨g, by simp only [subdivide, List.mem_flatMap]; exact ⟨f, hf, hg⟩, hx⟩
    · rw [upsample, i3, s2]
      ring
    · obtain ⟨g', hg', hsub⟩ := i5 g hg
      simp only [subdivide, List.mem_flatMap] at hg'
      obtain ⟨f, hf, hg'⟩ := hg'
      exact ⟨f, hf, hsub.trans fun x hx => (facePoints_parts m h f hf x).2 ⟨g', hg', hx⟩⟩

private theorem area_scale (p q r p' q' r' : ℝ × ℝ × ℝ) (h1 : sideProduct p' q' q' * sideProduct p' r' r' - sideProduct p' q' r' ^ 2 =
    (sideProduct p q q * sideProduct p r r - sideProduct p q r ^ 2) / 16) : triangleArea p' q' r' = triangleArea p q r / 4 := by
  unfold triangleArea
  rw [h1, Real.sqrt_div' _ (by norm_num), show (16 : ℝ) = 4 ^ 2 by norm_num, Real.sqrt_sq (by norm_num)]
  ring

theorem parts_area (m : TriMesh) (h : CornersExist m) (f : ℕ × ℕ × ℕ) (hf : f ∈ m.faces) :
    ∀ g ∈ m.parts f, faceArea (subdivide m) g = faceArea m f / 4 := by
  obtain ⟨a, b, c⟩ := f
  obtain ⟨p1, p2, p3, p4, p5, p6⟩ := parts_pos m h hf
  intro g hg
  simp only [TriMesh.parts, List.mem_cons, List.not_mem_nil, or_false] at hg
  rcases hg with rfl | rfl | rfl | rfl <;> simp only [faceArea, p1, p2, p3, p4, p5, p6] <;> apply area_scale <;>
    simp only [sideProduct, Prod.fst_add, Prod.snd_add, Prod.smul_fst, Prod.smul_snd, smul_eq_mul] <;> ring

/-- C108.  The area is kept, and every face of the mesh after `n` subdivisions has the area of a face before over `4 ^ n`. -/
theorem C108_area (n : ℕ) (m : TriMesh) (h : CornersExist m) :
    meshArea (upsample n m) = meshArea m ∧ ∀ g ∈ (upsample n m).faces, ∃ f ∈ m.faces, faceArea (upsample n m) g = faceArea m f / 4 ^ n := by
  induction n generalizing m with
  | zero => exact ⟨rfl, fun g hg => ⟨g, hg, by simp [upsample]⟩⟩
  | succ n ih =>
    obtain ⟨i1, i2⟩ := ih (subdivide m) (cornersExist_subdivide m h)
    refine ⟨?_, fun g hg => ?_⟩
    · rw [upsample, i1]
      unfold meshArea
      conv_lhs => simp only [subdivide]
      rw [List.map_flatMap, List.flatMap_def, List.sum_flatten, List.map_map]
      congr 1
      refine List.map_congr_left fun f hf => ?_
      rw [Function.comp_apply]
      have := parts_area m h f hf
      obtain ⟨a, b, c⟩ := f
      simp only [TriMesh.parts, List.mem_cons, List.not_mem_nil, or_false, forall_eq_or_imp, forall_eq] at this
      obtain ⟨t1, t2, t3, t4⟩ := this
      simp only [subdivide] at t1 t2 t3 t4
      simp only [TriMesh.parts, List.map_cons, List.map_nil, List.sum_cons, List.sum_nil, t1, t2, t3, t4]
      ring
    · obtain ⟨g', hg', he⟩ := i2 g hg
      simp only [subdivide, List.mem_flatMap] at hg'
      obtain ⟨f, hf, hg'⟩ := hg'
      refine ⟨f, hf, ?_⟩
      rw [upsample, he, parts_area m h f hf g' hg', pow_succ]
      ring

/-- C108.  Regions of meshes are boxes, or convex at least: every face of a refinement lies in a face of the mesh, and if the corners of that
face are in the region, so are its own.  A face in the region is not lost by refining. -/
theorem C108_region (n : ℕ) (m : TriMesh) (h : CornersExist m) (region : Set (ℝ × ℝ × ℝ)) (hc : Convex ℝ region) (g : ℕ × ℕ × ℕ)
    (hg : g ∈ (upsample n m).faces) :
    ∃ f ∈ m.faces, facePoints (upsample n m) g ⊆ facePoints m f ∧
      (m.pos f.1 ∈ region → m.pos f.2.1 ∈ region → m.pos f.2.2 ∈ region →
        (upsample n m).pos g.1 ∈ region ∧ (upsample n m).pos g.2.1 ∈ region ∧ (upsample n m).pos g.2.2 ∈ region) := by
  obtain ⟨f, hf, hsub⟩ := (C108_surface n m h).2.2.2.2 g hg
  have key : ∀ p q r x : ℝ × ℝ × ℝ, x ∈ trianglePoints p q r → p ∈ region → q ∈ region → r ∈ region → x ∈ region := by
    rintro p q r x ⟨u, v, w, hu, hv, hw, hs, rfl⟩ hp hq hr
    have := hc.sum_mem (t := Finset.univ) (w := ![u, v, w]) (z := ![p, q, r])
      (by intro i _; fin_cases i <;> simp [hu, hv, hw]) (by simp [Fin.sum_univ_three, hs]) (by intro i _; fin_cases i <;> simp [hp, hq, hr])
    simpa [Fin.sum_univ_three] using this
  have corner : ∀ p q r : ℝ × ℝ × ℝ, p ∈ trianglePoints p q r ∧ q ∈ trianglePoints p q r ∧ r ∈ trianglePoints p q r := by
    intro p q r
    exact ⟨⟨1, 0, 0, by simp⟩, ⟨0, 1, 0, by simp⟩, ⟨0, 0, 1, by simp⟩⟩
  obtain ⟨c1, c2, c3⟩ := corner ((upsample n m).pos g.1) ((upsample n m).pos g.2.1) ((upsample n m).pos g.2.2)
  exact ⟨f, hf, hsub, fun h1 h2 h3 => ⟨key _ _ _ _ (hsub c1) h1 h2 h3, key _ _ _ _ (hsub c2) h1 h2 h3, key _ _ _ _ (hsub c3) h1 h2 h3⟩⟩

/-- C108.  The box of the settings is convex. -/
theorem C108_box (b : Region.Box) : Convex ℝ {x : ℝ × ℝ × ℝ | Region.createMeshRegion b x.1 x.2.1 x.2.2 = true} := by
  rintro ⟨x1, x2, x3⟩ hx ⟨y1, y2, y3⟩ hy u v hu hv huv
  simp only [Region.createMeshRegion, Set.mem_setOf_eq, Bool.and_eq_true, decide_eq_true_eq, ge_iff_le, Prod.smul_mk, Prod.mk_add_mk,
    smul_eq_mul] at hx hy ⊢
  have key : ∀ lo hi s t : ℝ, (lo ≤ s ∧ s ≤ hi) → (lo ≤ t ∧ t ≤ hi) → lo ≤ u * s + v * t ∧ u * s + v * t ≤ hi := by
    rintro lo hi s t ⟨h1, h2⟩ ⟨h3, h4⟩
    have : u = 1 - v := by linarith
    subst this
    constructor <;> nlinarith
  obtain ⟨⟨⟨⟨⟨a1, a2⟩, a3⟩, a4⟩, a5⟩, a6⟩ := hx
  obtain ⟨⟨⟨⟨⟨b1, b2⟩, b3⟩, b4⟩, b5⟩, b6⟩ := hy
  obtain ⟨c1, c2⟩ := key _ _ _ _ ⟨a1, a2⟩ ⟨b1, b2⟩
  obtain ⟨c3, c4⟩ := key _ _ _ _ ⟨a3, a4⟩ ⟨b3, b4⟩
  obtain ⟨c5, c6⟩ := key _ _ _ _ ⟨a5, a6⟩ ⟨b5, b6⟩
  exact ⟨⟨⟨⟨⟨c1, c2⟩, c3⟩, c4⟩, c5⟩, c6⟩

/-- C108.  Reading a mesh: an error of the reader is raised, otherwise the mesh is refined as often as the settings say. -/
theorem C108_read (read : String → Except Err TriMesh) (filename : String) (n : ℕ) :
    (∀ e, read ("meshes_polygons_" ++ filename) = .error e → readMesh read filename n = .error e) ∧
    ∀ m, read ("meshes_polygons_" ++ filename) = .ok m → CornersExist m → ∃ m', readMesh read filename n = .ok m' ∧
      surface m' = surface m ∧ meshArea m' = meshArea m ∧ m'.faces.length = 4 ^ n * m.faces.length ∧ m.vertices <+: m'.vertices := by
  refine ⟨fun e h => ?_, fun m h hc => ?_⟩
  · simp only [readMesh, h, bind, Except.bind]
  · refine ⟨upsample n m, ?_, (C108_surface n m hc).1, (C108_area n m hc).1, (C108_surface n m hc).2.2.1, (C108_surface n m hc).2.1⟩
    simp only [readMesh, h, bind, Except.bind, pure, Except.pure]

/-- the hypotheses are met by a square of two triangles; refined once it has nine vertices and eight faces of an eighth of its area. -/
example : ∃ m : TriMesh, CornersExist m ∧ meshArea m = 1 ∧ (subdivide m).vertices.length = 9 ∧ (subdivide m).faces.length = 8 := by
  refine ⟨⟨[(0, 0, 0), (1, 0, 0), (0, 1, 0), (1, 1, 0)], [(0, 1, 2), (1, 3, 2)]⟩, ?_, ?_, ?_, ?_⟩
  · intro f hf
    simp at hf
    rcases hf with rfl | rfl <;> decide
  · simp [meshArea, faceArea, triangleArea, sideProduct, TriMesh.pos]
    norm_num
  · simp only [subdivide, List.length_append, List.length_map]
    rfl
  · rfl

end Sleplet.Props
