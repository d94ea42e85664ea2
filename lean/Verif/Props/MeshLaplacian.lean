import Mathlib.Analysis.InnerProductSpace.PiL2
import Mathlib.Logic.Relation
import Mathlib.Tactic.FinCases
import Mathlib.Tactic.Ring
import Verif.Lemmas.Rayleigh
import Verif.Model.MeshLaplacian

/-!
C104: the basis functions of a mesh are its smoothest orthonormal functions.
-/
namespace Sleplet.Props

open MeshLaplacian

variable {n : ℕ}

/-! ### the energy of a function -/

/-- the scalar product of vectors in space. -/
def dot3 (p q : ℝ × ℝ × ℝ) : ℝ := p.1 * q.1 + p.2.1 * q.2.1 + p.2.2 * q.2.2

/-- the vector product. -/
def cross3 (p q : ℝ × ℝ × ℝ) : ℝ × ℝ × ℝ := (p.2.1 * q.2.2 - p.2.2 * q.2.1, p.2.2 * q.1 - p.1 * q.2.2, p.1 * q.2.1 - p.2.1 * q.1)

/-- the area of a triangle. -/
noncomputable def area (p q r : ℝ × ℝ × ℝ) : ℝ := √(dot3 (cross3 (q - p) (r - p)) (cross3 (q - p) (r - p))) / 2

/-- The gradient, in the plane of a triangle, of the affine function with the values `x`, `y`, `z` at the corners `p`, `q`, `r`. -/
def IsGradient (p q r : ℝ × ℝ × ℝ) (x y z : ℝ) (g : ℝ × ℝ × ℝ) : Prop :=
  dot3 g (q - p) = y - x ∧ dot3 g (r - p) = z - x ∧ ∃ a b : ℝ, g = a • (q - p) + b • (r - p)

/-- The mesh has no face of area zero. -/
def Nondegenerate (vertices : Fin n → ℝ × ℝ × ℝ) (faces : List (Fin n × Fin n × Fin n)) : Prop :=
  ∀ i j k, (i, j, k) ∈ faces → 0 < area (vertices i) (vertices j) (vertices k)

/-- The energy of a function on the vertices, which is affine on the faces: the integral of the square of the gradient. -/
def IsEnergy (vertices : Fin n → ℝ × ℝ × ℝ) (faces : List (Fin n × Fin n × Fin n)) (f : Fin n → ℝ) (E : ℝ) : Prop :=
  ∃ g : Fin n × Fin n × Fin n → ℝ × ℝ × ℝ,
    (∀ i j k, (i, j, k) ∈ faces → IsGradient (vertices i) (vertices j) (vertices k) (f i) (f j) (f k) (g (i, j, k))) ∧
    E = (faces.map fun (i, j, k) => area (vertices i) (vertices j) (vertices k) * dot3 (g (i, j, k)) (g (i, j, k))).sum

private theorem doubleArea_eq (p q r : ℝ × ℝ × ℝ) : doubleArea p q r = 2 * area p q r := by
  unfold doubleArea area
  rw [show 4 * sqDist p q * sqDist p r - (sqDist p q + sqDist p r - sqDist q r) ^ 2 =
    2 ^ 2 * dot3 (cross3 (q - p) (r - p)) (cross3 (q - p) (r - p)) by
      simp only [sqDist, dot3, cross3, Prod.fst_sub, Prod.snd_sub]; ring, Real.sqrt_mul (by norm_num), Real.sqrt_sq (by norm_num)]
  ring

private theorem area_rotate (p q r : ℝ × ℝ × ℝ) : area q r p = area p q r := by
  unfold area
  congr 2
  simp only [dot3, cross3, Prod.fst_sub, Prod.snd_sub]; ring

/-- the energy in one face, from the differences of the values. -/
private noncomputable def faceForm (p q r : ℝ × ℝ × ℝ) (x y z : ℝ) : ℝ :=
  halfCot q r p * (y - z) ^ 2 + halfCot r p q * (z - x) ^ 2 + halfCot p q r * (x - y) ^ 2

private theorem faceForm_eq (p q r : ℝ × ℝ × ℝ) (x y z : ℝ) (g : ℝ × ℝ × ℝ) (ha : 0 < area p q r) (hg : IsGradient p q r x y z g) :
    faceForm p q r x y z = area p q r * dot3 g g := by
  obtain ⟨h1, h2, a, b, h3⟩ := hg
  have hA : (2 * area p q r) ^ 2 = dot3 (cross3 (q - p) (r - p)) (cross3 (q - p) (r - p)) := by
    unfold area
    rw [mul_div_cancel₀ _ (by norm_num), Real.sq_sqrt]
    simp only [dot3]
    nlinarith [mul_self_nonneg (cross3 (q - p) (r - p)).1, mul_self_nonneg (cross3 (q - p) (r - p)).2.1,
      mul_self_nonneg (cross3 (q - p) (r - p)).2.2]
  set uu := dot3 (q - p) (q - p) with huu
  set uv := dot3 (q - p) (r - p) with huv
  set vv := dot3 (r - p) (r - p) with hvv
  have hA' : (2 * area p q r) ^ 2 = uu * vv - uv ^ 2 := by
    rw [hA, huu, huv, hvv]
    simp only [dot3, cross3]; ring
  have e1 : sqDist q p + sqDist r p - sqDist q r = 2 * uv := by
    rw [huv]; simp only [sqDist, dot3, Prod.fst_sub, Prod.snd_sub]; ring
  have e2 : sqDist r q + sqDist p q - sqDist r p = 2 * (uu - uv) := by
    rw [huv, huu]; simp only [sqDist, dot3, Prod.fst_sub, Prod.snd_sub]; ring
  have e3 : sqDist p r + sqDist q r - sqDist p q = 2 * (vv - uv) := by
    rw [huv, hvv]; simp only [sqDist, dot3, Prod.fst_sub, Prod.snd_sub]; ring
  have e4 : dot3 g (q - p) = a * uu + b * uv := by
    rw [h3, huu, huv]; simp only [dot3, Prod.fst_add, Prod.snd_add, Prod.smul_fst, Prod.smul_snd, smul_eq_mul]; ring
  have e5 : dot3 g (r - p) = a * uv + b * vv := by
    rw [h3, hvv, huv]; simp only [dot3, Prod.fst_add, Prod.snd_add, Prod.smul_fst, Prod.smul_snd, smul_eq_mul]; ring
  have e6 : dot3 g g = a ^ 2 * uu + 2 * a * b * uv + b ^ 2 * vv := by
    rw [h3, huu, huv, hvv]; simp only [dot3, Prod.fst_add, Prod.snd_add, Prod.smul_fst, Prod.smul_snd, smul_eq_mul]; ring
  have hy : y = x + (a * uu + b * uv) := by linarith
  have hz : z = x + (a * uv + b * vv) := by linarith
  unfold faceForm halfCot
  rw [doubleArea_eq, doubleArea_eq, doubleArea_eq, area_rotate p q r, ← area_rotate r p q, e1, e2, e3, e6, hy, hz]
  have hne : 2 * area p q r ≠ 0 := by positivity
  generalize hX : 2 * area p q r = X at hA' hne
  rw [show area p q r = X / 2 by linarith]
  field_simp
  rw [hA']
  ring

private theorem exists_gradient (p q r : ℝ × ℝ × ℝ) (x y z : ℝ) (ha : 0 < area p q r) : ∃ g, IsGradient p q r x y z g := by
  have hA : (2 * area p q r) ^ 2 = dot3 (cross3 (q - p) (r - p)) (cross3 (q - p) (r - p)) := by
    unfold area
    rw [mul_div_cancel₀ _ (by norm_num), Real.sq_sqrt]
    simp only [dot3]
    nlinarith [mul_self_nonneg (cross3 (q - p) (r - p)).1, mul_self_nonneg (cross3 (q - p) (r - p)).2.1,
      mul_self_nonneg (cross3 (q - p) (r - p)).2.2]
  have hD : dot3 (q - p) (q - p) * dot3 (r - p) (r - p) - dot3 (q - p) (r - p) ^ 2 ≠ 0 := by
    have h0 : 0 < (2 * area p q r) ^ 2 := by positivity
    rw [hA] at h0
    refine ne_of_gt (lt_of_lt_of_eq h0 ?_)
    simp only [dot3, cross3]; ring
  set uu := dot3 (q - p) (q - p) with huu
  set uv := dot3 (q - p) (r - p) with huv
  set vv := dot3 (r - p) (r - p) with hvv
  refine ⟨(((y - x) * vv - (z - x) * uv) / (uu * vv - uv ^ 2)) • (q - p) + (((z - x) * uu - (y - x) * uv) / (uu * vv - uv ^ 2)) • (r - p),
    ?_, ?_, _, _, rfl⟩
  · have e : ∀ a b : ℝ, dot3 (a • (q - p) + b • (r - p)) (q - p) = a * uu + b * uv := by
      intro a b
      rw [huu, huv]; simp only [dot3, Prod.fst_add, Prod.snd_add, Prod.smul_fst, Prod.smul_snd, smul_eq_mul]; ring
    rw [e, div_mul_eq_mul_div, div_mul_eq_mul_div, ← add_div, div_eq_iff hD]
    ring
  · have e : ∀ a b : ℝ, dot3 (a • (q - p) + b • (r - p)) (r - p) = a * uv + b * vv := by
      intro a b
      rw [hvv, huv]; simp only [dot3, Prod.fst_add, Prod.snd_add, Prod.smul_fst, Prod.smul_snd, smul_eq_mul]; ring
    rw [e, div_mul_eq_mul_div, div_mul_eq_mul_div, ← add_div, div_eq_iff hD]
    ring

private theorem form_edge (a b : Fin n) (c : ℝ) (f : Fin n → ℝ) :
    ∑ u, ∑ v, f u * edgeEntries a b c u v * f v = -(c * (f a - f b) ^ 2) := by
  have h : ∀ (x y : Fin n) (d : ℝ), ∑ u, ∑ v, f u * (if u = x ∧ v = y then d else 0) * f v = f x * d * f y := by
    intro x y d
    rw [Finset.sum_eq_single x, Finset.sum_eq_single y]
    · simp
    · intro v _ hv; simp [hv]
    · simp
    · intro u _ hu; simp [hu]
    · simp
  simp only [edgeEntries, mul_add, add_mul, Finset.sum_add_distrib, h]
  ring

/-- the quadratic form of the Laplacian. -/
private theorem form_eq (vertices : Fin n → ℝ × ℝ × ℝ) (faces : List (Fin n × Fin n × Fin n)) (f : Fin n → ℝ) :
    ∑ u, ∑ v, f u * meshLaplacian vertices faces u v * f v =
      (faces.map fun (i, j, k) => faceForm (vertices i) (vertices j) (vertices k) (f i) (f j) (f k)).sum := by
  induction faces with
  | nil => simp [meshLaplacian, cotmatrix]
  | cons t ts ih =>
    obtain ⟨i, j, k⟩ := t
    have h : ∀ u v, meshLaplacian vertices ((i, j, k) :: ts) u v = -(edgeEntries j k (halfCot (vertices j) (vertices k) (vertices i)) u v +
        edgeEntries k i (halfCot (vertices k) (vertices i) (vertices j)) u v +
        edgeEntries i j (halfCot (vertices i) (vertices j) (vertices k)) u v) + meshLaplacian vertices ts u v := by
      intro u v
      simp only [meshLaplacian, cotmatrix, List.map_cons, List.sum_cons]
      ring
    have h2 : ∀ u v, f u * meshLaplacian vertices ((i, j, k) :: ts) u v * f v =
        -(f u * edgeEntries j k (halfCot (vertices j) (vertices k) (vertices i)) u v * f v) -
        f u * edgeEntries k i (halfCot (vertices k) (vertices i) (vertices j)) u v * f v -
        f u * edgeEntries i j (halfCot (vertices i) (vertices j) (vertices k)) u v * f v + f u * meshLaplacian vertices ts u v * f v := by
      intro u v
      rw [h]; ring
    simp only [h2, Finset.sum_add_distrib, Finset.sum_sub_distrib, Finset.sum_neg_distrib, form_edge, ih, List.map_cons, List.sum_cons]
    unfold faceForm
    ring

private theorem edgeEntries_comm (a b : Fin n) (c : ℝ) (u v : Fin n) : edgeEntries a b c u v = edgeEntries a b c v u := by
  unfold edgeEntries
  have e : ∀ (x y : Fin n) (d : ℝ), (if u = x ∧ v = y then d else 0) = if v = y ∧ u = x then d else 0 := fun _ _ _ => if_congr and_comm rfl rfl
  rw [e a b, e b a, e a a, e b b]
  ring

private theorem meshLaplacian_comm (vertices : Fin n → ℝ × ℝ × ℝ) (faces : List (Fin n × Fin n × Fin n)) (u v : Fin n) :
    meshLaplacian vertices faces u v = meshLaplacian vertices faces v u := by
  unfold meshLaplacian cotmatrix
  congr 2
  refine List.map_congr_left fun t _ => ?_
  simp only [edgeEntries_comm _ _ _ u v]

private theorem edge_row (a b : Fin n) (c : ℝ) (u : Fin n) : ∑ v, edgeEntries a b c u v = 0 := by
  have h : ∀ (x y : Fin n) (d : ℝ), ∑ v, (if u = x ∧ v = y then d else 0) = if u = x then d else 0 := by
    intro x y d
    by_cases hx : u = x
    · simp [hx]
    · simp [hx]
  simp only [edgeEntries, Finset.sum_add_distrib, h]
  split_ifs <;> ring

private theorem row_sum (vertices : Fin n → ℝ × ℝ × ℝ) (faces : List (Fin n × Fin n × Fin n)) (u : Fin n) :
    ∑ v, meshLaplacian vertices faces u v = 0 := by
  unfold meshLaplacian cotmatrix
  rw [Finset.sum_neg_distrib, neg_eq_zero]
  induction faces with
  | nil => simp
  | cons t ts ih => simp only [List.map_cons, List.sum_cons, Finset.sum_add_distrib, edge_row, ih]; simp

/-- The Laplacian of a mesh is symmetric, and its quadratic form is the integral of the square of the gradient over the faces. -/
theorem C104_energy (vertices : Fin n → ℝ × ℝ × ℝ) (faces : List (Fin n × Fin n × Fin n)) (hd : Nondegenerate vertices faces) :
    (∀ u v, meshLaplacian vertices faces u v = meshLaplacian vertices faces v u) ∧
    ∀ f : Fin n → ℝ, (∃ E, IsEnergy vertices faces f E) ∧
      ∀ E, IsEnergy vertices faces f E → ∑ u, ∑ v, f u * meshLaplacian vertices faces u v * f v = E := by
  classical
  refine ⟨meshLaplacian_comm vertices faces, fun f => ⟨?_, ?_⟩⟩
  · have h : ∀ t : Fin n × Fin n × Fin n, ∃ g, t ∈ faces → IsGradient (vertices t.1) (vertices t.2.1) (vertices t.2.2) (f t.1) (f t.2.1) (f t.2.2) g := by
      intro t
      by_cases ht : t ∈ faces
      · obtain ⟨g, hg⟩ := exists_gradient _ _ _ (f t.1) (f t.2.1) (f t.2.2) (hd t.1 t.2.1 t.2.2 ht)
        exact ⟨g, fun _ => hg⟩
      · exact ⟨0, fun h => absurd h ht⟩
    choose g hg using h
    exact ⟨_, g, fun i j k ht => hg (i, j, k) ht, rfl⟩
  · rintro E ⟨g, hg, rfl⟩
    rw [form_eq]
    congr 1
    refine List.map_congr_left fun t ht => ?_
    exact faceForm_eq _ _ _ _ _ _ _ (hd _ _ _ ht) (hg _ _ _ ht)

/-! ### the basis functions -/

/-- What is assumed of `eigsh` for symmetric matrices: it returns `k` orthonormal eigenvectors with their eigenvalues, in ascending order; for
`which = "LM"` these are the ones nearest to `sigma`. -/
def GoodEigsh (eigsh : Eigsh n) : Prop :=
  ∀ (A : Fin n → Fin n → ℝ) (k : ℕ) (which : String) (sigma : ℝ) (r : List ℝ × List (Fin n → ℝ)), (∀ u v, A u v = A v u) →
    eigsh A k which sigma = .ok r → ∃ (e : Fin k → ℝ) (φ : Fin k → Fin n → ℝ), r = (List.ofFn e, List.ofFn φ) ∧
      (∀ i u, ∑ v, A u v * φ i v = e i * φ i u) ∧ (∀ i j, ∑ v, φ i v * φ j v = if i = j then 1 else 0) ∧ Monotone e ∧
      (which = "LM" → ∀ (x : Fin n → ℝ) (l : ℝ), x ≠ 0 → (∀ u, ∑ v, A u v * x v = l * x u) → (∀ i, ∑ v, x v * φ i v = 0) →
        ∀ i, |e i - sigma| ≤ |l - sigma|)

/-- Any two vertices are joined by a chain of faces. -/
def Connected (faces : List (Fin n × Fin n × Fin n)) : Prop :=
  ∀ u v : Fin n, Relation.ReflTransGen (fun a b => ∃ i j k, (i, j, k) ∈ faces ∧ a ∈ [i, j, k] ∧ b ∈ [i, j, k]) u v

private theorem form_nonneg {vertices : Fin n → ℝ × ℝ × ℝ} {faces : List (Fin n × Fin n × Fin n)} (hd : Nondegenerate vertices faces)
    (f : Fin n → ℝ) : 0 ≤ ∑ u, ∑ v, f u * meshLaplacian vertices faces u v * f v := by
  obtain ⟨-, h⟩ := C104_energy vertices faces hd
  obtain ⟨⟨E, hE⟩, h2⟩ := h f
  rw [h2 E hE]
  obtain ⟨g, -, rfl⟩ := hE
  refine List.sum_nonneg fun x hx => ?_
  obtain ⟨⟨i, j, k⟩, ht, rfl⟩ := List.mem_map.1 hx
  refine mul_nonneg (hd _ _ _ ht).le ?_
  simp only [dot3]
  nlinarith [mul_self_nonneg (g (i, j, k)).1, mul_self_nonneg (g (i, j, k)).2.1, mul_self_nonneg (g (i, j, k)).2.2]

private theorem form_eigen {A : Fin n → Fin n → ℝ} {x : Fin n → ℝ} {l : ℝ} (h : ∀ u, ∑ v, A u v * x v = l * x u) :
    ∑ u, ∑ v, x u * A u v * x v = l * ∑ v, x v ^ 2 := by
  rw [Finset.mul_sum]
  refine Finset.sum_congr rfl fun u _ => ?_
  simp only [mul_assoc, ← Finset.mul_sum]
  rw [h u]
  ring

private theorem sum_sq_pos {x : Fin n → ℝ} (hx : x ≠ 0) : 0 < ∑ v, x v ^ 2 := by
  obtain ⟨v, hv⟩ := Function.ne_iff.1 hx
  exact Finset.sum_pos' (fun _ _ => sq_nonneg _) ⟨v, Finset.mem_univ _, by have : x v ≠ 0 := hv; positivity⟩

/-- eigenvalues of two eigenvectors that are not orthogonal agree. -/
private theorem eigen_eq {A : Fin n → Fin n → ℝ} (hA : ∀ u v, A u v = A v u) {x y : Fin n → ℝ} {l m : ℝ}
    (hx : ∀ u, ∑ v, A u v * x v = l * x u) (hy : ∀ u, ∑ v, A u v * y v = m * y u) (h : ∑ v, x v * y v ≠ 0) : l = m := by
  have h1 : ∑ u, ∑ v, y u * (A u v * x v) = l * ∑ v, x v * y v := by
    rw [Finset.mul_sum]
    refine Finset.sum_congr rfl fun u _ => ?_
    rw [← Finset.mul_sum, hx u]; ring
  have h2 : ∑ u, ∑ v, y u * (A u v * x v) = m * ∑ v, x v * y v := by
    rw [Finset.sum_comm, Finset.mul_sum]
    refine Finset.sum_congr rfl fun v _ => ?_
    calc ∑ u, y u * (A u v * x v) = x v * ∑ u, A v u * y u := by
          rw [Finset.mul_sum]
          refine Finset.sum_congr rfl fun u _ => ?_
          rw [hA u v]; ring
      _ = _ := by rw [hy v]; ring
  exact mul_right_cancel₀ h (h1.symm.trans h2)

/-- The basis functions of a mesh: as many as asked for or a quarter of the number of vertices, orthonormal, in the order of their energy, which
is the eigenvalue; none is less smooth than any unit function orthogonal to those before it. -/
theorem C104_smoothest (eigsh : Eigsh n) (he : GoodEigsh eigsh) (vertices : Fin n → ℝ × ℝ × ℝ) (faces : List (Fin n × Fin n × Fin n))
    (hd : Nondegenerate vertices faces) (number : Option ℕ) (w : List ℝ) (basis : List (Fin n → ℝ)) (k : ℕ)
    (h : meshEigendecomposition eigsh vertices faces number = .ok (w, basis, k)) :
    (∀ m, number = some m → k = m) ∧ (number = none → k = n / 4) ∧ ∃ (e : Fin k → ℝ) (φ : Fin k → Fin n → ℝ),
      w = List.ofFn e ∧ basis = List.ofFn φ ∧ (∀ i j, ∑ v, φ i v * φ j v = if i = j then 1 else 0) ∧ Monotone e ∧
      (∀ i, IsEnergy vertices faces (φ i) (e i)) ∧
      ∀ i (g : Fin n → ℝ) (E : ℝ), ∑ v, g v ^ 2 = 1 → (∀ j < i, ∑ v, g v * φ j v = 0) → IsEnergy vertices faces g E → e i ≤ E := by
  obtain ⟨hsym, hE⟩ := C104_energy vertices faces hd
  cases hr : eigsh (meshLaplacian vertices faces) (number.getD (n / 4)) "LM" 0 with
  | error x => simp only [meshEigendecomposition, hr, bind, Except.bind] at h; cases h
  | ok r =>
  simp only [meshEigendecomposition, hr, bind, Except.bind, pure, Except.pure, Except.ok.injEq, Prod.mk.injEq] at h
  obtain ⟨rfl, rfl, rfl⟩ := h
  obtain ⟨e, φ, rfl, h1, h2, h3, h4⟩ := he _ _ _ _ _ hsym hr
  refine ⟨fun m hm => by rw [hm]; rfl, fun hm => by rw [hm]; rfl, e, φ, rfl, ?_, h2, h3, fun i => ?_, fun i g E hg hj hgE => ?_⟩
  · rw [MeshT.orthonormalise, List.map_ofFn]
    congr 1
    funext i v
    have : MeshT.integrateWholeMesh (φ i) (φ i) = 1 := by
      unfold MeshT.integrateWholeMesh
      rw [h2 i i, if_pos rfl]
    simp only [Function.comp, this, Real.sqrt_one, div_one]
  · obtain ⟨⟨E, hEi⟩, hEq⟩ := hE (φ i)
    have := hEq E hEi
    rw [form_eigen (h1 i)] at this
    have h5 : ∑ v, φ i v ^ 2 = 1 := by
      rw [← (h2 i i).trans (if_pos rfl)]
      exact Finset.sum_congr rfl fun v _ => by ring
    rw [h5, mul_one] at this
    rw [this]
    exact hEi
  · have hpos : ∀ (x : Fin n → ℝ) (l : ℝ), x ≠ 0 → (∀ u, ∑ v, meshLaplacian vertices faces u v * x v = l * x u) → 0 ≤ l := by
      intro x l hx hl
      have := form_nonneg hd x
      rw [form_eigen hl] at this
      exact nonneg_of_mul_nonneg_left this (sum_sq_pos hx)
    have hne : ∀ j, φ j ≠ 0 := by
      intro j h0
      have := h2 j j
      simp [h0] at this
    have := rayleigh_matrix (meshLaplacian vertices faces) hsym (fun j : Fin (i : ℕ) => φ ⟨j, by omega⟩) (fun j => e ⟨j, by omega⟩)
      (fun j => h1 _) (e i) ?_ g fun j => hj ⟨j, by omega⟩ (by rw [Fin.lt_def]; exact j.2)
    · rw [hg, mul_one, (hE g).2 E hgE] at this
      exact this
    · intro x hx0 hx l hl
      by_cases hall : ∀ j, ∑ v, x v * φ j v = 0
      · have h5 := h4 rfl x l hx0 hl hall i
        rw [sub_zero, sub_zero, abs_of_nonneg (hpos _ _ (hne i) (h1 i)), abs_of_nonneg (hpos _ _ hx0 hl)] at h5
        exact h5
      · push Not at hall
        obtain ⟨j, hj⟩ := hall
        rw [eigen_eq hsym hl (h1 j) hj]
        refine h3 ?_
        by_contra hlt
        rw [not_le] at hlt
        exact hj (hx ⟨j, hlt⟩)

private theorem faceForm_zero {p q r : ℝ × ℝ × ℝ} {x y z : ℝ} (ha : 0 < area p q r) (h : faceForm p q r x y z = 0) : x = y ∧ x = z := by
  obtain ⟨g, hg⟩ := exists_gradient p q r x y z ha
  rw [faceForm_eq p q r x y z g ha hg] at h
  have h0 : dot3 g g = 0 := by
    rcases mul_eq_zero.1 h with h | h
    · exact absurd h ha.ne'
    · exact h
  simp only [dot3] at h0
  have g1 : g.1 = 0 := by nlinarith [mul_self_nonneg g.1, mul_self_nonneg g.2.1, mul_self_nonneg g.2.2]
  have g2 : g.2.1 = 0 := by nlinarith [mul_self_nonneg g.1, mul_self_nonneg g.2.1, mul_self_nonneg g.2.2]
  have g3 : g.2.2 = 0 := by nlinarith [mul_self_nonneg g.1, mul_self_nonneg g.2.1, mul_self_nonneg g.2.2]
  obtain ⟨k1, k2, -⟩ := hg
  simp only [dot3, g1, g2, g3] at k1 k2
  constructor <;> linarith

/-- On a connected mesh a function without energy is constant. -/
private theorem constant_of_form {vertices : Fin n → ℝ × ℝ × ℝ} {faces : List (Fin n × Fin n × Fin n)} (hd : Nondegenerate vertices faces)
    (hc : Connected faces) {f : Fin n → ℝ} (h : ∑ u, ∑ v, f u * meshLaplacian vertices faces u v * f v = 0) (u v : Fin n) : f u = f v := by
  rw [form_eq] at h
  have hface : ∀ i j k, (i, j, k) ∈ faces → faceForm (vertices i) (vertices j) (vertices k) (f i) (f j) (f k) = 0 := by
    intro i j k ht
    have hn : ∀ x ∈ faces.map fun (i, j, k) => faceForm (vertices i) (vertices j) (vertices k) (f i) (f j) (f k), (0 : ℝ) ≤ x := by
      intro x hx
      obtain ⟨⟨i, j, k⟩, ht, rfl⟩ := List.mem_map.1 hx
      obtain ⟨g, hg⟩ := exists_gradient _ _ _ (f i) (f j) (f k) (hd i j k ht)
      dsimp only
      rw [faceForm_eq _ _ _ _ _ _ g (hd i j k ht) hg]
      refine mul_nonneg (hd i j k ht).le ?_
      simp only [dot3]
      nlinarith [mul_self_nonneg g.1, mul_self_nonneg g.2.1, mul_self_nonneg g.2.2]
    have hm : faceForm (vertices i) (vertices j) (vertices k) (f i) (f j) (f k) ∈
        faces.map fun (i, j, k) => faceForm (vertices i) (vertices j) (vertices k) (f i) (f j) (f k) := List.mem_map.2 ⟨(i, j, k), ht, rfl⟩
    exact le_antisymm ((List.single_le_sum hn _ hm).trans h.le) (hn _ hm)
  have hstep : ∀ a b, (∃ i j k, (i, j, k) ∈ faces ∧ a ∈ [i, j, k] ∧ b ∈ [i, j, k]) → f a = f b := by
    rintro a b ⟨i, j, k, ht, ha, hb⟩
    obtain ⟨h1, h2⟩ := faceForm_zero (hd i j k ht) (hface i j k ht)
    have hval : ∀ c ∈ [i, j, k], f c = f i := by
      intro c hc
      simp only [List.mem_cons, List.not_mem_nil, or_false] at hc
      rcases hc with rfl | rfl | rfl
      · rfl
      · exact h1.symm
      · exact h2.symm
    rw [hval a ha, hval b hb]
  induction hc u v with
  | refl => rfl
  | tail _ hab ih => exact ih.trans (hstep _ _ hab)

/-- On a connected mesh the first basis function is constant, its eigenvalue is zero, and the others have positive eigenvalues and mean zero. -/
theorem C104_constant (eigsh : Eigsh n) (he : GoodEigsh eigsh) (vertices : Fin n → ℝ × ℝ × ℝ) (faces : List (Fin n × Fin n × Fin n))
    (hd : Nondegenerate vertices faces) (hc : Connected faces) (number : Option ℕ) (w : List ℝ) (basis : List (Fin n → ℝ)) (k : ℕ)
    (h : meshEigendecomposition eigsh vertices faces number = .ok (w, basis, k)) (hk : 0 < k) :
    w[0]? = some 0 ∧ (basis[0]? = some (fun _ => 1 / √n) ∨ basis[0]? = some (fun _ => -(1 / √n))) ∧
    ∀ (i : ℕ) (l : ℝ) (f : Fin n → ℝ), 0 < i → w[i]? = some l → basis[i]? = some f → 0 < l ∧ ∑ v, f v = 0 := by
  obtain ⟨-, -, e, φ, rfl, rfl, h2, h3, h5, h6⟩ := C104_smoothest eigsh he vertices faces hd number w basis k h
  obtain ⟨hsym, hE⟩ := C104_energy vertices faces hd
  have hform : ∀ i, ∑ u, ∑ v, φ i u * meshLaplacian vertices faces u v * φ i v = e i := fun i => (hE (φ i)).2 _ (h5 i)
  have hn : 0 < n := by
    by_contra h0
    have h0 : n = 0 := by omega
    subst h0
    have := h2 ⟨0, hk⟩ ⟨0, hk⟩
    simp at this
  have hn' : (0 : ℝ) < n := by exact_mod_cast hn
  -- the constant function has no energy
  have hone : IsEnergy vertices faces (fun _ => 1 / √n) 0 := by
    obtain ⟨⟨E, hEi⟩, hEq⟩ := hE fun _ => 1 / √n
    have h7 := hEq E hEi
    have h8 : ∑ u, ∑ v, (1 / √n) * meshLaplacian vertices faces u v * (1 / √n) = 0 := by
      simp only [← Finset.sum_mul, ← Finset.mul_sum, row_sum, Finset.sum_const_zero, mul_zero, zero_mul]
    rw [h8] at h7
    rw [h7]; exact hEi
  have hunit : ∑ _v : Fin n, (1 / √n) ^ 2 = (1 : ℝ) := by
    rw [Finset.sum_const, Finset.card_univ, Fintype.card_fin, nsmul_eq_mul, div_pow, Real.sq_sqrt hn'.le]
    field_simp
  have e0 : e ⟨0, hk⟩ = 0 := by
    apply le_antisymm
    · exact h6 ⟨0, hk⟩ _ 0 hunit (fun j hj => absurd hj (by simp [Fin.lt_def])) hone
    · rw [← hform]; exact form_nonneg hd _
  have hconst : ∀ u v, φ ⟨0, hk⟩ u = φ ⟨0, hk⟩ v := constant_of_form hd hc ((hform _).trans e0)
  set c := φ ⟨0, hk⟩ ⟨0, hn⟩ with hcdef
  have hφ0 : φ ⟨0, hk⟩ = fun _ => c := funext fun v => hconst v _
  have hc2 : c ^ 2 = 1 / n := by
    have := h2 ⟨0, hk⟩ ⟨0, hk⟩
    rw [hφ0, if_pos rfl, Finset.sum_const, Finset.card_univ, Fintype.card_fin, nsmul_eq_mul] at this
    field_simp
    linarith
  have hcc : c = 1 / √n ∨ c = -(1 / √n) := by
    rw [← sq_eq_sq_iff_eq_or_eq_neg, hc2, div_pow, Real.sq_sqrt hn'.le, one_pow]
  refine ⟨?_, ?_, fun i l f hi hl hf => ?_⟩
  · rw [List.getElem?_ofFn, dif_pos hk, e0]
  · rw [List.getElem?_ofFn, dif_pos hk, hφ0]
    rcases hcc with h | h
    · left; rw [h]
    · right; rw [h]
  · rw [List.getElem?_ofFn] at hl hf
    split at hl
    · rename_i hik
      rw [dif_pos hik] at hf
      simp only [Option.some.injEq] at hl hf
      subst hl hf
      have hc0 : c ≠ 0 := by
        intro h0
        rw [h0] at hc2
        have : (0 : ℝ) < 1 / n := by positivity
        linarith [hc2.symm ▸ this, sq (0 : ℝ)]
      have hsum : ∑ v, φ ⟨i, hik⟩ v = 0 := by
        have := h2 ⟨i, hik⟩ ⟨0, hk⟩
        rw [if_neg (by simp [Fin.ext_iff]; omega), hφ0, ← Finset.sum_mul] at this
        exact (mul_eq_zero.1 this).resolve_right hc0
      refine ⟨lt_of_le_of_ne ?_ ?_, hsum⟩
      · rw [← hform]; exact form_nonneg hd _
      · intro h0
        have hcon : ∀ u v, φ ⟨i, hik⟩ u = φ ⟨i, hik⟩ v := constant_of_form hd hc ((hform _).trans h0.symm)
        have hz : φ ⟨i, hik⟩ ⟨0, hn⟩ = 0 := by
          rw [Finset.sum_congr rfl fun v _ => hcon v ⟨0, hn⟩, Finset.sum_const, Finset.card_univ, Fintype.card_fin, nsmul_eq_mul] at hsum
          exact (mul_eq_zero.1 hsum).resolve_left hn'.ne'
        have := h2 ⟨i, hik⟩ ⟨i, hik⟩
        simp only [hcon _ ⟨0, hn⟩, hz] at this
        simp at this
    · cases hl

/-! ### an example -/

/-- a right-angled triangle. -/
def triangle (v : Fin 3) : ℝ × ℝ × ℝ := if v = 0 then (0, 0, 0) else if v = 1 then (1, 0, 0) else (0, 1, 0)

open Classical in
example : ∃ eigsh : Eigsh 3, GoodEigsh eigsh ∧ Nondegenerate triangle [(0, 1, 2)] ∧ Connected ([(0, 1, 2)] : List (Fin 3 × Fin 3 × Fin 3)) ∧
    meshEigendecomposition eigsh triangle [(0, 1, 2)] (some 1) = .ok ([0], [fun _ => 1 / √3], 1) := by
  have hsum : ∀ u, ∑ v, meshLaplacian triangle [(0, 1, 2)] u v * (1 / √3) = 0 * (1 / √3) := by
    intro u
    rw [← Finset.sum_mul, row_sum]
  have hunit : ∑ _v : Fin 3, 1 / √(3 : ℝ) * (1 / √3) = 1 := by
    simp
    rw [← mul_inv, Real.mul_self_sqrt (by norm_num)]
    norm_num
  refine ⟨fun A k which sigma => if A = meshLaplacian triangle [(0, 1, 2)] ∧ k = 1 ∧ which = "LM" ∧ sigma = 0 then
    .ok ([0], [fun _ => 1 / √3]) else .error .runtimeError, ?_, ?_, ?_, ?_⟩
  · intro A k which sigma r _ h
    dsimp only at h
    split at h
    · rename_i hh
      obtain ⟨rfl, rfl, rfl, rfl⟩ := hh
      cases h
      refine ⟨fun _ => 0, fun _ _ => 1 / √3, by simp, fun _ => hsum, fun i j => ?_, fun _ _ _ => le_refl _, fun _ x l _ _ _ _ => by simp⟩
      rw [if_pos (Subsingleton.elim i j)]
      exact hunit
    · cases h
  · intro i j k h
    simp only [List.mem_cons, List.not_mem_nil, or_false, Prod.mk.injEq] at h
    obtain ⟨rfl, rfl, rfl⟩ := h
    have h1 : triangle 1 = (1, 0, 0) := rfl
    have h2 : triangle 2 = (0, 1, 0) := rfl
    have h0 : triangle 0 = (0, 0, 0) := rfl
    norm_num [area, dot3, cross3, h0, h1, h2]
  · intro u v
    refine Relation.ReflTransGen.single ⟨0, 1, 2, by simp, ?_, ?_⟩
    · fin_cases u <;> simp
    · fin_cases v <;> simp
  · simp only [meshEigendecomposition, bind, Except.bind, pure, Except.pure, Option.getD_some, and_self, if_true]
    simp only [MeshT.orthonormalise, MeshT.integrateWholeMesh, hunit, List.map_cons, List.map_nil, Real.sqrt_one, div_one]

end Sleplet.Props
