import Mathlib.Tactic.FinCases
import Mathlib.Algebra.BigOperators.Field
import Verif.Lemmas.MeshTransform
import Verif.Props.DMatrixReal
import Verif.Props.EigenClean

/-!
C35, C36 and the mesh versions of C32, C33, C34, C50.
-/
namespace Sleplet.Props

open Sleplet.MeshT Sleplet.Eigen Sleplet.Spec

variable {V : Type} [Fintype V] {K : ℕ}

/-- the family is orthonormal for the vertex sum. -/
def OrthonormalOnVertices (φ : Fin K → V → ℝ) : Prop := ∀ i j, ∑ v, φ i v * φ j v = if i = j then 1 else 0

/-- C35. What the forward transform computes for any number of basis functions: the products with the field, in order, then zeros up to the
number of eigenvalues; with more basis functions than eigenvalues it fails. -/
theorem C35_forward_values {k : ℕ} (φ : Fin k → V → ℝ) (K : ℕ) (u : V → ℝ) :
    (k ≤ K → ∃ c, meshForward K (List.ofFn φ) u = .ok c ∧ c.length = K ∧ (∀ i : Fin k, c[(i : ℕ)]? = some (∑ v, u v * φ i v)) ∧
      ∀ i, k ≤ i → i < K → c[i]? = some 0) ∧
    (K < k → meshForward K (List.ofFn φ) u = .error .indexError) := by
  unfold meshForward
  rw [List.length_ofFn]
  refine ⟨fun h => ?_, fun h => if_neg (by omega)⟩
  rw [if_pos h]
  refine ⟨_, rfl, by simp; omega, fun i => ?_, fun i h1 h2 => ?_⟩
  · rw [List.getElem?_append_left (by simp)]
    simp [integrateWholeMesh]
  · rw [List.getElem?_append_right (by simpa using h1)]
    simp [List.getElem?_replicate]
    omega

/-- one basis function on two vertices and two eigenvalues. -/
example : ∃ c, meshForward 2 (List.ofFn (fun _ : Fin 1 => fun v : Fin 2 => (v : ℝ))) (fun _ => 3) = .ok c ∧ c[0]? = some 3 ∧ c[1]? = some 0 := by
  obtain ⟨c, h1, -, h2, h3⟩ := (C35_forward_values (fun _ : Fin 1 => fun v : Fin 2 => (v : ℝ)) 2 (fun _ => 3)).1 (by norm_num)
  refine ⟨c, h1, (h2 0).trans (by simp [Fin.sum_univ_two]), h3 1 le_rfl (by norm_num)⟩

/-- C35. With orthonormal basis functions: every coefficient vector survives inverse-then-forward, energy is preserved,
and forward-then-inverse of any field `u` succeeds with the orthogonal projection `g` of `u` onto the span of the basis
functions (the residual is orthogonal to all of them, and projecting `g` again gives `g`), never with more energy. -/
theorem C35_mesh_round_trip (φ : Fin K → V → ℝ) (h : OrthonormalOnVertices φ) :
    (∀ c : Fin K → ℝ, ∃ f, meshInverse (List.ofFn φ) (List.ofFn c) = .ok f ∧
      meshForward K (List.ofFn φ) f = .ok (List.ofFn c) ∧ ∑ v, f v ^ 2 = ∑ i, c i ^ 2) ∧
    (∀ u : V → ℝ, ∃ (a : Fin K → ℝ) (g : V → ℝ), meshForward K (List.ofFn φ) u = .ok (List.ofFn a) ∧
      meshInverse (List.ofFn φ) (List.ofFn a) = .ok g ∧ (∀ v, g v = ∑ i, a i * φ i v) ∧
      (∀ i, ∑ v, (u v - g v) * φ i v = 0) ∧ ∑ v, g v ^ 2 ≤ ∑ v, u v ^ 2) := by
  constructor
  · intro c
    refine ⟨_, meshInverse_ofFn φ c, ?_, ?_⟩
    · rw [meshForward_ofFn]
      congr 2
      funext i
      exact comb_inner φ h c i
    · have := comb_comb φ h c c
      simpa only [sq] using this
  · intro u
    refine ⟨_, _, meshForward_ofFn φ u, meshInverse_ofFn φ _, fun v => rfl, residual_orthogonal φ h u, ?_⟩
    have h1 := comb_comb φ h (fun i => ∑ v, u v * φ i v) (fun i => ∑ v, u v * φ i v)
    have h2 := bessel φ h u
    simp only [sq] at h2 ⊢
    rw [h1]
    exact h2

/-- two orthonormal functions on three vertices. -/
example : OrthonormalOnVertices (V := Fin 3) (K := 2) ![![1, 0, 0], ![0, 3 / 5, 4 / 5]] := by
  intro i j
  fin_cases i <;> fin_cases j <;> (simp [Fin.sum_univ_three]; try norm_num)

/-- C36. Normalising keeps the number of functions, keeps orthogonal functions orthogonal and gives every function that is
not identically zero unit norm, without changing its direction. -/
theorem C36_orthonormalise (basis : List (V → ℝ)) :
    (orthonormalise basis).length = basis.length ∧
    (∀ (i : ℕ) (f g : V → ℝ), basis[i]? = some f → (orthonormalise basis)[i]? = some g → (∃ v, f v ≠ 0) →
      ∑ v, g v * g v = 1 ∧ ∃ s > 0, ∀ v, g v = s * f v) ∧
    (∀ (i j : ℕ) (f f' g g' : V → ℝ), basis[i]? = some f → basis[j]? = some f' → (orthonormalise basis)[i]? = some g →
      (orthonormalise basis)[j]? = some g' → ∑ v, f v * f' v = 0 → ∑ v, g v * g' v = 0) := by
  have get : ∀ (i : ℕ) (f g : V → ℝ), basis[i]? = some f → (orthonormalise basis)[i]? = some g →
      g = fun v => f v / Real.sqrt (∑ w, f w * f w) := by
    intro i f g hf hg
    simp only [orthonormalise, List.getElem?_map, hf, Option.map_some, Option.some.injEq, integrateWholeMesh] at hg
    exact hg.symm
  refine ⟨by simp [orthonormalise], ?_, ?_⟩
  · intro i f g hf hg ⟨v0, hv0⟩
    have hpos : 0 < ∑ w, f w * f w :=
      Finset.sum_pos' (fun w _ => mul_self_nonneg _) ⟨v0, Finset.mem_univ _, mul_self_pos.2 hv0⟩
    rw [get i f g hf hg]
    refine ⟨?_, 1 / Real.sqrt (∑ w, f w * f w), by positivity, fun v => by ring⟩
    simp only [div_mul_div_comm, Real.mul_self_sqrt hpos.le]
    rw [← Finset.sum_div, div_self hpos.ne']
  · intro i j f f' g g' hf hf' hg hg' h0
    rw [get i f g hf hg, get j f' g' hf' hg']
    simp only [div_mul_div_comm]
    rw [← Finset.sum_div, h0, zero_div]

/-- normalising two orthogonal functions on two vertices: norms 5 and 10 become one. -/
example : (orthonormalise (V := Fin 2) [![3, 4], ![-8, 6]])[0]? = some ![3 / 5, 4 / 5] := by
  have : Real.sqrt 25 = 5 := by rw [show (25 : ℝ) = 5 ^ 2 by norm_num]; exact Real.sqrt_sq (by norm_num)
  simp only [orthonormalise, integrateWholeMesh, List.map_cons, List.getElem?_cons_zero, Fin.sum_univ_two]
  norm_num [this]
  funext v
  fin_cases v <;> simp

/-- C33 on meshes: which formula is used, and what is rejected. -/
theorem C33_mesh_method_selection (ms : MeshSlepian V) (φ : Fin K → V → ℝ) (hb : ms.basis = List.ofFn φ) :
    (∀ (rank : ℕ) (S : Fin K → ℝ) (e : ℝ), rank < ms.numBasis → ms.evecs[rank]? = some (List.ofFn S) →
      ms.evals[rank]? = some e →
      (∀ (a : Fin K → ℝ) u mask, decompose ms ⟨u, some (List.ofFn a), mask⟩ rank = .ok (∑ i, a i * S i)) ∧
      (∀ u, decompose ms ⟨some u, none, true⟩ rank =
        .ok ((∑ v, u v * (∑ i, S i * φ i v) * if ms.region v then 1 else 0) / e)) ∧
      (∀ u, decompose ms ⟨some u, none, false⟩ rank = .ok (∑ v, u v * ∑ i, S i * φ i v))) ∧
    (∀ mask (rank : ℤ), decompose ms ⟨none, none, mask⟩ rank = .error .runtimeError) ∧
    (∀ inp : Inputs V, (inp.u ≠ none ∨ inp.ui ≠ none) → ∀ rank : ℤ, (rank < 0 ∨ (ms.numBasis : ℤ) ≤ rank) →
      decompose ms inp rank = .error .valueError) := by
  refine ⟨fun rank S e hr hS he => decompose_values ms φ hb rank hr S e hS he, ?_, ?_⟩
  · intro mask rank
    simp [decompose, MeshT.detectMethod, bind, Except.bind]
  · intro inp h rank hr
    have hval : MeshT.validateRank ms.numBasis rank = .error .valueError := by
      unfold MeshT.validateRank
      rcases hr with hr | hr
      · rw [if_pos hr]
      · by_cases h0 : rank < 0
        · rw [if_pos h0]
        · rw [if_neg h0, if_pos hr]
    obtain ⟨u, ui, mask⟩ := inp
    simp only at h
    unfold MeshT.decompose
    cases ui with
    | some ui => simp [MeshT.detectMethod, hval, bind, Except.bind]
    | none =>
      cases u with
      | some u => cases mask <;> simp [MeshT.detectMethod, hval, bind, Except.bind]
      | none => simp at h

/-- A mesh Slepian object as the library builds it: orthonormal basis functions `φ`, the concentration matrix `M`
filled by some schedule of the workers, an eigendecomposition of it, cleaned.  `rows` is how many eigenvector rows are
available (all after computing, `N` after loading). -/
structure BuiltMesh (ms : MeshSlepian V) (φ : Fin K → V → ℝ) (e : Fin K → ℝ) (S : Fin K → Fin K → ℝ) (rows : ℕ) : Prop where
  basis : ms.basis = List.ofFn φ
  number : ms.numBasis = K
  orth : OrthonormalOnVertices φ
  built : ∃ (ncpu : ℕ) (we : ℕ → Option Err) (M : ℕ → ℕ → ℝ) (w : Fin K → ℝ) (W : Fin K → Fin K → ℝ), 1 ≤ ncpu ∧
    RealMat.CreatesMesh K (RealMat.meshIntegral ms.region ms.basis) ncpu we (.ok M) ∧
    IsEighReal (fun r c : Fin K => M r c) w W ∧ CleansMesh w W e S
  evals : ms.evals = List.ofFn e
  le_rows : ms.N ≤ rows
  rows_le : rows ≤ K
  evecs : ms.evecs = (List.ofFn fun p => List.ofFn (S p)).take rows

theorem BuiltMesh.eigen {ms : MeshSlepian V} {φ : Fin K → V → ℝ} {e : Fin K → ℝ} {S : Fin K → Fin K → ℝ} {rows : ℕ}
    (h : BuiltMesh ms φ e S rows) :
    (∀ p r, ∑ c, (∑ v, φ r v * φ c v * if ms.region v then 1 else 0) * S p c = e p * S p r) ∧
    ∀ p q, ∑ c, S p c * S q c = if p = q then 1 else 0 := by
  obtain ⟨ncpu, we, M, w, W, hpos, hc, heigh, hclean⟩ := h.built
  obtain ⟨-, M', h1, h2, -⟩ := C05_mesh_matrix_schedule_independent ms.region ms.basis K (by simp [h.basis]) ncpu hpos we _ hc
  injection h1 with h1
  subst h1
  obtain ⟨h3, h4⟩ := C18_mesh_orthonormal_eigenvectors _ w W heigh e S hclean
  refine ⟨fun p r => ?_, h4⟩
  rw [← h3 p r]
  refine Finset.sum_congr rfl fun c _ => ?_
  rw [h2 r (by simp [h.basis]) c (by simp [h.basis])]
  congr 1
  have hget : ∀ i : Fin K, ms.basis[(i : ℕ)]'(by simp [h.basis]) = φ i := by
    intro i
    apply Option.some_injective
    rw [← List.getElem?_eq_getElem, h.basis]
    simp
  simp only [meshInner, Finset.sum_filter, hget]
  exact Finset.sum_congr rfl fun v _ => by simp

theorem BuiltMesh.row {ms : MeshSlepian V} {φ : Fin K → V → ℝ} {e : Fin K → ℝ} {S : Fin K → Fin K → ℝ} {rows : ℕ}
    (h : BuiltMesh ms φ e S rows) (p : Fin K) (hp : (p : ℕ) < rows) :
    ms.evecs[(p : ℕ)]? = some (List.ofFn (S p)) ∧ ms.evals[(p : ℕ)]? = some (e p) := by
  constructor
  · rw [h.evecs, List.getElem?_take_of_lt hp]; simp
  · rw [h.evals]; simp

/-- C50 on meshes, end to end and without assumptions on quadrature: for every schedule and sorting permutation, the
Slepian fields are orthonormal over the mesh and orthogonal over the region, `e_p` is the energy inside the region,
lies in `[0, 1]`, and the eigenvalues add up to the region integrals of the squared basis functions. -/
theorem C50_mesh_energy_ratio (ms : MeshSlepian V) (φ : Fin K → V → ℝ) (e : Fin K → ℝ) (S : Fin K → Fin K → ℝ) (rows : ℕ)
    (h : BuiltMesh ms φ e S rows) :
    let s : Fin K → V → ℝ := fun p v => ∑ i, S p i * φ i v
    (∀ p q, ∑ v, s p v * s q v = if p = q then 1 else 0) ∧
    (∀ p q, (∑ v with ms.region v = true, s p v * s q v) = if p = q then e p else 0) ∧
    (∀ p, 0 ≤ e p ∧ e p ≤ 1) ∧ Antitone e ∧
    ∑ p, e p = ∑ i, ∑ v with ms.region v = true, φ i v ^ 2 := by
  intro s
  obtain ⟨heig, horth⟩ := h.eigen
  have h1 : ∀ p q, ∑ v, s p v * s q v = if p = q then 1 else 0 := by
    intro p q
    rw [comb_comb φ h.orth, horth]
  have h2 : ∀ p q, (∑ v with ms.region v = true, s p v * s q v) = if p = q then e p else 0 := by
    intro p q
    calc (∑ v with ms.region v = true, s p v * s q v)
        = ∑ v, s p v * s q v * (if ms.region v then 1 else 0) := by
          rw [Finset.sum_filter]; exact Finset.sum_congr rfl fun v _ => by simp
      _ = ∑ r, S q r * ∑ c, (∑ v, φ r v * φ c v * if ms.region v then 1 else 0) * S p c := by
          simp only [s]
          calc ∑ v, (∑ c, S p c * φ c v) * (∑ r, S q r * φ r v) * (if ms.region v then 1 else 0)
              = ∑ v, ∑ r, ∑ c, S q r * ((φ r v * φ c v * if ms.region v then 1 else 0) * S p c) := by
                refine Finset.sum_congr rfl fun v _ => ?_
                rw [Finset.sum_mul_sum, Finset.sum_comm, Finset.sum_mul]
                refine Finset.sum_congr rfl fun r _ => ?_
                rw [Finset.sum_mul]
                exact Finset.sum_congr rfl fun c _ => by ring
            _ = _ := by
                rw [Finset.sum_comm]
                refine Finset.sum_congr rfl fun r _ => ?_
                rw [Finset.sum_comm, Finset.mul_sum]
                refine Finset.sum_congr rfl fun c _ => ?_
                rw [Finset.sum_mul, Finset.mul_sum]
      _ = ∑ r, S q r * (e p * S p r) := by simp only [heig]
      _ = e p * ∑ r, S p r * S q r := by
          rw [Finset.mul_sum]; exact Finset.sum_congr rfl fun r _ => by ring
      _ = _ := by rw [horth]; split <;> simp
  refine ⟨h1, h2, fun p => ?_, ?_, ?_⟩
  · have ha := h1 p p
    have hb := h2 p p
    rw [if_pos rfl] at ha hb
    constructor
    · rw [← hb]; exact Finset.sum_nonneg fun v _ => mul_self_nonneg _
    · rw [← hb, ← ha]
      exact Finset.sum_le_sum_of_subset_of_nonneg (Finset.filter_subset _ _) fun v _ _ => mul_self_nonneg _
  · obtain ⟨_, _, _, w, W, _, _, _, hclean⟩ := h.built
    exact (C17_mesh_sorted_and_paired w W e S hclean).1
  · have hcol : ∀ r c, ∑ p, S p r * S p c = if r = c then 1 else 0 := by
      have h1 : (Matrix.of S) * (Matrix.of S).transpose = 1 := by
        ext p q
        rw [Matrix.mul_apply, Matrix.one_apply]
        exact horth p q
      have h2 := mul_eq_one_comm.1 h1
      intro r c
      have := congrFun (congrFun h2 r) c
      rw [Matrix.mul_apply, Matrix.one_apply] at this
      exact this
    have he : ∀ p, e p = ∑ r, S p r * ∑ c, (∑ v, φ r v * φ c v * if ms.region v then 1 else 0) * S p c := by
      intro p
      simp only [heig]
      calc e p = e p * ∑ r, S p r * S p r := by rw [horth]; simp
        _ = _ := by rw [Finset.mul_sum]; exact Finset.sum_congr rfl fun r _ => by ring
    calc ∑ p, e p = ∑ p, ∑ r, S p r * ∑ c, (∑ v, φ r v * φ c v * if ms.region v then 1 else 0) * S p c :=
          Finset.sum_congr rfl fun p _ => he p
      _ = ∑ r, ∑ c, (∑ v, φ r v * φ c v * if ms.region v then 1 else 0) * ∑ p, S p r * S p c := by
          rw [Finset.sum_comm]
          refine Finset.sum_congr rfl fun r _ => ?_
          calc ∑ p, S p r * ∑ c, (∑ v, φ r v * φ c v * if ms.region v then 1 else 0) * S p c
              = ∑ p, ∑ c, (∑ v, φ r v * φ c v * if ms.region v then 1 else 0) * (S p r * S p c) :=
                Finset.sum_congr rfl fun p _ => by
                  rw [Finset.mul_sum]; exact Finset.sum_congr rfl fun c _ => by ring
            _ = _ := by
                rw [Finset.sum_comm]
                exact Finset.sum_congr rfl fun c _ => by rw [Finset.mul_sum]
      _ = ∑ r, ∑ v, φ r v * φ r v * (if ms.region v then 1 else 0) := by
          refine Finset.sum_congr rfl fun r _ => ?_
          simp [hcol]
      _ = _ := by
          refine Finset.sum_congr rfl fun r _ => ?_
          rw [Finset.sum_filter]
          exact Finset.sum_congr rfl fun v _ => by split <;> simp [sq]

/-- C34 on meshes, end to end: for a built object and every signal synthesised from coefficients `a`, the three ways to
compute the Slepian coefficient agree whenever the eigenvalue is not zero (the first two always). -/
theorem C34_mesh_three_methods_agree (ms : MeshSlepian V) (φ : Fin K → V → ℝ) (e : Fin K → ℝ) (S : Fin K → Fin K → ℝ)
    (rows : ℕ) (h : BuiltMesh ms φ e S rows) (p : Fin K) (hp : (p : ℕ) < rows) (a : Fin K → ℝ) :
    ∃ u c, meshInverse ms.basis (List.ofFn a) = .ok u ∧ decompose ms ⟨none, some (List.ofFn a), false⟩ (p : ℕ) = .ok c ∧
      decompose ms ⟨some u, none, false⟩ (p : ℕ) = .ok c ∧
      (e p ≠ 0 → decompose ms ⟨some u, none, true⟩ (p : ℕ) = .ok c) := by
  obtain ⟨heig, horth⟩ := h.eigen
  obtain ⟨hS, he⟩ := h.row p hp
  obtain ⟨h1, h2, h3⟩ := decompose_values ms φ h.basis p (by rw [h.number]; exact p.2) (S p) (e p) hS he
  refine ⟨_, _, by rw [h.basis]; exact meshInverse_ofFn φ a, h1 a none false, ?_, fun hne => ?_⟩
  · rw [h3]
    congr 1
    exact comb_comb φ h.orth a (S p)
  · rw [h2]
    congr 1
    rw [div_eq_iff hne]
    calc ∑ v, (∑ c, a c * φ c v) * (∑ r, S p r * φ r v) * (if ms.region v then 1 else 0)
        = ∑ v, ∑ c, ∑ r, a c * ((φ c v * φ r v * if ms.region v then 1 else 0) * S p r) := by
          refine Finset.sum_congr rfl fun v _ => ?_
          rw [Finset.sum_mul_sum, Finset.sum_mul]
          refine Finset.sum_congr rfl fun r _ => ?_
          rw [Finset.sum_mul]
          exact Finset.sum_congr rfl fun c _ => by ring
      _ = ∑ c, a c * ∑ r, (∑ v, φ c v * φ r v * if ms.region v then 1 else 0) * S p r := by
          rw [Finset.sum_comm]
          refine Finset.sum_congr rfl fun c _ => ?_
          rw [Finset.sum_comm, Finset.mul_sum]
          refine Finset.sum_congr rfl fun r _ => ?_
          rw [Finset.sum_mul, Finset.mul_sum]
      _ = _ := by
          simp only [heig]
          rw [Finset.sum_mul]
          exact Finset.sum_congr rfl fun c _ => by ring

/-- C32 on meshes, end to end: for a built object, forward-then-inverse of any mesh field gives the orthogonal projection
onto the first `N` Slepian functions; the coefficients have no more energy than the field; a combination of the first
`N` Slepian functions is recovered exactly.  No row out of range is ever read. -/
theorem C32_mesh_round_trip (ms : MeshSlepian V) (φ : Fin K → V → ℝ) (e : Fin K → ℝ) (S : Fin K → Fin K → ℝ) (rows : ℕ)
    (h : BuiltMesh ms φ e S rows) (u : V → ℝ) :
    let s : Fin ms.N → V → ℝ := fun p v => ∑ i, S ⟨p, by have := h.le_rows; have := h.rows_le; omega⟩ i * φ i v
    ∃ (F : Fin ms.N → ℝ) (g : V → ℝ), slepianMeshForward ms ⟨some u, none, false⟩ none = .ok (List.ofFn F) ∧
      slepianMeshInverse ms (List.ofFn F) = .ok g ∧ (∀ v, g v = ∑ p, F p * s p v) ∧
      (∀ p, ∑ v, (u v - g v) * s p v = 0) ∧ ∑ p, F p ^ 2 ≤ ∑ v, u v ^ 2 ∧
      (∀ a : Fin ms.N → ℝ, (∀ v, u v = ∑ p, a p * s p v) → F = a ∧ g = u) := by
  intro s
  have hNK : ms.N ≤ K := h.le_rows.trans h.rows_le
  have hs : ∀ p q, ∑ v, s p v * s q v = if p = q then 1 else 0 := by
    intro p q
    have := (C50_mesh_energy_ratio ms φ e S rows h).1 ⟨p, by omega⟩ ⟨q, by omega⟩
    simp only [Fin.mk.injEq, ← Fin.ext_iff] at this
    exact this
  have hinv := slepianMeshInverse_ok (N := ms.N) ms rfl φ h.basis (fun p => S ⟨p, by omega⟩)
    (fun p => (h.row ⟨p, by omega⟩ (by have := h.le_rows; simp only; omega)).1) (fun p => ∑ v, u v * s p v)
  refine ⟨_, _, ?_, hinv, fun v => rfl, residual_orthogonal s hs u, bessel s hs u, ?_⟩
  · unfold slepianMeshForward
    simp only [MeshT.detectMethod, Option.isSome_some, Option.isSome_none, Bool.false_eq_true, if_true, if_false, bind,
      Except.bind, Option.getD_none]
    rw [MeshT.decomposeAll_ok ms _ (fun r => if hr : r < ms.N then ∑ v, u v * s ⟨r, hr⟩ v else 0)]
    · congr 1
      apply List.ext_getElem
      · simp
      · intro i h1 h2
        simp at h2
        simp [h2]
    · intro r hr
      have hr : r < ms.N := by simpa using hr
      have hrow := h.row ⟨r, by omega⟩ (by have := h.le_rows; simp only; omega)
      have := (decompose_values ms φ h.basis r (by rw [h.number]; omega) _ _ hrow.1 hrow.2).2.2 u
      rw [this]
      simp only [hr, dite_true, s]
  · intro a ha
    have hF : (fun p => ∑ v, u v * s p v) = a := by
      funext q
      simp only [ha]
      exact comb_inner s hs a q
    refine ⟨hF, ?_⟩
    funext v
    rw [ha v]
    exact Finset.sum_congr rfl fun p _ => by rw [← congrFun hF p]

/-- Built objects exist for every orthonormal basis whose region matrix has a known eigendecomposition: here two vertices
with delta functions and the region consisting of the second vertex. -/
example : ∃ (ms : MeshSlepian (Fin 2)) (S : Fin 2 → Fin 2 → ℝ), ms.N = 1 ∧
    BuiltMesh ms ![![1, 0], ![0, 1]] ![1, 0] S 1 := by
  let φ : Fin 2 → Fin 2 → ℝ := ![![1, 0], ![0, 1]]
  let S : Fin 2 → Fin 2 → ℝ := ![![0, 1], ![1, 0]]
  let ms : MeshSlepian (Fin 2) := ⟨2, List.ofFn φ, fun v => decide (v = 1), 1, List.ofFn ![1, 0],
    (List.ofFn fun p => List.ofFn (S p)).take 1⟩
  obtain ⟨we, M, hM⟩ := C05_run_exists 2 (RealMat.meshHelper 2 (RealMat.meshIntegral ms.region ms.basis)) RealMat.fillUpper 3
    (by norm_num)
  obtain ⟨-, M', h1, h2, -⟩ := C05_mesh_matrix_schedule_independent ms.region ms.basis 2 (by simp [ms]) 3 (by norm_num) we _ hM
  injection h1 with h1
  subst h1
  refine ⟨ms, S, rfl, rfl, rfl, ?_, ⟨3, we, M, ![0, 1], ![![1, 0], ![0, 1]], by norm_num, hM, ⟨?_, ?_⟩, ?_⟩, rfl, le_rfl,
    by norm_num, rfl⟩
  · intro i j
    fin_cases i <;> fin_cases j <;> simp
  · have hMv : ∀ r c : Fin 2, M r c = if r = 1 ∧ c = 1 then 1 else 0 := by
      intro r c
      rw [h2 r (by simp [ms]; omega) c (by simp [ms]; omega)]
      fin_cases r <;> fin_cases c <;> simp [meshInner, ms, φ, Finset.sum_filter]
    intro k r
    simp only [hMv]
    fin_cases k <;> fin_cases r <;> simp
  · intro k k'
    fin_cases k <;> fin_cases k' <;> simp
  · refine ⟨Equiv.refl _, ?_, ?_⟩
    · intro a b hab
      fin_cases a <;> fin_cases b <;> simp_all
    · have r0 : Fin.rev (0 : Fin 2) = 1 := rfl
      have r1 : Fin.rev (1 : Fin 2) = 0 := rfl
      simp only [cleanMesh, Prod.mk.injEq]
      constructor
      · funext p; fin_cases p <;> simp [r0, r1]
      · funext p c; fin_cases p <;> fin_cases c <;> simp [r0, r1, S]

/-! ### C64 -/

/-- masking on explicit families is multiplication by the region matrix. -/
theorem maskedBandlimited_ofFn (φ : Fin K → V → ℝ) (region : V → Bool) (a : Fin K → ℝ) :
    maskedBandlimited K (List.ofFn φ) region (List.ofFn a) =
      .ok (List.ofFn fun i => ∑ j, (∑ v, φ i v * φ j v * if region v then 1 else 0) * a j) := by
  unfold maskedBandlimited
  rw [meshInverse_ofFn]
  simp only [bind, Except.bind]
  rw [meshForward_ofFn]
  congr 2
  funext i
  simp only [Finset.sum_mul]
  rw [Finset.sum_comm]
  refine Finset.sum_congr rfl fun v _ => ?_
  cases region v
  · simp
  · simp only [if_true, Finset.sum_mul, mul_one]
    exact Finset.sum_congr rfl fun j _ => by ring

/-- C64. Masking a mesh signal and bandlimiting it again, with orthonormal basis functions: never fails; the full region
changes nothing and the empty one gives zero; it is linear and symmetric; the result never has more energy than the
part of the field inside the region, which is at most the energy of the input. -/
theorem C64_masked_bandlimited (φ : Fin K → V → ℝ) (h : OrthonormalOnVertices φ) (region : V → Bool) :
    ∃ T : (Fin K → ℝ) → Fin K → ℝ,
      (∀ a, maskedBandlimited K (List.ofFn φ) region (List.ofFn a) = .ok (List.ofFn (T a))) ∧
      ((∀ v, region v = true) → ∀ a, T a = a) ∧ ((∀ v, region v = false) → ∀ a, T a = fun _ => 0) ∧
      (∀ (s t : ℝ) a b, T (fun i => s * a i + t * b i) = fun i => s * T a i + t * T b i) ∧
      (∀ a b, ∑ i, T a i * b i = ∑ i, a i * T b i) ∧
      (∀ a, ∑ i, T a i ^ 2 ≤ ∑ v, (if region v then (∑ i, a i * φ i v) ^ 2 else 0) ∧
        ∑ v, (if region v then (∑ i, a i * φ i v) ^ 2 else 0) ≤ ∑ i, a i ^ 2) := by
  refine ⟨fun a i => ∑ j, (∑ v, φ i v * φ j v * if region v then 1 else 0) * a j, maskedBandlimited_ofFn φ region,
    ?_, ?_, ?_, ?_, ?_⟩
  · intro hr a
    funext i
    have h' : ∀ i j, ∑ v, φ i v * φ j v = if i = j then 1 else 0 := h
    simp [hr, h']
  · intro hr a
    funext i
    simp [hr]
  · intro s t a b
    funext i
    rw [Finset.mul_sum, Finset.mul_sum, ← Finset.sum_add_distrib]
    exact Finset.sum_congr rfl fun j _ => by ring
  · intro a b
    simp only [Finset.sum_mul, Finset.mul_sum]
    rw [Finset.sum_comm]
    refine Finset.sum_congr rfl fun j _ => Finset.sum_congr rfl fun i _ => Finset.sum_congr rfl fun v _ => by ring
  · intro a
    have hT : ∀ i, ∑ j, (∑ v, φ i v * φ j v * if region v then 1 else 0) * a j =
        ∑ v, (if region v then ∑ j, a j * φ j v else 0) * φ i v := by
      intro i
      simp only [Finset.sum_mul]
      rw [Finset.sum_comm]
      refine Finset.sum_congr rfl fun v _ => ?_
      cases region v
      · simp
      · simp only [if_true, Finset.sum_mul, mul_one]
        exact Finset.sum_congr rfl fun j _ => by ring
    constructor
    · simp only [hT]
      refine (bessel φ h _).trans_eq ?_
      refine Finset.sum_congr rfl fun v _ => ?_
      cases region v <;> simp
    · have := comb_comb φ h a a
      calc _ ≤ ∑ v, (∑ i, a i * φ i v) * (∑ i, a i * φ i v) := by
            refine Finset.sum_le_sum fun v _ => ?_
            cases region v
            · simp [mul_self_nonneg]
            · simp [sq]
        _ = ∑ i, a i ^ 2 := by rw [this]; exact Finset.sum_congr rfl fun i _ => by ring

example : maskedBandlimited 2 (List.ofFn (![![1, 0, 0], ![0, 3 / 5, 4 / 5]] : Fin 2 → Fin 3 → ℝ)) (fun v => decide (v ≠ 2))
    (List.ofFn ![2, 5]) = .ok (List.ofFn ![2, 9 / 5]) := by
  rw [maskedBandlimited_ofFn]
  congr 2
  funext i
  fin_cases i <;> simp [Fin.sum_univ_three]
  norm_num

/-- C64. For a mesh Slepian object as the library builds it, masking and bandlimiting multiplies each Slepian function by
its eigenvalue: the program's two ways of restricting to a region (the concentration matrix, and masking a field) are
the same operator. -/
theorem C64_mesh_slepian_functions (ms : MeshSlepian V) (φ : Fin K → V → ℝ) (e : Fin K → ℝ) (S : Fin K → Fin K → ℝ)
    (rows : ℕ) (h : BuiltMesh ms φ e S rows) (p : Fin K) :
    maskedBandlimited ms.numBasis ms.basis ms.region (List.ofFn (S p)) = .ok (List.ofFn fun i => e p * S p i) := by
  rw [h.basis, h.number, maskedBandlimited_ofFn]
  congr 2
  funext r
  exact h.eigen.1 p r

end Sleplet.Props
