import Mathlib.Algebra.BigOperators.Field
import Mathlib.Tactic.FinCases
import Verif.Lemmas.Integration
import Verif.Lemmas.MeshTransform
import Verif.Props.SlepianTransform

/-!
C38, C58, C62 and the quadrature part of C34.
-/
namespace Sleplet.Props

open Real Sleplet.Integration

/-! ### C38 -/

/-- all functions multiplied together. -/
theorem multiplyArgs_cons {X K : Type} [CommMonoid K] (f : X → K) (fs : List (X → K)) :
    multiplyArgs (f :: fs) = .ok (fun x => ((f :: fs).map fun g => g x).prod) := by
  simp only [multiplyArgs, Except.ok.injEq]
  funext x
  induction fs generalizing f with
  | nil => simp
  | cons g gs ih =>
    rw [List.foldl_cons, ih]
    simp [mul_assoc]

theorem multiplyArgs_ok {X K : Type} [CommMonoid K] {fs : List (X → K)} (h : fs ≠ []) :
    multiplyArgs fs = .ok (fun x => (fs.map fun g => g x).prod) := by
  cases fs with
  | nil => exact absurd rfl h
  | cons f fs => exact multiplyArgs_cons f fs

theorem regionSphere_ok {X : Type} [Fintype X] (mask w : X → ℝ) {fs : List (X → ℂ)} (h : fs ≠ []) :
    regionSphere mask w fs = .ok (∑ x, (fs.map fun g => g x).prod * (w x : ℂ) * (mask x : ℂ)) := by
  simp only [regionSphere, multiplyArgs_ok h, bind, Except.bind, pure, Except.pure]

theorem wholeSphere_ok {X : Type} [Fintype X] (w : X → ℝ) {fs : List (X → ℂ)} (h : fs ≠ []) :
    wholeSphere w fs = .ok (∑ x, (fs.map fun g => g x).prod * (w x : ℂ)) := by
  simp only [wholeSphere, multiplyArgs_ok h, bind, Except.bind, pure, Except.pure]

theorem regionMesh_ok {X : Type} [Fintype X] (mask : X → Bool) {fs : List (X → ℝ)} (h : fs ≠ []) :
    regionMesh mask fs = .ok (∑ x, (fs.map fun g => g x).prod * (if mask x then 1 else 0)) := by
  simp only [regionMesh, multiplyArgs_ok h, bind, Except.bind, pure, Except.pure]

theorem wholeMesh_ok {X : Type} [Fintype X] {fs : List (X → ℝ)} (h : fs ≠ []) :
    wholeMesh fs = .ok (∑ x, (fs.map fun g => g x).prod) := by
  simp only [wholeMesh, multiplyArgs_ok h, bind, Except.bind, pure, Except.pure]

/-- C38. Integrating no function is a `TypeError`; otherwise an integral over a region never fails, is linear in each of
the functions, does not depend on their order, a full mask gives the whole integral, an empty mask gives zero, and for a
mask and its complement the two integrals add up to the whole. -/
theorem C38_sphere_integrals {X : Type} [Fintype X] (w mask : X → ℝ) :
    regionSphere mask w [] = .error .typeError ∧ wholeSphere w [] = .error .typeError ∧
    (∀ fs : List (X → ℂ), fs ≠ [] →
      ∃ I W C : ℂ, regionSphere mask w fs = .ok I ∧ wholeSphere w fs = .ok W ∧
        regionSphere (fun x => 1 - mask x) w fs = .ok C ∧ I + C = W ∧
        regionSphere (fun _ => 1) w fs = .ok W ∧ regionSphere (fun _ => 0) w fs = .ok 0 ∧
        ∀ gs, fs.Perm gs → regionSphere mask w gs = .ok I ∧ wholeSphere w gs = .ok W) ∧
    (∀ (pre post : List (X → ℂ)) (a b : ℂ) (f g : X → ℂ), ∃ I J A B : ℂ,
      regionSphere mask w (pre ++ f :: post) = .ok I ∧ regionSphere mask w (pre ++ g :: post) = .ok J ∧
      regionSphere mask w (pre ++ (fun x => a * f x + b * g x) :: post) = .ok (a * I + b * J) ∧
      wholeSphere w (pre ++ f :: post) = .ok A ∧ wholeSphere w (pre ++ g :: post) = .ok B ∧
      wholeSphere w (pre ++ (fun x => a * f x + b * g x) :: post) = .ok (a * A + b * B)) := by
  refine ⟨rfl, rfl, ?_, ?_⟩
  · intro fs h
    refine ⟨_, _, _, regionSphere_ok mask w h, wholeSphere_ok w h, regionSphere_ok _ w h, ?_, ?_, ?_, ?_⟩
    · rw [← Finset.sum_add_distrib]
      refine Finset.sum_congr rfl fun x _ => ?_
      push_cast; ring
    · rw [regionSphere_ok _ w h]; simp
    · rw [regionSphere_ok _ w h]; simp
    · intro gs hp
      have hg : gs ≠ [] := by rintro rfl; exact h hp.eq_nil
      have e : ∀ x, (gs.map fun g => g x).prod = (fs.map fun g => g x).prod := fun x => ((hp.map _).prod_eq).symm
      rw [regionSphere_ok _ w hg, wholeSphere_ok w hg]
      simp only [e, and_self]
  · intro pre post a b f g
    have h : ∀ k : X → ℂ, pre ++ k :: post ≠ [] := by intro k; simp
    refine ⟨_, _, _, _, regionSphere_ok mask w (h f), regionSphere_ok mask w (h g), ?_, wholeSphere_ok w (h f),
      wholeSphere_ok w (h g), ?_⟩
    · rw [regionSphere_ok mask w (h _)]
      congr 1
      simp only [List.map_append, List.map_cons, List.prod_append, List.prod_cons, Finset.mul_sum,
        ← Finset.sum_add_distrib]
      refine Finset.sum_congr rfl fun x _ => ?_
      ring
    · rw [wholeSphere_ok w (h _)]
      congr 1
      simp only [List.map_append, List.map_cons, List.prod_append, List.prod_cons, Finset.mul_sum,
        ← Finset.sum_add_distrib]
      refine Finset.sum_congr rfl fun x _ => ?_
      ring

example : ∃ (fs : List (Fin 2 → ℂ)), fs ≠ [] ∧ regionSphere (fun i => if i = 0 then 1 else 0) (fun _ => 2) fs = .ok 6 := by
  refine ⟨[fun _ => 3, fun _ => 1], by simp, ?_⟩
  rw [regionSphere_ok _ _ (by simp)]
  congr 1
  simp [Fin.sum_univ_two]
  norm_num

/-- C38. With nonnegative weights, the integral of `f conj(f)` over a region is real, nonnegative, grows with the region
and is at most the whole integral. -/
theorem C38_sphere_energy_monotone {X : Type} [Fintype X] (w m m' : X → ℝ) (hw : ∀ x, 0 ≤ w x) (h0 : ∀ x, 0 ≤ m x)
    (hm : ∀ x, m x ≤ m' x) (h1 : ∀ x, m' x ≤ 1) (f : X → ℂ) :
    ∃ I J W : ℝ, regionSphere m w [f, fun x => (starRingEnd ℂ) (f x)] = .ok (I : ℂ) ∧
      regionSphere m' w [f, fun x => (starRingEnd ℂ) (f x)] = .ok (J : ℂ) ∧
      wholeSphere w [f, fun x => (starRingEnd ℂ) (f x)] = .ok (W : ℂ) ∧ 0 ≤ I ∧ I ≤ J ∧ J ≤ W := by
  refine ⟨∑ x, Complex.normSq (f x) * w x * m x, ∑ x, Complex.normSq (f x) * w x * m' x,
    ∑ x, Complex.normSq (f x) * w x, ?_, ?_, ?_, ?_, ?_, ?_⟩
  · rw [regionSphere_ok _ _ (by simp)]; simp [Complex.mul_conj]
  · rw [regionSphere_ok _ _ (by simp)]; simp [Complex.mul_conj]
  · rw [wholeSphere_ok _ (by simp)]; simp [Complex.mul_conj]
  · exact Finset.sum_nonneg fun x _ => mul_nonneg (mul_nonneg (Complex.normSq_nonneg _) (hw x)) (h0 x)
  · exact Finset.sum_le_sum fun x _ => mul_le_mul_of_nonneg_left (hm x) (mul_nonneg (Complex.normSq_nonneg _) (hw x))
  · exact Finset.sum_le_sum fun x _ =>
      mul_le_of_le_one_right (mul_nonneg (Complex.normSq_nonneg _) (hw x)) (h1 x)

example : ∃ (w m m' : Fin 2 → ℝ), (∀ x, 0 ≤ w x) ∧ (∀ x, 0 ≤ m x) ∧ (∀ x, m x ≤ m' x) ∧ (∀ x, m' x ≤ 1) ∧ m ≠ m' := by
  refine ⟨fun _ => 1, fun i => if i = 0 then 1 else 0, fun _ => 1, by simp, ?_, ?_, by simp, ?_⟩
  · intro x; dsimp only; split <;> norm_num
  · intro x; dsimp only; split <;> norm_num
  · intro h; have := congrFun h 1; simp at this

/-- C38. The same on a mesh: `TypeError` without functions, linear in each function, additive over a region and its
complement, full and empty regions, order of the functions, and for squares monotone in the region. -/
theorem C38_mesh_integrals {V : Type} [Fintype V] (mask : V → Bool) :
    regionMesh mask [] = .error .typeError ∧ wholeMesh ([] : List (V → ℝ)) = .error .typeError ∧
    (∀ fs : List (V → ℝ), fs ≠ [] →
      ∃ I W C : ℝ, regionMesh mask fs = .ok I ∧ wholeMesh fs = .ok W ∧ regionMesh (fun v => !mask v) fs = .ok C ∧
        I + C = W ∧ regionMesh (fun _ => true) fs = .ok W ∧ regionMesh (fun _ => false) fs = .ok 0 ∧
        ∀ gs, fs.Perm gs → regionMesh mask gs = .ok I ∧ wholeMesh gs = .ok W) ∧
    (∀ (pre post : List (V → ℝ)) (a b : ℝ) (f g : V → ℝ), ∃ I J A B : ℝ,
      regionMesh mask (pre ++ f :: post) = .ok I ∧ regionMesh mask (pre ++ g :: post) = .ok J ∧
      regionMesh mask (pre ++ (fun x => a * f x + b * g x) :: post) = .ok (a * I + b * J) ∧
      wholeMesh (pre ++ f :: post) = .ok A ∧ wholeMesh (pre ++ g :: post) = .ok B ∧
      wholeMesh (pre ++ (fun x => a * f x + b * g x) :: post) = .ok (a * A + b * B)) ∧
    (∀ (mask' : V → Bool) (f : V → ℝ), (∀ v, mask v = true → mask' v = true) → ∃ I J W : ℝ,
      regionMesh mask [f, f] = .ok I ∧ regionMesh mask' [f, f] = .ok J ∧ wholeMesh [f, f] = .ok W ∧
      0 ≤ I ∧ I ≤ J ∧ J ≤ W) := by
  refine ⟨rfl, rfl, ?_, ?_, ?_⟩
  · intro fs h
    refine ⟨_, _, _, regionMesh_ok mask h, wholeMesh_ok h, regionMesh_ok _ h, ?_, ?_, ?_, ?_⟩
    · rw [← Finset.sum_add_distrib]
      refine Finset.sum_congr rfl fun x _ => ?_
      cases mask x <;> simp
    · rw [regionMesh_ok _ h]; simp
    · rw [regionMesh_ok _ h]; simp
    · intro gs hp
      have hg : gs ≠ [] := by rintro rfl; exact h hp.eq_nil
      have e : ∀ x, (gs.map fun g => g x).prod = (fs.map fun g => g x).prod := fun x => ((hp.map _).prod_eq).symm
      rw [regionMesh_ok _ hg, wholeMesh_ok hg]
      simp only [e, and_self]
  · intro pre post a b f g
    have h : ∀ k : V → ℝ, pre ++ k :: post ≠ [] := by intro k; simp
    refine ⟨_, _, _, _, regionMesh_ok mask (h f), regionMesh_ok mask (h g), ?_, wholeMesh_ok (h f), wholeMesh_ok (h g), ?_⟩
    · rw [regionMesh_ok mask (h _)]
      congr 1
      simp only [List.map_append, List.map_cons, List.prod_append, List.prod_cons, Finset.mul_sum,
        ← Finset.sum_add_distrib]
      refine Finset.sum_congr rfl fun x _ => ?_
      ring
    · rw [wholeMesh_ok (h _)]
      congr 1
      simp only [List.map_append, List.map_cons, List.prod_append, List.prod_cons, Finset.mul_sum,
        ← Finset.sum_add_distrib]
      refine Finset.sum_congr rfl fun x _ => ?_
      ring
  · intro mask' f hm
    refine ⟨_, _, _, regionMesh_ok mask (by simp), regionMesh_ok mask' (by simp), wholeMesh_ok (by simp), ?_, ?_, ?_⟩
    · refine Finset.sum_nonneg fun x _ => ?_
      split <;> simp [mul_self_nonneg]
    · refine Finset.sum_le_sum fun x _ => ?_
      cases hx : mask x
      · cases mask' x <;> simp [mul_self_nonneg]
      · rw [hm x hx]
    · refine Finset.sum_le_sum fun x _ => ?_
      cases mask' x <;> simp [mul_self_nonneg]

example : ∃ fs : List (Fin 3 → ℝ), fs ≠ [] ∧ regionMesh (fun v => decide (v ≠ 0)) fs = .ok 8 := by
  refine ⟨[fun _ => 2, fun v => 2], by simp, ?_⟩
  rw [regionMesh_ok _ (by simp)]
  congr 1
  simp [Fin.sum_univ_three]
  norm_num

/-- C38. The two-function integrals used by the decompositions and the matrices are these. -/
theorem C38_two_functions {X : Type} [Fintype X] (w m : X → ℝ) (f g : X → ℂ) (mask : X → Bool) (u v : X → ℝ) :
    wholeSphere w [f, g] = .ok (Transform.integrateWhole w f g) ∧
    regionSphere m w [f, g] = .ok (Transform.integrateRegion m w f g) ∧
    wholeMesh [u, v] = .ok (MeshT.integrateWholeMesh u v) ∧
    regionMesh mask [u, v] = .ok (MeshT.integrateRegionMesh mask u v) := ⟨rfl, rfl, rfl, rfl⟩

/-! ### C58 -/

theorem meshShannon_mono {V : Type} [Fintype V] {r r' : V → Bool} (h : ∀ v, r v = true → r' v = true) (K : ℕ) :
    meshShannon r K ≤ meshShannon r' K := by
  unfold meshShannon
  apply Py.round_mono
  have : (Finset.univ.filter fun v => r v = true).card ≤ (Finset.univ.filter fun v => r' v = true).card :=
    Finset.card_le_card fun v hv => by
      rw [Finset.mem_filter] at hv ⊢
      exact ⟨hv.1, h v hv.2⟩
  gcongr

/-- C58. On a mesh with at least one vertex and `K` basis functions: the Shannon number is 0 for the empty region, `K`
for the full one, monotone in the region, hence always between 0 and `K`, and within 1/2 of the proportion of vertices
times `K`. -/
theorem C58_mesh_shannon {V : Type} [Fintype V] [Nonempty V] (K : ℕ) :
    meshShannon (fun _ : V => false) K = 0 ∧ meshShannon (fun _ : V => true) K = K ∧
    (∀ r r' : V → Bool, (∀ v, r v = true → r' v = true) → meshShannon r K ≤ meshShannon r' K) ∧
    (∀ r : V → Bool, 0 ≤ meshShannon r K ∧ meshShannon r K ≤ K ∧
      |(meshShannon r K : ℝ) - (Finset.univ.filter fun v => r v = true).card / Fintype.card V * K| ≤ 1 / 2) := by
  have h0 : meshShannon (fun _ : V => false) K = 0 := by
    have := Py.round_intCast 0
    simpa [meshShannon] using this
  have h1 : meshShannon (fun _ : V => true) K = K := by
    have hc : (Fintype.card V : ℝ) ≠ 0 := by exact_mod_cast Fintype.card_ne_zero
    have := Py.round_intCast K
    simpa [meshShannon, hc] using this
  refine ⟨h0, h1, fun r r' h => meshShannon_mono h K, fun r => ⟨?_, ?_, ?_⟩⟩
  · rw [← h0]; exact meshShannon_mono (by simp) K
  · have := meshShannon_mono (r := r) (r' := fun _ => true) (by simp) K
    rwa [h1] at this
  · rw [abs_le]
    unfold meshShannon
    constructor
    · have := Py.sub_half_le_round ((Finset.univ.filter fun v => r v = true).card / Fintype.card V * K)
      linarith
    · have := Py.round_le_add_half ((Finset.univ.filter fun v => r v = true).card / Fintype.card V * K)
      linarith

example : Nonempty (Fin 5) ∧ (Finset.univ.filter fun v : Fin 5 => decide (v.1 < 2) = true).card = 2 :=
  ⟨⟨0⟩, by decide⟩

/-- C58. Hence the transforms stay in range: for a mesh Slepian object whose `N` is this Shannon number, with `K` basis
functions and as many eigenvalues and eigenvector rows (of length `K`) as the program stores at least, namely `N`, the
forward transform of any field returns `N` coefficients and the inverse transform accepts any `N` coefficients. -/
theorem C58_transforms_in_range {V : Type} [Fintype V] [Nonempty V] {K : ℕ} (ms : MeshT.MeshSlepian V)
    (φ : Fin K → V → ℝ) (hb : ms.basis = List.ofFn φ) (hnb : ms.numBasis = K)
    (hN : (ms.N : ℤ) = meshShannon ms.region K) (hvals : ms.N ≤ ms.evals.length)
    (hrows : ms.N ≤ ms.evecs.length) (hlen : ∀ r ∈ ms.evecs, r.length = K) :
    (∀ u mask, ∃ c, MeshT.slepianMeshForward ms ⟨some u, none, mask⟩ none = .ok c ∧ c.length = ms.N) ∧
    (∀ u ui mask, ui.length = K → ∃ c, MeshT.slepianMeshForward ms ⟨u, some ui, mask⟩ none = .ok c ∧ c.length = ms.N) ∧
    (∀ fp : List ℝ, fp.length = ms.N → ∃ f, MeshT.slepianMeshInverse ms fp = .ok f) := by
  have hK : ms.N ≤ K := by
    have := ((C58_mesh_shannon (V := V) K).2.2.2 ms.region).2.1
    omega
  have tup : ∀ (r : List ℝ) (n : ℕ), r.length = n → ∃ S : Fin n → ℝ, r = List.ofFn S := by
    rintro r n rfl
    exact ⟨fun i => r[i], by apply List.ext_getElem <;> simp⟩
  have hrow : ∀ p < ms.N, ∃ S : Fin K → ℝ, ms.evecs[p]? = some (List.ofFn S) := by
    intro p hp
    have hp' : p < ms.evecs.length := by omega
    obtain ⟨S, hS⟩ := tup (ms.evecs[p]) K (hlen _ (List.getElem_mem hp'))
    exact ⟨S, by rw [List.getElem?_eq_getElem hp', hS]⟩
  choose S hS using hrow
  have hval : ∀ p < ms.N, ∃ e, ms.evals[p]? = some e := fun p hp => ⟨_, List.getElem?_eq_getElem (by omega)⟩
  choose e he using hval
  have fwd : ∀ inp, (∃ m, MeshT.detectMethod inp.u.isSome inp.ui.isSome inp.mask = .ok m) →
      (∀ p < ms.N, ∃ c, MeshT.decompose ms inp (p : ℕ) = .ok c) →
      ∃ c, MeshT.slepianMeshForward ms inp none = .ok c ∧ c.length = ms.N := by
    rintro inp ⟨m, hm⟩ h
    choose g hg using h
    refine ⟨(List.range ms.N).map fun p => if hp : p < ms.N then g p hp else 0, ?_, by simp⟩
    unfold MeshT.slepianMeshForward
    rw [hm]
    simp only [bind, Except.bind, Option.getD_none]
    apply MeshT.decomposeAll_ok
    intro p hp
    have hp : p < ms.N := by simpa using hp
    rw [hg p hp]; simp [hp]
  refine ⟨?_, ?_, ?_⟩
  · intro u mask
    apply fwd
    · cases mask
      · exact ⟨_, rfl⟩
      · exact ⟨_, rfl⟩
    · intro p hp
      have := MeshT.decompose_values ms φ hb p (by omega) (S p hp) (e p hp) (hS p hp) (he p hp)
      cases mask
      · exact ⟨_, this.2.2 u⟩
      · exact ⟨_, this.2.1 u⟩
  · intro u ui mask hui
    apply fwd
    · exact ⟨_, rfl⟩
    · intro p hp
      have := MeshT.decompose_values ms φ hb p (by omega) (S p hp) (e p hp) (hS p hp) (he p hp)
      obtain ⟨a, rfl⟩ := tup ui K hui
      exact ⟨_, this.1 a u mask⟩
  · intro fp hfp
    obtain ⟨a, rfl⟩ := tup fp ms.N hfp
    exact ⟨_, MeshT.slepianMeshInverse_ok ms rfl φ hb (fun p => S p p.2) (fun p => hS p p.2) a⟩

example : ∃ (ms : MeshT.MeshSlepian (Fin 2)) (φ : Fin 2 → Fin 2 → ℝ), ms.basis = List.ofFn φ ∧ ms.numBasis = 2 ∧
    (ms.N : ℤ) = meshShannon ms.region 2 ∧ ms.N ≤ ms.evals.length ∧ ms.N ≤ ms.evecs.length ∧
    (∀ r ∈ ms.evecs, r.length = 2) ∧ ms.N = 1 := by
  refine ⟨⟨2, List.ofFn fun i v => if i = v then 1 else 0, fun v => decide (v = 0), 1, [1], [[1, 0]]⟩,
    fun i v => if i = v then 1 else 0, rfl, rfl, ?_, by simp, by simp, by simp, rfl⟩
  have h : (Finset.univ.filter fun v : Fin 2 => decide (v = 0) = true).card = 1 := by decide
  have := Py.round_intCast 1
  simp only [meshShannon, h]
  simpa using this.symm

/-! ### C62 -/

/-- C62. For every bandlimit `L ≥ 1` the integration weights are nonnegative, zero at the poles, and total
`4π · y cot y` with `y = π/(2L)`: never more than the area of the sphere, and short of it by less than
`π³/(2L²)` from `L = 2` on. -/
theorem C62_weights (L : ℕ) (h : 1 ≤ L) :
    (∀ x : Grid L, 0 ≤ weight L x) ∧ (∀ x : Grid L, x.1 = 0 ∨ x.1 = Fin.last L → weight L x = 0) ∧
    ∑ x : Grid L, weight L x = 4 * π * (π / (2 * L) * (cos (π / (2 * L)) / sin (π / (2 * L)))) ∧
    ∑ x : Grid L, weight L x < 4 * π ∧
    (2 ≤ L → 4 * π - π ^ 3 / (2 * (L : ℝ) ^ 2) < ∑ x : Grid L, weight L x) := by
  have hL : (1 : ℝ) ≤ L := by exact_mod_cast h
  have hpi := pi_pos
  refine ⟨weight_nonneg h, ?_, sum_weight h, ?_, ?_⟩
  · rintro ⟨t, p⟩ ht
    rw [weight_eq h]
    rcases ht with ht | ht
    · simp only at ht; rw [ht]; simp
    · simp only at ht; rw [ht]
      have : ((Fin.last L : Fin (L + 1)) : ℕ) = L := rfl
      rw [this, show (L : ℝ) * (π / L) = π by field_simp, sin_pi]; simp
  · rw [sum_weight h]
    have := cot_lt (y := π / (2 * L)) (by positivity) (by
      apply div_le_div_of_nonneg_left hpi.le (by norm_num); linarith)
    nlinarith
  · intro h2
    have hL2 : (2 : ℝ) ≤ L := by exact_mod_cast h2
    rw [sum_weight h]
    have := one_sub_lt_cot (y := π / (2 * L)) (by positivity) (by
      apply div_le_div_of_nonneg_left hpi.le (by norm_num); linarith)
    calc 4 * π - π ^ 3 / (2 * (L : ℝ) ^ 2) = 4 * π * (1 - (π / (2 * L)) ^ 2 / 2) := by field_simp; ring
      _ < _ := by gcongr

example : ∃ x : Grid 2, weight 2 x = (π / 2) ^ 2 := by
  refine ⟨(1, 0), ?_⟩
  rw [weight_eq (by norm_num)]
  simp; ring

/-- C62. The area of a mask is between 0 and `4π`, monotone in the mask, and zero for the empty mask. -/
theorem C62_mask_area (L : ℕ) (h : 1 ≤ L) :
    maskArea L (fun _ => false) = 0 ∧
    (∀ m : Grid (2 * L) → Bool, 0 ≤ maskArea L m ∧ maskArea L m < 4 * π ∧
      maskArea L m + maskArea L (fun x => !m x) = maskArea L fun _ => true) ∧
    (∀ m m' : Grid (2 * L) → Bool, (∀ x, m x = true → m' x = true) → maskArea L m ≤ maskArea L m') := by
  have h2 : 1 ≤ 2 * L := by omega
  have hw := (C62_weights (2 * L) h2)
  have mono : ∀ m m' : Grid (2 * L) → Bool, (∀ x, m x = true → m' x = true) → maskArea L m ≤ maskArea L m' := by
    intro m m' hm
    refine Finset.sum_le_sum fun x _ => mul_le_mul_of_nonneg_right ?_ (hw.1 x)
    cases hx : m x
    · cases m' x <;> simp
    · rw [hm x hx]
  refine ⟨by simp [maskArea], fun m => ⟨?_, ?_, ?_⟩, mono⟩
  · refine Finset.sum_nonneg fun x _ => mul_nonneg ?_ (hw.1 x)
    split <;> norm_num
  · calc maskArea L m ≤ maskArea L fun _ => true := mono _ _ (by simp)
      _ = ∑ x, weight (2 * L) x := by simp [maskArea]
      _ < 4 * π := hw.2.2.2.1
  · rw [maskArea, maskArea, maskArea, ← Finset.sum_add_distrib]
    refine Finset.sum_congr rfl fun x _ => ?_
    cases m x <;> simp

/-- C62. The Shannon number of an arbitrary mask is between 0 and `L²`, monotone in the mask, 0 for the empty mask, and
exactly `L²` for the full mask although the area of the full mask is below `4π`. -/
theorem C62_mask_shannon (L : ℕ) (h : 1 ≤ L) (name : String) :
    (Region.Slepian.arbitrary L name).shannon (maskArea L fun _ => false) = 0 ∧
    (Region.Slepian.arbitrary L name).shannon (maskArea L fun _ => true) = (L : ℤ) ^ 2 ∧
    (∀ m, 0 ≤ (Region.Slepian.arbitrary L name).shannon (maskArea L m) ∧
      (Region.Slepian.arbitrary L name).shannon (maskArea L m) ≤ (L : ℤ) ^ 2) ∧
    (∀ m m' : Grid (2 * L) → Bool, (∀ x, m x = true → m' x = true) →
      (Region.Slepian.arbitrary L name).shannon (maskArea L m) ≤ (Region.Slepian.arbitrary L name).shannon (maskArea L m')) := by
  have hL : (1 : ℝ) ≤ L := by exact_mod_cast h
  have hpi := pi_pos
  obtain ⟨h0, hb, hm⟩ := C62_mask_area L h
  simp only [Region.Slepian.shannon, Region.Slepian.area, Region.Slepian.L]
  have mono : ∀ m m' : Grid (2 * L) → Bool, (∀ x, m x = true → m' x = true) →
      Py.round (maskArea L m * (L : ℝ) ^ 2 / (4 * π)) ≤ Py.round (maskArea L m' * (L : ℝ) ^ 2 / (4 * π)) := by
    intro m m' hmm
    apply Py.round_mono
    have := hm m m' hmm
    gcongr
  have le : ∀ m, Py.round (maskArea L m * (L : ℝ) ^ 2 / (4 * π)) ≤ (L : ℤ) ^ 2 := by
    intro m
    have := (hb m).2.1
    have h1 : maskArea L m * (L : ℝ) ^ 2 / (4 * π) ≤ (((L : ℤ) ^ 2 : ℤ) : ℝ) := by
      rw [div_le_iff₀ (by positivity)]
      push_cast
      nlinarith [sq_nonneg (L : ℝ)]
    calc _ ≤ Py.round (((L : ℤ) ^ 2 : ℤ) : ℝ) := Py.round_mono h1
      _ = _ := Py.round_intCast _
  refine ⟨?_, le_antisymm (le _) ?_, fun m => ⟨?_, le m⟩, mono⟩
  · rw [h0]
    have := Py.round_intCast 0
    simpa using this
  · have hw := (C62_weights (2 * L) (by omega)).2.2.2.2 (by omega)
    have e : maskArea L (fun _ => true) = ∑ x, weight (2 * L) x := by simp [maskArea]
    rw [e]
    set W := ∑ x, weight (2 * L) x
    have k1 : (L : ℝ) ^ 2 - π ^ 2 / 32 < W * (L : ℝ) ^ 2 / (4 * π) := by
      rw [lt_div_iff₀ (by positivity)]
      push_cast at hw
      have hL2 : (0 : ℝ) < (L : ℝ) ^ 2 := by positivity
      calc ((L : ℝ) ^ 2 - π ^ 2 / 32) * (4 * π) = (4 * π - π ^ 3 / (2 * (2 * (L : ℝ)) ^ 2)) * (L : ℝ) ^ 2 := by
            field_simp; ring
        _ < W * (L : ℝ) ^ 2 := by gcongr
    have k2 : π ^ 2 / 32 < 1 / 2 := by nlinarith [pi_lt_d2]
    have k3 := Py.sub_half_le_round (W * (L : ℝ) ^ 2 / (4 * π))
    have k4 : (((L : ℤ) ^ 2 : ℤ) : ℝ) - 1 < (Py.round (W * (L : ℝ) ^ 2 / (4 * π)) : ℝ) := by push_cast; linarith
    have : ((L : ℤ) ^ 2 - 1) < Py.round (W * (L : ℝ) ^ 2 / (4 * π)) := by exact_mod_cast k4
    omega
  · exact Py.round_nonneg (div_nonneg (mul_nonneg (hb m).1 (by positivity)) (by positivity))

example : (Region.Slepian.arbitrary 3 "africa").shannon (maskArea 3 fun _ => true) = 9 := by
  have := (C62_mask_shannon 3 (by norm_num) "africa").2.1
  simpa using this

/-- C34, negative part. With the program's own weights the three ways do not agree exactly: for every `L ≥ 1` and every
Slepian object whose first eigenvector is the constant harmonic, decomposing that same constant function gives 1 from
its coefficients but strictly less than 1 by integration over the sphere. -/
theorem C34_quadrature_violation (L : ℕ) (h : 1 ≤ L) (sl : Transform.Slepian (L ^ 2))
    (synth : (Fin (L ^ 2) → ℂ) → Grid L → ℂ) (e0 : Fin (L ^ 2) → ℂ) (he0 : e0 = fun i => if i.1 = 0 then 1 else 0)
    (hs : ∀ x, synth e0 x = ((1 / sqrt (4 * π) : ℝ) : ℂ)) (hv : sl.evecs[0]? = some e0) (hval : sl.evals[0]? ≠ none) :
    Transform.decompose sl synth (weight L) ⟨none, some e0, none⟩ 0 = .ok 1 ∧
    ∃ c : ℝ, Transform.decompose sl synth (weight L) ⟨some (synth e0), none, none⟩ 0 = .ok (c : ℂ) ∧ 0 ≤ c ∧ c < 1 := by
  obtain ⟨e, he⟩ := Option.ne_none_iff_exists'.mp hval
  have hpos : 0 < L ^ 2 := by positivity
  obtain ⟨h1, -, h3⟩ := C33_method_selection sl synth (weight L) 0 e0 e hv he hpos
  have h1' := h1 e0 none none
  have h3' := h3 (synth e0)
  simp only [Nat.cast_zero] at h1' h3'
  have hw := C62_weights L h
  have hpi := pi_pos
  refine ⟨?_, (∑ x, weight L x) / (4 * π), ?_, ?_, ?_⟩
  · rw [h1']
    congr 1
    rw [Finset.sum_eq_single (⟨0, hpos⟩ : Fin (L ^ 2))]
    · simp [he0]
    · intro b _ hb
      have : b.1 ≠ 0 := fun hb0 => hb (Fin.ext hb0)
      simp [he0, this]
    · simp
  · rw [h3']
    congr 1
    simp only [hs, Complex.conj_ofReal, ← Complex.ofReal_mul, ← Complex.ofReal_sum]
    congr 1
    rw [Finset.sum_div]
    refine Finset.sum_congr rfl fun x _ => ?_
    rw [div_mul_div_comm, mul_self_sqrt (by positivity)]; ring
  · exact div_nonneg (Finset.sum_nonneg fun x _ => hw.1 x) (by positivity)
  · rw [div_lt_one (by positivity)]; exact hw.2.2.2.1

example : ∃ (sl : Transform.Slepian (2 ^ 2)) (synth : (Fin (2 ^ 2) → ℂ) → Grid 2 → ℂ),
    (∀ x, synth (fun i => if i.1 = 0 then 1 else 0) x = ((1 / sqrt (4 * π) : ℝ) : ℂ)) ∧
    sl.evecs[0]? = some (fun i => if i.1 = 0 then 1 else 0) ∧ sl.evals[0]? ≠ none :=
  ⟨⟨1, [1], [fun i => if i.1 = 0 then 1 else 0]⟩, fun c _ => c 0 * ((1 / sqrt (4 * π) : ℝ) : ℂ), by simp, rfl, by simp⟩

end Sleplet.Props
