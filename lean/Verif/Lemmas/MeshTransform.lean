import Mathlib.Algebra.BigOperators.Fin
import Mathlib.LinearAlgebra.Matrix.NonsingularInverse
import Mathlib.Tactic.Ring
import Mathlib.Tactic.Linarith
import Verif.Model.MeshTransform

namespace Sleplet.MeshT

/-! ### real orthonormal families on finite sets -/

section LinAlg

variable {X : Type} [Fintype X] {N : ℕ}

theorem comb_inner (ψ : Fin N → X → ℝ) (h : ∀ p q, ∑ x, ψ p x * ψ q x = if p = q then 1 else 0) (a : Fin N → ℝ) (q : Fin N) :
    ∑ x, (∑ p, a p * ψ p x) * ψ q x = a q := by
  calc ∑ x, (∑ p, a p * ψ p x) * ψ q x = ∑ p, a p * ∑ x, ψ p x * ψ q x := by
        simp only [Finset.sum_mul, Finset.mul_sum]
        rw [Finset.sum_comm]
        exact Finset.sum_congr rfl fun p _ => Finset.sum_congr rfl fun x _ => by ring
    _ = a q := by simp [h]

theorem comb_comb (ψ : Fin N → X → ℝ) (h : ∀ p q, ∑ x, ψ p x * ψ q x = if p = q then 1 else 0) (a b : Fin N → ℝ) :
    ∑ x, (∑ p, a p * ψ p x) * (∑ q, b q * ψ q x) = ∑ p, a p * b p := by
  calc ∑ x, (∑ p, a p * ψ p x) * (∑ q, b q * ψ q x) = ∑ q, b q * ∑ x, (∑ p, a p * ψ p x) * ψ q x := by
        simp only [Finset.mul_sum]
        rw [Finset.sum_comm]
        refine Finset.sum_congr rfl fun q _ => Finset.sum_congr rfl fun x _ => by ring
    _ = _ := Finset.sum_congr rfl fun q _ => by rw [comb_inner ψ h]; ring

theorem residual_orthogonal (ψ : Fin N → X → ℝ) (h : ∀ p q, ∑ x, ψ p x * ψ q x = if p = q then 1 else 0) (u : X → ℝ)
    (q : Fin N) : ∑ x, (u x - ∑ p, (∑ y, u y * ψ p y) * ψ p x) * ψ q x = 0 := by
  have := comb_inner ψ h (fun p => ∑ y, u y * ψ p y) q
  simp only [sub_mul, Finset.sum_sub_distrib, this, sub_self]

theorem bessel (ψ : Fin N → X → ℝ) (h : ∀ p q, ∑ x, ψ p x * ψ q x = if p = q then 1 else 0) (u : X → ℝ) :
    ∑ p, (∑ y, u y * ψ p y) ^ 2 ≤ ∑ x, u x ^ 2 := by
  set F : Fin N → ℝ := fun p => ∑ y, u y * ψ p y
  set g : X → ℝ := fun x => ∑ p, F p * ψ p x
  have h1 : ∑ x, g x * g x = ∑ p, F p * F p := comb_comb ψ h F F
  have h2 : ∑ x, (u x - g x) * g x = 0 := by
    calc ∑ x, (u x - g x) * g x = ∑ p, F p * ∑ x, (u x - g x) * ψ p x := by
          simp only [Finset.mul_sum]
          rw [Finset.sum_comm]
          refine Finset.sum_congr rfl fun x _ => ?_
          conv_lhs => rw [show g x = ∑ p, F p * ψ p x from rfl, Finset.mul_sum]
          exact Finset.sum_congr rfl fun p _ => by ring
      _ = 0 := Finset.sum_eq_zero fun p _ => by rw [residual_orthogonal ψ h u p, mul_zero]
  have h3 : ∑ x, u x ^ 2 = ∑ x, (u x - g x) ^ 2 + 2 * ∑ x, (u x - g x) * g x + ∑ x, g x * g x := by
    rw [Finset.mul_sum, ← Finset.sum_add_distrib, ← Finset.sum_add_distrib]
    exact Finset.sum_congr rfl fun x _ => by ring
  have h4 : 0 ≤ ∑ x, (u x - g x) ^ 2 := Finset.sum_nonneg fun x _ => by positivity
  have h5 : ∑ p, F p ^ 2 = ∑ p, F p * F p := Finset.sum_congr rfl fun p _ => by ring
  rw [h2, h1] at h3
  rw [h5]
  linarith

end LinAlg

/-! ### the model on explicit families -/

variable {V : Type} {K : ℕ}

theorem meshInverse_ofFn (φ : Fin K → V → ℝ) (a : Fin K → ℝ) :
    meshInverse (List.ofFn φ) (List.ofFn a) = .ok fun v => ∑ i, a i * φ i v := by
  unfold meshInverse
  rw [NumPy.broadcast_of_length_eq _ _ _ (by simp)]
  simp only [bind, Except.bind, pure, Except.pure, Except.ok.injEq]
  funext v
  have : List.map (fun t => t v) (List.zipWith (fun (c : ℝ) (phi : V → ℝ) => fun v => c * phi v) (List.ofFn a) (List.ofFn φ)) =
      List.ofFn fun i : Fin K => a i * φ i v := by
    apply List.ext_getElem
    · simp
    · intro i h1 h2
      simp
  rw [this, List.sum_ofFn]

theorem meshForward_ofFn [Fintype V] (φ : Fin K → V → ℝ) (u : V → ℝ) :
    meshForward K (List.ofFn φ) u = .ok (List.ofFn fun i => ∑ v, u v * φ i v) := by
  unfold meshForward
  rw [if_pos (by simp)]
  congr 1
  apply List.ext_getElem
  · simp
  · intro i h1 h2
    simp at h2
    simp [integrateWholeMesh]

theorem validateRank_ok {nb rank : ℕ} (h : rank < nb) : validateRank nb rank = .ok () := by
  unfold validateRank
  rw [if_neg (by omega), if_neg (by omega)]

theorem sum_broadcast_mul (a b : Fin K → ℝ) :
    (do let prod ← NumPy.broadcast (· * ·) (List.ofFn a) (List.ofFn b); return prod.sum : Except Err ℝ) =
      .ok (∑ i, a i * b i) := by
  rw [NumPy.broadcast_of_length_eq _ _ _ (by simp)]
  simp only [bind, Except.bind, pure, Except.pure, Except.ok.injEq]
  have : List.zipWith (· * ·) (List.ofFn a) (List.ofFn b) = List.ofFn fun i => a i * b i := by
    apply List.ext_getElem
    · simp
    · intro i h1 h2; simp
  rw [this, List.sum_ofFn]

theorem decomposeAll_ok [Fintype V] (ms : MeshSlepian V) (inp : Inputs V) (g : ℕ → ℝ) (rs : List ℕ)
    (h : ∀ r ∈ rs, decompose ms inp r = .ok (g r)) : decomposeAll ms inp rs = .ok (rs.map g) := by
  induction rs with
  | nil => rfl
  | cons r rs ih =>
    unfold decomposeAll
    rw [h r (by simp), ih fun r hr => h r (by simp [hr])]
    rfl

theorem computeSp_ok (ms : MeshSlepian V) (s : ℕ → V → ℝ) (ps : List ℕ)
    (h : ∀ p ∈ ps, ∃ row, ms.evecs[p]? = some row ∧ meshInverse ms.basis row = .ok (s p)) :
    computeSp ms ps = .ok (ps.map s) := by
  induction ps with
  | nil => rfl
  | cons p ps ih =>
    unfold computeSp
    obtain ⟨row, h1, h2⟩ := h p (by simp)
    rw [ih fun p hp => h p (by simp [hp])]
    simp [NumPy.item, h1, h2, bind, Except.bind, pure, Except.pure]

theorem slepianMeshInverse_ok {N : ℕ} (ms : MeshSlepian V) (hN : ms.N = N) (φ : Fin K → V → ℝ)
    (hb : ms.basis = List.ofFn φ) (S : Fin N → Fin K → ℝ) (hS : ∀ p : Fin N, ms.evecs[(p : ℕ)]? = some (List.ofFn (S p)))
    (a : Fin N → ℝ) :
    slepianMeshInverse ms (List.ofFn a) = .ok fun v => ∑ p, a p * ∑ i, S p i * φ i v := by
  unfold slepianMeshInverse
  have h' : ∀ p ∈ List.range ms.N, ∃ row, ms.evecs[p]? = some row ∧ meshInverse ms.basis row =
      .ok ((fun p v => if hp : p < N then ∑ i, S ⟨p, hp⟩ i * φ i v else 0) p) := by
    intro p hp
    have hp : p < N := by rw [← hN]; simpa using hp
    refine ⟨_, hS ⟨p, hp⟩, ?_⟩
    rw [hb, meshInverse_ofFn]
    simp only [hp, dite_true]
  rw [computeSp_ok ms _ _ h']
  simp only [bind, Except.bind]
  rw [NumPy.broadcast_of_length_eq _ _ _ (by simp [hN])]
  simp only [pure, Except.pure, Except.ok.injEq]
  funext v
  have : (List.map (fun t => t v) (List.zipWith (fun (c : ℝ) (s : V → ℝ) => fun v => c * s v) (List.take ms.N (List.ofFn a))
      (List.map (fun (p : ℕ) (v : V) => if hp : p < N then ∑ i, S ⟨p, hp⟩ i * φ i v else 0) (List.range ms.N)))) =
      List.ofFn fun p : Fin N => a p * ∑ i, S p i * φ i v := by
    apply List.ext_getElem
    · simp [hN]
    · intro i h1 h2
      simp at h2
      simp [h2]
  rw [this, List.sum_ofFn]

/-- the value of `decompose` on explicit families, for the three methods. -/
theorem decompose_values [Fintype V] (ms : MeshSlepian V) (φ : Fin K → V → ℝ) (hb : ms.basis = List.ofFn φ) (rank : ℕ)
    (hr : rank < ms.numBasis) (S : Fin K → ℝ) (e : ℝ) (hS : ms.evecs[rank]? = some (List.ofFn S))
    (he : ms.evals[rank]? = some e) :
    (∀ (a : Fin K → ℝ) u mask, decompose ms ⟨u, some (List.ofFn a), mask⟩ rank = .ok (∑ i, a i * S i)) ∧
    (∀ u, decompose ms ⟨some u, none, true⟩ rank =
      .ok ((∑ v, u v * (∑ i, S i * φ i v) * if ms.region v then 1 else 0) / e)) ∧
    (∀ u, decompose ms ⟨some u, none, false⟩ rank = .ok (∑ v, u v * ∑ i, S i * φ i v)) := by
  refine ⟨?_, ?_, ?_⟩
  · intro a u mask
    unfold decompose
    simp only [detectMethod, Option.isSome_some, if_true, validateRank_ok hr, bind, Except.bind]
    have := sum_broadcast_mul a S
    simp only [harmonicSum, NumPy.item, hS, Int.toNat_natCast]
    exact this
  · intro u
    unfold decompose
    simp only [detectMethod, Option.isSome_some, Option.isSome_none, Bool.false_eq_true, if_true, if_false,
      validateRank_ok hr, bind, Except.bind, integrateRegionMethod, NumPy.item, hS, he, hb, Int.toNat_natCast,
      meshInverse_ofFn, pure, Except.pure, integrateRegionMesh]
  · intro u
    unfold decompose
    simp only [detectMethod, Option.isSome_some, Option.isSome_none, Bool.false_eq_true, if_true, if_false,
      validateRank_ok hr, bind, Except.bind, integrateMesh, NumPy.item, hS, hb, Int.toNat_natCast,
      meshInverse_ofFn, pure, Except.pure, integrateWholeMesh]

end Sleplet.MeshT
