import Mathlib.Analysis.Matrix.Spectrum
import Mathlib.Data.List.Sort
import Mathlib.Data.Fin.Tuple.Sort
import Verif.Props.EigenClean

/-!
Existence: every symmetric matrix has a decomposition the eigensolver contract allows, and every list has sorting permutations.
-/
namespace Sleplet.Eigen

open Sleplet.Props

theorem exists_eighOrder (n : ℕ) (D : ℕ → ℕ → ℝ) (hD : ∀ i < n, ∀ j < n, D i j = D j i) : ∃ s, IsEighOrder n D s := by
  classical
  let A : Matrix (Fin n) (Fin n) ℝ := fun i j => D i j
  have hA : A.IsHermitian := by
    ext i j
    simp only [star_trivial, A]
    exact hD j j.2 i i.2
  let V : ℕ → ℕ → ℝ := fun r k => if h : r < n ∧ k < n then hA.eigenvectorBasis ⟨k, h.2⟩ ⟨r, h.1⟩ else 0
  have hV : ∀ r k : Fin n, V r k = hA.eigenvectorBasis k r := by
    intro r k; simp [V]
  refine ⟨(List.ofFn hA.eigenvalues, V), by simp, ?_, ?_⟩
  · intro k hk r hr
    have h1 := congrFun (hA.mulVec_eigenvectorBasis ⟨k, hk⟩) ⟨r, hr⟩
    simp only [Matrix.mulVec, dotProduct, Pi.smul_apply, smul_eq_mul] at h1
    rw [← Fin.sum_univ_eq_sum_range (fun c => D r c * V c k)]
    have e1 : V r k = hA.eigenvectorBasis ⟨k, hk⟩ ⟨r, hr⟩ := hV ⟨r, hr⟩ ⟨k, hk⟩
    have e2 : (List.ofFn hA.eigenvalues).getD k 0 = hA.eigenvalues ⟨k, hk⟩ := by
      simp [List.getD_eq_getElem?_getD, List.getElem?_ofFn, hk]
    change _ = (List.ofFn hA.eigenvalues).getD k 0 * V r k
    rw [e1, e2, ← h1]
    exact Finset.sum_congr rfl fun c _ => by rw [hV c ⟨k, hk⟩]
  · intro k hk k' hk'
    have h1 := orthonormal_iff_ite.1 hA.eigenvectorBasis.orthonormal ⟨k, hk⟩ ⟨k', hk'⟩
    simp only [PiLp.inner_apply, RCLike.inner_apply, conj_trivial, Fin.mk.injEq] at h1
    rw [← h1, ← Fin.sum_univ_eq_sum_range (fun r => V r k * V r k')]
    exact Finset.sum_congr rfl fun r _ => by rw [hV r ⟨k, hk⟩, hV r ⟨k', hk'⟩, mul_comm]

/-- every Hermitian matrix. -/
theorem exists_eigh {n : ℕ} (D : Fin n → Fin n → ℂ) (hD : ∀ i j, (starRingEnd ℂ) (D i j) = D j i) : ∃ w V, Spec.IsEigh D w V := by
  classical
  let A : Matrix (Fin n) (Fin n) ℂ := fun i j => D i j
  have hA : A.IsHermitian := by
    ext i j
    exact hD j i
  refine ⟨fun k => (hA.eigenvalues k : ℂ), fun r k => hA.eigenvectorBasis k r, fun k => by simp, ?_, ?_⟩
  · intro k r
    have h1 := congrFun (hA.mulVec_eigenvectorBasis k) r
    simp only [Matrix.mulVec, dotProduct, Pi.smul_apply, Complex.real_smul] at h1
    exact h1
  · intro k k'
    have h1 := orthonormal_iff_ite.1 hA.eigenvectorBasis.orthonormal k' k
    simp only [PiLp.inner_apply, RCLike.inner_apply] at h1
    rw [h1]
    simp only [eq_comm]

theorem exists_argsortList (w : List ℝ) : ∃ idx, IsArgsortList w idx := by
  classical
  let R : ℕ → ℕ → Prop := fun a b => w.getD a 0 ≤ w.getD b 0
  haveI : Std.Total R := ⟨fun a b => le_total _ _⟩
  haveI : IsTrans ℕ R := ⟨fun a b c => le_trans⟩
  refine ⟨(List.range w.length).insertionSort R, List.perm_insertionSort R _, ?_⟩
  rw [List.pairwise_map]
  exact List.pairwise_insertionSort R _

theorem exists_solvesAll (L : ℕ) (sol : ℤ → OrderSolution) : ∃ r, SolvesAll L sol r := by
  choose idx hidx using fun m : ℤ => exists_argsortList (sol m).1
  rcases h : accumulate L sol idx (ordersRange L) with err | ⟨e, v, o⟩
  · exact ⟨_, idx, [], fun m _ => hidx m, (fun e v o h' => by rw [h] at h'; cases h'), rfl⟩
  · obtain ⟨idxAll, hA⟩ := exists_argsortList e
    refine ⟨_, idx, idxAll, fun m _ => hidx m, fun e' v' o' h' => ?_, rfl⟩
    rw [h] at h'
    injection h' with h'
    obtain rfl := (Prod.mk.inj h').1
    exact hA

end Sleplet.Eigen
