import Mathlib.LinearAlgebra.Matrix.Charpoly.Basic
import Verif.Lemmas.SphHarm
import Verif.Model.PolarFigures
import Verif.Props.CacheOrders
import Verif.Lemmas.Writes

/-!
Helper lemmas for the figures of polar-cap Slepian functions.
-/
namespace Sleplet.PolarFigures

open Sleplet.Eigen Sleplet.Props Sleplet.Cache

/-- two decompositions of one matrix have the same eigenvalues. -/
theorem eigenvalues_perm {n : ℕ} {D : ℕ → ℕ → ℝ} {s s' : OrderSolution} (h : IsEighOrder n D s) (h' : IsEighOrder n D s') : s.1.Perm s'.1 := by
  let A : Matrix (Fin n) (Fin n) ℝ := fun i j => D i j
  have key : ∀ s : OrderSolution, IsEighOrder n D s → A.charpoly.roots = (s.1 : Multiset ℝ) := by
    intro s hs
    obtain ⟨h1, h2, h3⟩ := hs
    let V : Matrix (Fin n) (Fin n) ℝ := fun r k => s.2 r k
    have hV : V.transpose * V = 1 := by
      ext i j
      rw [Matrix.mul_apply, Matrix.one_apply]
      have := h3 i i.2 j j.2
      rw [← Fin.sum_univ_eq_sum_range (fun r => s.2 r i * s.2 r j)] at this
      refine this.trans ?_
      simp only [Fin.ext_iff]
    have hV' : V * V.transpose = 1 := mul_eq_one_comm.1 hV
    have hA : A * V = V * Matrix.diagonal fun k : Fin n => s.1.getD k 0 := by
      ext i j
      rw [Matrix.mul_apply, Matrix.mul_diagonal]
      have := h2 j j.2 i i.2
      rw [← Fin.sum_univ_eq_sum_range (fun c => D i c * s.2 c j)] at this
      simp only [A, V]
      rw [this, mul_comm]
    have hA' : A = V * Matrix.diagonal (fun k : Fin n => s.1.getD k 0) * V.transpose := by
      rw [← hA, Matrix.mul_assoc, hV', Matrix.mul_one]
    have : A.charpoly = ∏ k : Fin n, (Polynomial.X - Polynomial.C (s.1.getD k 0)) := by
      rw [hA', Matrix.charpoly_mul_comm, ← Matrix.mul_assoc, hV, Matrix.one_mul, Matrix.charpoly_diagonal]
    have hl : s.1 = List.ofFn fun k : Fin n => s.1.getD k 0 := by
      apply List.ext_getElem
      · simp [h1]
      · intro i hi _
        simp [List.getD_eq_getElem?_getD, List.getElem?_eq_getElem hi]
    rw [this, ← Polynomial.roots_multiset_prod_X_sub_C (s.1 : Multiset ℝ), Multiset.map_coe, Multiset.prod_coe]
    congr 1
    conv_rhs => rw [hl, List.map_ofFn, List.prod_ofFn]
    rfl
  have := (key s h).symm.trans (key s' h')
  exact Multiset.coe_eq_coe.1 this

/-- the positions of an order. -/
def positions (o : List ℤ) (m : ℤ) : List ℕ := (List.range o.length).filter fun p => decide (o[p]? = some m)

theorem mem_positions {o : List ℤ} {m : ℤ} {p : ℕ} : p ∈ positions o m ↔ o[p]? = some m := by
  unfold positions
  simp only [List.mem_filter, List.mem_range, decide_eq_true_eq, and_iff_right_iff_imp]
  intro h
  exact (List.getElem?_eq_some_iff.1 h).1

theorem positions_pairwise (o : List ℤ) (m : ℤ) : (positions o m).Pairwise (· < ·) := List.pairwise_lt_range.filter _

theorem gather_positions {α : Type} (d : α) (a : List α) (o : List ℤ) (m : ℤ) (h : o.length ≤ a.length) :
    gather a o m = .ok ((positions o m).map fun p => a.getD p d) := by
  unfold gather positions
  apply mapM_eq_ok
  intro p hp
  have : p < a.length := by
    have := (List.mem_filter.1 hp).1
    rw [List.mem_range] at this
    omega
  simp [List.getElem?_eq_getElem this, List.getD_eq_getElem?_getD]

/-- the eigenvalues at the positions of order `m`, and the eigenvectors there. -/
theorem values_at_positions {L : ℕ} {sol : ℤ → OrderSolution} (hlen : ∀ m : ℤ, m.natAbs < L → (sol m).1.length = L - m.natAbs)
    {e : List ℝ} {v : List (List ℂ)} {o : List ℤ} (h : SolvesAll L sol (.ok (e, v, o))) {m : ℤ} (hm : m.natAbs < L) :
    e.length = o.length ∧ v.length = o.length ∧
    ∀ es : List ℝ, es.Perm (sol m).1 → es.Pairwise (· ≥ ·) → (positions o m).map (fun p => e.getD p 0) = es := by
  obtain ⟨idx, idxAll, hidx, hall, hres'⟩ := h
  have hm' := natAbs_lt_of_mem.2 hm
  have hb : ∀ m ∈ ordersRange L, (sol m).1.length = L - m.natAbs ∧ (idx m).Perm (List.range (sol m).1.length) :=
    fun m hm => ⟨hlen m (natAbs_lt_of_mem.1 hm), (hidx m hm).1⟩
  have hacc := accumulate_eq L sol idx (ordersRange L) hb
  have hall := hall _ _ _ hacc
  have hallp : idxAll.Perm (List.range (keys idx (ordersRange L)).length) := by
    have := hall.1
    rwa [List.length_map] at this
  obtain ⟨ks, hperm, hks, hres⟩ := solveAll_eq L sol idx idxAll hb hallp
  have hsolve := Except.ok.inj (hres'.symm.trans hres)
  simp only [Prod.mk.injEq] at hsolve
  obtain ⟨rfl, rfl, rfl⟩ := hsolve
  have hfil : (ks.filter fun q => decide (q.1 = m)).Perm ((idx m).reverse.map fun k => (m, k)) := by
    have := hperm.filter fun q => decide (q.1 = m)
    rwa [filter_keys idx _ (nodup_orders L) m hm'] at this
  have hdesc : (ks.map fun q => (sol q.1).1.getD q.2 0).Pairwise (· ≥ ·) := by
    have hlt : ∀ k ∈ idxAll.reverse, k < (keys idx (ordersRange L)).length := by
      intro k hk
      have := hallp.subset (List.mem_reverse.1 hk)
      simpa using this
    have h2 : ks.map (fun q => (sol q.1).1.getD q.2 0) =
        (idxAll.map fun k => ((keys idx (ordersRange L)).map fun q => (sol q.1).1.getD q.2 0).getD k 0).reverse := by
      rw [hks, ← List.map_reverse]
      exact (map_getD_map _ _ _ hlt _ _).symm
    rw [h2, List.pairwise_reverse]
    exact hall.2
  refine ⟨by simp, by simp, fun es hes hsorted => ?_⟩
  have h1 := gather_positions (0 : ℝ) (ks.map fun q => (sol q.1).1.getD q.2 0) (ks.map Prod.fst) m (by simp)
  rw [gather_map ks Prod.fst] at h1
  have h2 := Except.ok.inj h1
  rw [← h2]
  have h3 := hfil.map fun q : ℤ × ℕ => (sol q.1).1.getD q.2 0
  rw [List.map_map] at h3
  refine List.Perm.eq_of_pairwise (le := fun a b : ℝ => a ≥ b) (fun a b _ _ hab hba => le_antisymm hba hab) ?_ hsorted (h3.trans ?_)
  · exact hdesc.sublist ((List.filter_sublist).map _)
  · refine List.Perm.trans ?_ hes.symm
    have h4 : ((List.range (sol m).1.length).map fun k => (sol m).1.getD k 0) = (sol m).1 := map_getD_range _ _
    have h5 := (((List.reverse_perm (idx m)).trans (hb m hm').2).map fun k => (sol m).1.getD k 0)
    rw [h4] at h5
    exact h5

end Sleplet.PolarFigures
