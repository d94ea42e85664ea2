import Mathlib.Data.Complex.BigOperators

/-!
Independent vocabulary for eigensolutions.
-/
namespace Sleplet.Spec

/-- rows of `S` are orthonormal: `∑_c S p c · conj(S q c) = δ_{pq}`. -/
def OrthonormalRows {ι κ : Type} [Fintype κ] [DecidableEq ι] (S : ι → κ → ℂ) : Prop :=
  ∀ p q, ∑ c, S p c * (starRingEnd ℂ) (S q c) = if p = q then 1 else 0

/-- What the eigensolver promises for a Hermitian matrix `D`: column `k` of `V` is an eigenvector for the real
eigenvalue `w k`, and the columns are orthonormal. -/
def IsEigh {n : ℕ} (D : Fin n → Fin n → ℂ) (w : Fin n → ℂ) (V : Fin n → Fin n → ℂ) : Prop :=
  (∀ k, (w k).im = 0) ∧ (∀ k r, ∑ c, D r c * V c k = w k * V r k) ∧ OrthonormalRows fun k r => V r k

/-- real case. -/
def IsEighReal {n : ℕ} (D : Fin n → Fin n → ℝ) (w : Fin n → ℝ) (V : Fin n → Fin n → ℝ) : Prop :=
  (∀ k r, ∑ c, D r c * V c k = w k * V r k) ∧ ∀ k k', ∑ r, V r k * V r k' = if k = k' then 1 else 0

end Sleplet.Spec
