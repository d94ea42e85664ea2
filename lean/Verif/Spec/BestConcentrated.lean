import Mathlib.Analysis.RCLike.Basic
import Mathlib.Data.Fintype.BigOperators

/-!
Independent vocabulary: the concentration problem.  `V` are the fields under consideration, `inner` their inner product over the
whole domain, `region f` the energy of `f` in the region.
-/
namespace Sleplet.Spec

/-- The fields `s` with numbers `e` solve the concentration problem. -/
structure BestConcentrated {𝕜 X : Type*} [RCLike 𝕜] [AddCommGroup X] [Module 𝕜 X] (V : Set X) (inner : X → X → 𝕜) (region : X → ℝ)
    {n : ℕ} (s : Fin n → X) (e : Fin n → ℝ) : Prop where
  /-- they are fields of the kind considered, orthonormal, -/
  mem : ∀ p, s p ∈ V
  orthonormal : ∀ p q, inner (s p) (s q) = if p = q then 1 else 0
  /-- every field is the sum of its components along them, -/
  expand : ∀ f ∈ V, f = ∑ p, inner f (s p) • s p
  /-- energies are sums over the components, with weights `e` for the energy in the region, -/
  energy : ∀ f ∈ V, RCLike.re (inner f f) = ∑ p, ‖inner f (s p)‖ ^ 2
  energyIn : ∀ f ∈ V, region f = ∑ p, e p * ‖inner f (s p)‖ ^ 2
  /-- `s k` has the energy `e k` in the region, the greatest part of the energy among the fields orthogonal to those before it, -/
  attained : ∀ k, region (s k) = e k
  best : ∀ k, ∀ f ∈ V, (∀ p < k, inner f (s p) = 0) → region f ≤ e k * RCLike.re (inner f f)
  /-- what is left of a field after the components along the first `k` are removed is not greater than the field, and at most the
  part `e k` of its energy is in the region, -/
  remainder : ∀ k, ∀ f ∈ V, ∀ g, g = f - ∑ p with p < k, inner f (s p) • s p →
    region g ≤ e k * RCLike.re (inner g g) ∧ RCLike.re (inner g g) ≤ RCLike.re (inner f f)
  /-- no `k` orthonormal fields have more energy in the region together than the first `k`. -/
  family : ∀ (k : ℕ) (u : Fin k → X), (∀ i, u i ∈ V) → (∀ i j, inner (u i) (u j) = if i = j then 1 else 0) →
    ∑ i, region (u i) ≤ ∑ p : Fin n with p.val < k, e p

end Sleplet.Spec
