import Mathlib.Analysis.Real.Sqrt
import Mathlib.Data.Nat.Factorial.Basic
import Mathlib.Algebra.BigOperators.Group.Finset.Basic

namespace Sleplet.Spec

/-- Wigner's formula for `d^l_{ab}(β)` at `β = π/2`, where all powers of `cos β/2` and `sin β/2` combine to `2^{-l}`:
`2^{-l} √((l+a)!(l-a)!(l+b)!(l-b)!) ∑_s (-1)^{a-b+s} / ((l+b-s)! s! (a-b+s)! (l-a-s)!)`, over the `s` for which no factorial has a
negative argument. -/
noncomputable def wignerHalfPi (l : ℕ) (a b : ℤ) : ℝ :=
  (1 / 2) ^ l * Real.sqrt ((l + a).toNat.factorial * (l - a).toNat.factorial * ((l + b).toNat.factorial * (l - b).toNat.factorial)) *
    ∑ s ∈ Finset.range (2 * l + 1),
      if 0 ≤ l + b - s ∧ 0 ≤ a - b + s ∧ 0 ≤ l - a - s then
        (-1) ^ (a - b + s).toNat / ((l + b - s).toNat.factorial * s.factorial * ((a - b + s).toNat.factorial * (l - a - s).toNat.factorial) : ℝ)
      else 0

end Sleplet.Spec
