import Verif.Model.HarmonicIndex
import Mathlib.Data.Complex.Basic

namespace Sleplet.Spec

/-- Harmonic coefficients, one for each degree below `L` and order, of a real-valued function on the sphere:
`f(l, -m) = (-1)^m conj f(l, m)`; in particular the coefficients of order 0 are real. -/
def RealSignal (L : ℕ) (flm : List ℂ) : Prop :=
  flm.length = L ^ 2 ∧ ∀ (l : ℕ) (m : ℤ), l < L → |m| ≤ l →
    flm.getD (elm2ind l (-m)) 0 = (-1) ^ m * (starRingEnd ℂ) (flm.getD (elm2ind l m) 0)

end Sleplet.Spec
