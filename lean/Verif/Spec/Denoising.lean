import Mathlib.Analysis.Complex.Norm
import Mathlib.Data.List.GetD
import Mathlib.Data.Nat.Sqrt

/-!
Words for stating what denoising does.
-/
namespace Sleplet.Spec

open Classical in
/-- the field that is `f` where its magnitude reaches the threshold and zero elsewhere. -/
noncomputable def clipBelow {Pix : Type} (f : Pix → ℂ) (threshold : Pix → ℝ) : Pix → ℂ :=
  fun x => if threshold x ≤ ‖f x‖ then f x else 0

/-- harmonic coefficients with those of degree `l` multiplied by `k(l)`; the degree of coefficient `i` is `⌊√i⌋`. -/
noncomputable def byDegree (L : ℕ) (k : List ℝ) (c : List ℂ) : List ℂ :=
  (List.range (L ^ 2)).map fun i => (k.getD (Nat.sqrt i) 0 : ℂ) * c.getD i 0

/-- the sum of squared magnitudes. -/
noncomputable def powerOf (c : List ℂ) : ℝ := (c.map fun x => ‖x‖ ^ 2).sum

end Sleplet.Spec
