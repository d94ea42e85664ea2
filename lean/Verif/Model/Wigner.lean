import Mathlib.Analysis.Real.Sqrt
import Mathlib.Data.Nat.Factorial.Basic
import Verif.Model.Common

/-!
Model of `slepian/slepian_polar_cap.py:271-362`, `_wigner3j` (Racah formula).  Arguments are integers, which is how the
code calls it; the integrality tests at lines 298-307 and 316 then always pass and are omitted.
-/
namespace Sleplet.Wigner

/-- `gmpy2.factorial`: raises `ValueError` on negative arguments. -/
noncomputable def fact (n : ℤ) : Except Err ℝ :=
  if n < 0 then .error .valueError else .ok ((n.toNat.factorial : ℕ) : ℝ)

/-- Product of factorials; fails as soon as one of them does. -/
noncomputable def factProd : List ℤ → Except Err ℝ
  | [] => .ok 1
  | n :: ns => do
    let a ← fact n
    let b ← factProd ns
    return a * b

/-- `range(tmin, tmax + 1)`. -/
def intRange (tmin tmax : ℤ) : List ℤ := (List.range (tmax + 1 - tmin).toNat).map fun k : ℕ => tmin + (k : ℤ)

/-- `slepian_polar_cap.py:332-340`: one summand. -/
noncomputable def racahTerm (t1 t2 t3 t4 t5 t : ℤ) : Except Err ℝ := do
  let d ← factProd [t, t - t1, t - t2, t3 - t, t4 - t, t5 - t]
  return (-1 : ℝ) ^ t / d

/-- `sum(… for t in ts)`. -/
noncomputable def racahSum (t1 t2 t3 t4 t5 : ℤ) : List ℤ → Except Err ℝ
  | [] => .ok 0
  | t :: ts => do
    let a ← racahTerm t1 t2 t3 t4 t5 t
    let b ← racahSum t1 t2 t3 t4 t5 ts
    return a + b

/-- `slepian_polar_cap.py:271-362`, `_wigner3j(l1, l2, l3, m1, m2, m3)`. -/
noncomputable def wigner3j (l1 l2 l3 m1 m2 m3 : ℤ) : Except Err ℝ :=
  if m1 + m2 + m3 ≠ 0 ∨ l3 < |l1 - l2| ∨ l3 > l1 + l2 ∨ |m1| > |l1| ∨ |m2| > |l2| ∨ |m3| > |l3| then
    .ok 0
  else do
    let t1 := l2 - l3 - m1
    let t2 := l1 - l3 + m2
    let t3 := l1 + l2 - l3
    let t4 := l1 - m1
    let t5 := l2 + m2
    let tmin := max 0 (max t1 t2)
    let tmax := min t3 (min t4 t5)
    let s ← racahSum t1 t2 t3 t4 t5 (intRange tmin tmax)
    let num ← factProd [t3, l1 - l2 + l3, -l1 + l2 + l3]
    let den ← fact (l1 + l2 + l3 + 1)
    let prod ← factProd [l1 + m1, t4, t5, l2 - m2, l3 + m3, l3 - m3]
    return s * ((-1 : ℝ) ^ (l1 - l2 - m3) * Real.sqrt (num / den) * Real.sqrt prod)

end Sleplet.Wigner
