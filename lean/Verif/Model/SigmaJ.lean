import Verif.Model.MeshTransform
import Verif.Model.Noise
import Verif.Model.SlepianTransform

/-!
Standard deviations of the wavelet coefficients of noise: `noise.py:217-240,283-309`.

Real numbers replace floats.  Wavelets are lists of rows; an array without rows is not checked for its number of columns.
-/
namespace Sleplet.SigmaJ

open NumPy

/-- `noise.py:217-225`, `_compute_sigma_j`: one value for each wavelet. -/
noncomputable def sigmaJ (signal : List ℂ) (psi : List (List ℂ)) (snrIn : ℝ) : List ℝ :=
  let sigma := Noise.computeSigmaNoise signal snrIn none
  psi.map fun row => sigma * Real.sqrt (row.map fun x => ‖x‖ ^ 2).sum

/-- `noise.py:238-240` and `noise.py:307-309` for one wavelet: the sum over `p` of `|psi_p|² |s_p|²`, given `|s_p|²`. -/
noncomputable def waveletPower {X : Type} (row : List ℂ) (sp2 : List (X → ℝ)) : Except Err (X → ℝ) := do
  let terms ← broadcast (fun (k : ℂ) (s : X → ℝ) => fun x => ‖k‖ ^ 2 * s x) row sp2
  return fun x => (terms.map fun t => t x).sum

/-- `noise.py:228-240`, `_compute_slepian_sigma_j`: a field for each wavelet. -/
noncomputable def slepianSigmaJ {L : ℕ} {Pix : Type} (sl : Transform.Slepian (L ^ 2)) (synth : (Fin (L ^ 2) → ℂ) → Pix → ℂ)
    (signal : List ℂ) (psi : List (List ℂ)) (snrIn : ℝ) : Except Err (List (Pix → ℝ)) := do
  let sigma := Noise.computeSigmaNoise signal snrIn (some (L ^ 2))
  let sp ← Transform.computeSp sl synth (List.range sl.N)
  psi.mapM fun row => do
    let power ← waveletPower (row.take sl.N) (sp.map fun s x => ‖s x‖ ^ 2)
    return fun x => sigma * Real.sqrt (power x)

/-- `noise.py:283-309`, `compute_slepian_mesh_sigma_j`. -/
noncomputable def meshSigmaJ {V : Type} (ms : MeshT.MeshSlepian V) (signal : List ℂ) (psi : List (List ℂ)) (snrIn : ℝ) :
    Except Err (List (V → ℝ)) := do
  let sigma := Noise.computeSigmaNoise signal snrIn (some ms.evals.length)
  let sp ← MeshT.computeSp ms (List.range ms.N)
  psi.mapM fun row => do
    let power ← waveletPower (row.take ms.N) (sp.map fun s v => |s v| ^ 2)
    return fun v => sigma * Real.sqrt (power v)

end Sleplet.SigmaJ
