import Mathlib.Analysis.Complex.Norm
import Verif.Model.NumPy

/-!
Hard thresholding: `noise.py:115-214,312-340`.

The coefficient array is passed by reference, so it lives in a heap of arrays.  Fields are functions on a grid `Pix`; the
inverse and forward transforms are parameters.
-/
namespace Sleplet.Thresholding

open NumPy

open Classical in
/-- `noise.py:115-122`, `_perform_hard_thresholding`; a scalar `sigma_j` is a constant function. -/
noncomputable def performHardThresholding {Pix : Type} (f : Pix → ℂ) (sigma : Pix → ℝ) (nSigma : ℤ) : Pix → ℂ :=
  fun x => if ‖f x‖ < (nSigma : ℝ) * sigma x then 0 else f x

/-- the arrays of the process, by address. -/
abbrev Heap := List (List (List ℂ))

/-- `wav_coeffs[i] = row`: the row must have as many entries as the array has columns, or one. -/
def assignRow (cols : ℕ) (row : List ℂ) : Except Err (List ℂ) :=
  if row.length = cols then .ok row
  else match row with
    | [x] => .ok (List.replicate cols x)
    | _ => .error .valueError

/-- one pass of the loops at `noise.py:145-153,177-187,330-339`: row `off + j` with `sigma_j[j]`. -/
noncomputable def body {Pix : Type} (inverse : List ℂ → Except Err (Pix → ℂ)) (forward : (Pix → ℂ) → Except Err (List ℂ))
    (sigma : List (Pix → ℝ)) (nSigma : ℤ) (off r : ℕ) (h : Heap) (j : ℕ) : Except Err Heap := do
  let arr ← item h r
  let coefficient ← item arr (off + j)
  let f ← inverse coefficient
  let s ← item sigma j
  let out ← forward (performHardThresholding f s nSigma)
  let row ← assignRow coefficient.length out
  return h.set r (arr.set (off + j) row)

/-- the loop; an exception leaves the rows written so far. -/
noncomputable def loop {Pix : Type} (inverse : List ℂ → Except Err (Pix → ℂ)) (forward : (Pix → ℂ) → Except Err (List ℂ))
    (sigma : List (Pix → ℝ)) (nSigma : ℤ) (off r : ℕ) : List ℕ → Heap → Except Err ℕ × Heap
  | [], h => (.ok r, h)
  | j :: js, h =>
    match body inverse forward sigma nSigma off r h j with
    | .error e => (.error e, h)
    | .ok h' => loop inverse forward sigma nSigma off r js h'

/-- `noise.py:125-154`, `harmonic_hard_thresholding` on the array at address `r`: skips the scaling coefficients. -/
noncomputable def harmonic {Pix : Type} (inverse : List ℂ → Except Err (Pix → ℂ)) (forward : (Pix → ℂ) → Except Err (List ℂ))
    (sigma : List (Pix → ℝ)) (nSigma : ℤ) (r : ℕ) (h : Heap) : Except Err ℕ × Heap :=
  match item h r with
  | .error e => (.error e, h)
  | .ok arr => loop inverse forward sigma nSigma 1 r (List.range (arr.drop 1).length) h

/-- `noise.py:157-188`, `slepian_wavelet_hard_thresholding`, and `noise.py:312-340`, `slepian_mesh_hard_thresholding`. -/
noncomputable def slepian {Pix : Type} (inverse : List ℂ → Except Err (Pix → ℂ)) (forward : (Pix → ℂ) → Except Err (List ℂ))
    (sigma : List (Pix → ℝ)) (nSigma : ℤ) (r : ℕ) (h : Heap) : Except Err ℕ × Heap :=
  match item h r with
  | .error e => (.error e, h)
  | .ok arr => loop inverse forward sigma nSigma 0 r (List.range arr.length) h

/-- `noise.py:191-214`, `slepian_function_hard_thresholding`: a new vector. -/
noncomputable def slepianFunction {Pix : Type} (inverse : List ℂ → Except Err (Pix → ℂ))
    (forward : (Pix → ℂ) → Except Err (List ℂ)) (coefficients : List ℂ) (sigma : ℝ) (nSigma : ℤ) : Except Err (List ℂ) := do
  let f ← inverse coefficients
  forward (performHardThresholding f (fun _ => sigma) nSigma)

end Sleplet.Thresholding
