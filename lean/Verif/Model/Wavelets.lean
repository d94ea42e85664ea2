import Mathlib.Analysis.SpecialFunctions.Pow.Real
import Mathlib.Analysis.SpecialFunctions.Trigonometric.Basic
import Verif.Model.HarmonicIndex
import Verif.Model.NumPy

/-!
Convolution and wavelets: `_convolution_methods.py`, `wavelet_methods.py`, and the selection of a scale in
`functions/slepian_wavelets.py`, `functions/slepian_wavelet_coefficients_africa.py` and their siblings.

Complex numbers replace floats.  Two-dimensional arrays are lists of rows (one row per scale).
-/
namespace Sleplet.Wavelets

open Complex NumPy

/-- `_convolution_methods.py:5-19`, `sifting_convolution` of two vectors. -/
noncomputable def sift (f g : List ℂ) (shannon : Option ℤ) : Except Err (List ℂ) :=
  broadcast (· * ·) (upTo f shannon) (upTo (g.map (starRingEnd ℂ)) shannon)

/-- `_convolution_methods.py:5-19` of two matrices: `(f.T[:n] * g.conj().T[:n]).T` slices the columns. -/
noncomputable def sift2 (f g : Array2 ℂ) (shannon : Option ℤ) : Except Err (Array2 ℂ) :=
  broadcast2 (· * ·) (f.colsUpTo shannon)
    ((⟨g.cols, g.rows.map fun r => r.map (starRingEnd ℂ)⟩ : Array2 ℂ).colsUpTo shannon)

/-- `_convolution_methods.py:14-18`: a vector is given a leading axis to go with a matrix. -/
def newaxis (g : List ℂ) : Array2 ℂ := ⟨g.length, [g]⟩

open Classical in
/-- `wavelet_methods.py:148-163`, `find_non_zero_wavelet_coefficients` with `axis=1`. -/
noncomputable def findNonZero (w : Array2 ℂ) : Array2 ℂ := ⟨w.cols, w.rows.filter fun r => r.any fun x => decide (x ≠ 0)⟩

/-- `wavelet_methods.py:13-36`, `slepian_wavelet_forward`. -/
noncomputable def slepianForward (fp : List ℂ) (wavelets : Array2 ℂ) (shannon : ℤ) : Except Err (Array2 ℂ) := do
  let w ← sift2 wavelets (newaxis fp) (some shannon)
  return findNonZero w

/-- `wavelet_methods.py:39-62`, `slepian_wavelet_inverse`. -/
noncomputable def slepianInverse (w : Array2 ℂ) (wavelets : Array2 ℂ) (shannon : ℤ) : Except Err (List ℂ) := do
  let r ← sift2 ⟨wavelets.cols, wavelets.rows.take w.rows.length⟩ w (some shannon)
  return r.sumRows

/-- `jth = 0 if self.j is None else self.j + 1`, e.g. `functions/slepian_wavelets.py:41`. -/
def jth : Option ℕ → ℕ
  | none => 0
  | some j => j + 1

/-- `_check_j`, e.g. `functions/slepian_wavelets.py:71-90`, given `j_max = pys2let_j_max(B, L², j_min)`; the validated
value is a natural number. -/
def checkJ (jMax jMin : ℤ) : Option ℤ → Except Err (Option ℕ)
  | none => .ok none
  | some v => if v < 0 then .error .valueError else if v > jMax - jMin then .error .valueError else .ok (some v.toNat)

/-- `functions/slepian_wavelets.py:35-42` (and `meshes/mesh_slepian_wavelets.py`, `functions/axisymmetric_wavelets.py`):
the coefficients of the selected wavelet. -/
def selectWavelet (wavelets : Array2 ℂ) (j : Option ℕ) : Except Err (List ℂ) := item wavelets.rows (jth j)

/-- `functions/slepian_wavelet_coefficients_africa.py:44-51,75-96` (and the South America and mesh versions): the wavelet
coefficients of the selected scale. -/
noncomputable def selectCoefficients (fp : List ℂ) (wavelets : Array2 ℂ) (shannon : ℤ) (j : Option ℕ) : Except Err (List ℂ) := do
  let w ← slepianForward fp wavelets shannon
  item w.rows (jth j)

/-- `wavelet_methods.py:82-87` for one wavelet.  Simplification: the assignments `w[:, ind] = …` are made row by row. -/
noncomputable def forwardRow (L : ℕ) (flm psi : List ℂ) : Except Err (List ℂ) :=
  (List.range L).foldlM (fun w ell => do
    let x ← item psi (elm2ind ell 0)
    let wav0 := (Real.sqrt (4 * Real.pi / (2 * (ell : ℝ) + 1)) : ℂ) * (starRingEnd ℂ) x
    (arangeEmm ell).foldlM (fun w m => do
      let f ← item flm (elm2ind ell m)
      setItem w (elm2ind ell m) (wav0 * f)) w) (List.replicate psi.length 0)

/-- `wavelet_methods.py:65-88`, `axisymmetric_wavelet_forward`. -/
noncomputable def axisymForward (L : ℕ) (flm : List ℂ) (wavelets : List (List ℂ)) : Except Err (List (List ℂ)) :=
  wavelets.mapM (forwardRow L flm)

/-- `wavelet_methods.py:91-114`, `axisymmetric_wavelet_inverse`. -/
noncomputable def axisymInverse (L : ℕ) (wavCoeffs wavelets : List (List ℂ)) : Except Err (List ℂ) :=
  (List.range L).foldlM (fun flm ell => do
    let col ← wavelets.mapM fun r => item r (elm2ind ell 0)
    let wav0 := col.map fun x => (Real.sqrt (4 * Real.pi / (2 * (ell : ℝ) + 1)) : ℂ) * x
    (arangeEmm ell).foldlM (fun flm m => do
      let c ← wavCoeffs.mapM fun r => item r (elm2ind ell m)
      let p ← broadcast (· * ·) c wav0
      setItem flm (elm2ind ell m) p.sum) flm) (List.replicate (L ^ 2) 0)

/-- `wavelet_methods.py:122-128` for one generating function. -/
noncomputable def axisymRow (L : ℕ) (kappa : List ℝ) : Except Err (List ℂ) :=
  (List.range L).foldlM (fun w ell => do
    let k ← item kappa ell
    setItem w (elm2ind ell 0) ((Real.sqrt ((2 * (ell : ℝ) + 1) / (4 * Real.pi)) : ℂ) * (k : ℂ))) (List.replicate (L ^ 2) 0)

/-- `wavelet_methods.py:117-129`, `_create_axisymmetric_wavelets`, given the generating functions of `create_kappas`. -/
noncomputable def createAxisym (L : ℕ) (kappas : List (List ℝ)) : Except Err (List (List ℂ)) := kappas.mapM (axisymRow L)

end Sleplet.Wavelets
