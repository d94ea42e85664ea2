import Verif.Model.Noise
import Verif.Model.Region

/-!
Masks of named regions and the functions drawn on the sampling grid: `_mask_methods.py:21-76,154-207`,
`harmonic_methods.py:15-20,70-96,176-213`, `_data/create_earth_flm.py`.

The external transforms of the sphere are parameters.  Arrays on the grid are functions of two indices with a shape.
-/
namespace Sleplet.Masks

/-- The external parts: `ssht.sample_positions(L, Grid=True)` (shape and colatitudes, longitudes), `ssht.inverse` with
`Reality=True` (which returns real numbers), `ssht.forward`, `ssht.rotate_flms`, `ssht.gaussian_smoothing` and the loaded
topography (`_data/create_earth_flm.py:32-39`). -/
structure Sphere where
  shape : ℕ → ℕ × ℕ
  theta : ℕ → ℕ → ℕ → ℝ
  phi : ℕ → ℕ → ℕ → ℝ
  inverseReal : ℕ → List ℂ → ℕ → ℕ → ℝ
  forward : ℕ → Bool → ℤ → (ℕ → ℕ → ℂ) → List ℂ
  rotate : ℕ → List ℂ → ℝ → ℝ → ℝ → List ℂ
  smooth : List ℂ → ℕ → ℝ → List ℂ
  earthFile : List ℂ

/-- A Boolean array of two dimensions. -/
structure Mask where
  shape : ℕ × ℕ
  val : ℕ → ℕ → Bool

/-- `harmonic_methods.py:199-213`, `rotate_earth_to_africa`, with the angles of lines 16-18. -/
noncomputable def rotateToAfrica (S : Sphere) (L : ℕ) (flm : List ℂ) : List ℂ :=
  S.rotate L flm (Py.deg2rad 44) (Py.deg2rad 87) (Py.deg2rad 341)

/-- `harmonic_methods.py:176-196`, `rotate_earth_to_south_america`, with the angles of lines 19-21. -/
noncomputable def rotateToSouthAmerica (S : Sphere) (L : ℕ) (flm : List ℂ) : List ℂ :=
  S.rotate L flm (Py.deg2rad 54) (Py.deg2rad 108) (Py.deg2rad 63)

/-- `_data/create_earth_flm.py:11-29`, `create_flm(L, smoothing=…)`. -/
noncomputable def earth (S : Sphere) (L : ℕ) (smoothing : Option ℤ) : Except Err (List ℂ) :=
  Noise.createEarth S.smooth S.earthFile L smoothing

/-- `_mask_methods.py:154-171`, `_create_africa_mask`. -/
noncomputable def africaMask (S : Sphere) (L : ℕ) (earthFlm : List ℂ) : Mask :=
  let f := S.inverseReal L (rotateToAfrica S L earthFlm)
  ⟨S.shape L, fun i j => decide (S.theta L i j ≤ Py.deg2rad 41) && decide (f i j ≥ 0)⟩

/-- `_mask_methods.py:174-191`, `_create_south_america_mask`. -/
noncomputable def southAmericaMask (S : Sphere) (L : ℕ) (earthFlm : List ℂ) : Mask :=
  let f := S.inverseReal L (rotateToSouthAmerica S L earthFlm)
  ⟨S.shape L, fun i j => decide (S.theta L i j ≤ Py.deg2rad 40) && decide (f i j ≥ 0)⟩

/-- The mask files: those published and those in the user's data directory, by file name. -/
structure Store where
  published : String → Option Mask
  user : String → Option Mask

/-- `np.save(path, mask)`: the user file afterwards. -/
def Store.save (st : Store) (name : String) (m : Mask) : Store :=
  { st with user := fun n => if n = name then some m else st.user n }

/-- `_data/setup_pooch.py:57-80` followed by `np.load`.  Simplification: files are complete and the network works (see
`Verif.Model.Pooch` for failures). -/
def Store.find (st : Store) (name : String) : Option Mask := (st.published name).orElse fun _ => st.user name

/-- `_mask_methods.py:194-207`, `create_mask`: the mask and the files afterwards. -/
noncomputable def createMask (S : Sphere) (L : ℕ) (maskName : String) (st : Store) : Except Err (Mask × Store) := do
  let e ← earth S L none
  if maskName = "africa_L" ++ toString L ++ ".npy" then
    let m := africaMask S L e
    return (m, st.save ("slepian_masks_" ++ maskName) m)
  else if maskName = "south_america_L" ++ toString L ++ ".npy" then
    let m := southAmericaMask S L e
    return (m, st.save ("slepian_masks_" ++ maskName) m)
  else .error .valueError

/-- `_mask_methods.py:71-76`, `_load_mask`; `functions/africa.py:73-81` and `functions/south_america.py:73-81` are the
same text. -/
noncomputable def loadMask (S : Sphere) (L : ℕ) (maskName : String) (st : Store) : Except Err (Mask × Store) :=
  match st.find ("slepian_masks_" ++ maskName) with
  | some m => .ok (m, st)
  | none => createMask S L maskName st

/-- `_mask_methods.py:25-68`, `create_mask_region`: named masks are loaded and their shape asserted, the others are
computed from the angles (`Region.inMask`).  Simplification: the `AssertionError` is a `RuntimeError`. -/
noncomputable def maskRegion (S : Sphere) (L : ℕ) (r : Region.Obj) (st : Store) : Except Err (Mask × Store) := do
  if r.regionType = "arbitrary" then
    let (m, st') ← loadMask S L (r.args.maskName ++ "_L" ++ toString L ++ ".npy") st
    if m.shape = S.shape L then return (m, st') else .error .runtimeError
  else
    let val : ℕ → ℕ → Bool := fun i j =>
      open Classical in decide (Region.inMask r (S.theta L i j) (S.phi L i j))
    return (⟨S.shape L, val⟩, st)

/-- `harmonic_methods.py:70-96`, `_ensure_f_bandlimited`. -/
noncomputable def ensureBandlimited (S : Sphere) (gridFun : (ℕ → ℕ → ℝ) → (ℕ → ℕ → ℝ) → ℕ → ℕ → ℝ) (L : ℕ)
    (reality : Bool) (spin : ℤ) : List ℂ :=
  S.forward L reality spin fun i j => ((gridFun (S.theta L) (S.phi L) i j : ℝ) : ℂ)

end Sleplet.Masks
