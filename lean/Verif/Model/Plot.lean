import Verif.Model.Harmonic
import Verif.Model.Integration
import Verif.Model.NumPy

/-!
What a plot shows: `plot_methods.py`, `_plotly_methods.py:53-80`, `plotting/_create_plot_sphere.py`,
`plotting/_create_plot_mesh.py`, `_mask_methods.py:143-151`, `_mesh_methods.py:19-38`.

Values are real numbers.  A field on the sphere is the list of its rows (one row per colatitude).
-/
namespace Sleplet.Plot

open Sleplet.Integration (thetas phis)

/-- the table of `plot_methods.py:31`, in insertion order. -/
def resTable : List (ℕ × ℕ) := [(1, 6), (2, 5), (3, 4), (7, 3), (9, 2), (10, 1)]

/-- `plot_methods.py:21-40`, `calc_plot_resolution`: `next` over the generator with default `L`. -/
def calcPlotResolution (L : ℕ) : ℕ :=
  match resTable.find? (fun p => decide (2 ^ p.1 > L)) with
  | some p => L * 2 ^ p.2
  | none => L

/-- `.argmin()` scanning from the left, keeping the index of the first smallest value. -/
noncomputable def argminFrom (best : ℝ) (bestIdx : ℕ) : ℕ → List ℝ → ℕ
  | _, [] => bestIdx
  | i, x :: xs => if x < best then argminFrom x i (i + 1) xs else argminFrom best bestIdx (i + 1) xs

/-- `.argmin()`; `ValueError` on an empty array. -/
noncomputable def argmin : List ℝ → Except Err ℕ
  | [] => .error .valueError
  | x :: xs => .ok (argminFrom x 0 1 xs)

/-- `plot_methods.py:43-60`, `_calc_nearest_grid_point`: returns `(alpha, beta)`. -/
noncomputable def calcNearestGridPoint (L : ℕ) (alphaPi betaPi : ℝ) : Except Err (ℝ × ℝ) := do
  let pixJ ← argmin ((phis L).map fun phi => |phi - alphaPi * Real.pi|)
  let pixI ← argmin ((thetas L).map fun theta => |theta - betaPi * Real.pi|)
  let alpha ← NumPy.item (phis L) pixJ
  let beta ← NumPy.item (thetas L) pixI
  return (alpha, beta)

/-- `plot_methods.py:112-125`, `_create_plot_type`, per sample; `KeyError` for another name. -/
noncomputable def plotTypeFun (plotType : String) : Except Err (ℂ → ℝ) :=
  if plotType = "abs" then .ok fun z => ‖z‖
  else if plotType = "imag" then .ok fun z => z.im
  else if plotType = "real" then .ok fun z => z.re
  else if plotType = "sum" then .ok fun z => z.re + z.im
  else .error .keyError

/-- `.max()`; `ValueError` on an empty array. -/
noncomputable def amax : List ℝ → Except Err ℝ
  | [] => .error .valueError
  | x :: xs => .ok (xs.foldl max x)

/-- `.min()`; `ValueError` on an empty array. -/
noncomputable def amin : List ℝ → Except Err ℝ
  | [] => .error .valueError
  | x :: xs => .ok (xs.foldl min x)

open Classical in
/-- `np.allclose(f, b)` for a number `b`: `|f - b| <= 1e-8 + 1e-5 * |b|` everywhere. -/
noncomputable def allclose (f : List ℝ) (b : ℝ) : Bool := f.all fun x => decide (|x - b| ≤ 1 / 10 ^ 8 + 1 / 10 ^ 5 * |b|)

/-- division of floats: `none` stands for nan or an infinity. -/
noncomputable def fdiv (a b : ℝ) : Option ℝ := if b = 0 then none else some (a / b)

open Classical in
/-- `plot_methods.py:148-160`, `_normalise_function`, on the values of the field in any shape. -/
noncomputable def normaliseFunction (f : List ℝ) (normalise : Bool) : Except Err (List (Option ℝ)) :=
  if !normalise then .ok (f.map some)
  else if f.all fun x => decide (x = 0) then .ok (f.map fun x => some (x + 1 / 2))
  else do
    let mx ← amax f
    if allclose f mx then return f.map fun x => fdiv x mx
    else
      let mn ← amin f
      let mx ← amax f
      return f.map fun x => fdiv (x - mn) (mx - mn)

/-- `np.insert(row, n, row[0])` for one row: `IndexError` if `n` is out of bounds or the row is empty. -/
def closeRow {α : Type} (n : ℕ) (row : List α) : Except Err (List α) :=
  match row with
  | [] => .error .indexError
  | x :: xs => if n ≤ (x :: xs).length then .ok ((x :: xs).take n ++ x :: (x :: xs).drop n) else .error .indexError

/-- `np.insert(f, n, f[:, 0], axis=1)`. -/
def closeRows {α : Type} (n : ℕ) (f : List (List α)) : Except Err (List (List α)) := f.mapM (closeRow n)

/-- `_vars.py:8`. -/
noncomputable def sphereUnseen : ℝ := -(156 / 100) * 10 ^ 30

/-- `np.where(mask, row, unseen)` for one row. -/
noncomputable def whereRow (unseen : ℝ) (mask : List Bool) (row : List ℝ) : Except Err (List ℝ) :=
  NumPy.broadcast (fun (m : Bool) x => if m then x else unseen) mask row

/-- `plot_methods.py:128-145`, `_set_outside_region_to_minimum`, with the mask of `create_mask_region` given. -/
noncomputable def setOutsideRegion (fPlot : List (List ℝ)) (L : ℕ) (mask : List (List Bool)) : Except Err (List (List ℝ)) := do
  let closed ← closeRows (2 * L) mask
  let rows ← NumPy.broadcast (fun m r => whereRow sphereUnseen m r) closed fPlot
  rows.mapM id

/-- what `_setup_plot` returns besides the positions. -/
structure Setup where
  fPlot : List (List ℝ)
  vmin : ℝ
  vmax : ℝ

/-- `_create_plot_sphere.py:122-194`, `_setup_plot` with `close = True` and no colour range (as `execute` calls it).
Simplification: positions are dropped. -/
noncomputable def setupPlot (f : List (List ℝ)) (resolution : ℕ) : Except Err Setup := do
  if (resolution + 1) * (2 * resolution) ≠ f.flatten.length then .error .attributeError
  else
    let fmax ← amax f.flatten
    let fmin ← amin f.flatten
    let closed ← closeRows (2 * resolution) f
    return ⟨closed, fmin, fmax⟩

/-- `_plotly_methods.py:53-60`, `create_tick_mark`. -/
noncomputable def createTickMark (fmin fmax : ℝ) (amplitude : Option ℝ) : ℝ :=
  match amplitude with
  | some a => a
  | none => max |fmin| |fmax|

/-- `_plotly_methods.py:63-80`, `create_colour_bar`: `tick0` and `dtick`. -/
noncomputable def colourBarTicks (tickMark : ℝ) (normalise : Bool) : Option (ℝ × ℝ) :=
  if normalise then none else some (-tickMark, tickMark)

/-- the part of the figure that depends on the field: colours and the range of the colour scale. -/
structure Figure where
  colours : List (List ℝ)
  cmin : ℝ
  cmax : ℝ

/-- a plot on the sphere: the settings of `PlotSphere` used by `execute`; `mask` is what `create_mask_region` returns for
the region at a bandlimit, if a region is given. -/
structure SphereSettings where
  L : ℕ
  amplitude : Option ℝ := none
  normalise : Bool := true
  plotType : String := "real"
  upsample : Bool := true
  mask : Option (ℕ → List (List Bool)) := none

/-- `_create_plot_sphere.py:51-56`. -/
def SphereSettings.resolution (s : SphereSettings) : ℕ := if s.upsample then calcPlotResolution s.L else s.L

/-- `_create_plot_sphere.py:57-61`: the file name. -/
def SphereSettings.filename (s : SphereSettings) (filename : String) : String :=
  filename ++ (if s.upsample then "_res" ++ toString s.resolution else "") ++ "_" ++ s.plotType ++
    (if s.normalise then "_norm" else "")

/-- `plot_methods.py:163-188`, `_boost_field`, with the external transforms. -/
noncomputable def boostField (forward : ℕ → List (List ℂ) → List ℂ) (inverse : ℕ → List ℂ → List (List ℂ))
    (f : List (List ℂ)) (L resolution : ℕ) (upsample : Bool) : Except Err (List (List ℂ)) :=
  if !upsample then .ok f else invertFlmBoosted inverse (forward L f) L resolution

/-- the rows of an array of known row lengths from its flat values. -/
def unflatten {α : Type} : List ℕ → List α → List (List α)
  | [], _ => []
  | n :: ns, xs => xs.take n :: unflatten ns (xs.drop n)

/-- `_create_plot_sphere.py:196-216`, `_prepare_field`.  `none`: the normalised field has a value that is not finite;
such fields are not followed further. -/
noncomputable def prepareField (forward : ℕ → List (List ℂ) → List ℂ) (inverse : ℕ → List ℂ → List (List ℂ))
    (s : SphereSettings) (f : List (List ℂ)) : Except Err (Option (List (List ℝ))) := do
  let boosted ← boostField forward inverse f s.L s.resolution s.upsample
  let g ← plotTypeFun s.plotType
  let field := boosted.map fun r => r.map g
  let values ← normaliseFunction field.flatten s.normalise
  return (values.mapM id).map fun v => unflatten (field.map List.length) v

/-- `_create_plot_sphere.py:63-120`, `PlotSphere.execute`, up to showing the figure. -/
noncomputable def executeSphere (forward : ℕ → List (List ℂ) → List ℂ) (inverse : ℕ → List ℂ → List (List ℂ))
    (s : SphereSettings) (f : List (List ℂ)) : Except Err (Option Figure) := do
  match ← prepareField forward inverse s f with
  | none => return none
  | some f =>
    let p ← setupPlot f s.resolution
    let fPlot ← (match s.mask with
      | some mask => setOutsideRegion p.fPlot s.resolution (mask s.resolution)
      | none => .ok p.fPlot : Except Err (List (List ℝ)))
    let tick := createTickMark p.vmin p.vmax s.amplitude
    return some ⟨fPlot, if s.normalise then 0 else -tick, if s.normalise then 1 else tick⟩

/-- `plot_methods.py:63-109`, `find_max_amplitude`, for a function without Slepian coefficients and with spin 0. -/
noncomputable def findMaxAmplitude (forward : ℕ → List (List ℂ) → List ℂ) (inverse : ℕ → List ℂ → List (List ℂ))
    (coefficients : List ℂ) (L : ℕ) (plotType : String) (upsample : Bool) : Except Err ℝ := do
  let field := inverse L coefficients
  let resolution := if upsample then calcPlotResolution L else L
  let boosted ← boostField forward inverse field L resolution upsample
  let g ← plotTypeFun plotType
  amax (boosted.map fun r => r.map fun z => |g z|).flatten

/-! ### mesh plots -/

/-- `igl.average_onto_faces` (external): the mean over the three vertices of a face.  Simplification: vertex numbers are in
range, since meshes are read consistently. -/
noncomputable def averageOntoFace (f : ℕ → ℝ) (face : ℕ × ℕ × ℕ) : ℝ := (f face.1 + f face.2.1 + f face.2.2) / 3

/-- `_mask_methods.py:143-151`, `convert_region_on_vertices_to_faces`: `argwhere`, `isin`, `all`, then 1 in an array of
zeros. -/
def convertRegionToFaces (region : List Bool) (faces : List (ℕ × ℕ × ℕ)) : List ℕ :=
  let inside := (List.range region.length).filter fun v => region.getD v false
  faces.map fun t => if inside.contains t.1 && inside.contains t.2.1 && inside.contains t.2.2 then 1 else 0

/-- `_create_plot_mesh.py:22`. -/
noncomputable def meshUnseen : ℝ := -(10 ^ 5)

/-- `_create_plot_mesh.py:118-129`, `_set_outside_region_to_minimum`. -/
noncomputable def setOutsideRegionMesh (region : List Bool) (faces : List (ℕ × ℕ × ℕ)) (f : List ℝ) : Except Err (List ℝ) :=
  NumPy.broadcast (fun m x => if m ≠ 0 then x else meshUnseen) (convertRegionToFaces region faces) f

/-- settings of `PlotMesh` and the parts of the mesh used. -/
structure MeshSettings where
  faces : List (ℕ × ℕ × ℕ)
  meshRegion : List Bool
  amplitude : Option ℝ := none
  normalise : Bool := true
  region : Bool := false

/-- `_create_plot_mesh.py:47-103`, `PlotMesh.execute` with `_prepare_field`, up to showing the figure: the vertex values
are `f`.  `none` as for the sphere. -/
noncomputable def executeMesh (s : MeshSettings) (f : List ℝ) : Except Err (Option (List ℝ × ℝ × ℝ)) := do
  let vmin ← amin f
  let vmax ← amax f
  let values ← normaliseFunction (s.faces.map (averageOntoFace fun v => f.getD v 0)) s.normalise
  match values.mapM id with
  | none => return none
  | some g =>
    let g ← (if s.region then setOutsideRegionMesh s.meshRegion s.faces g else .ok g : Except Err (List ℝ))
    let tick := createTickMark vmin vmax s.amplitude
    return some (g, if s.normalise then 0 else -tick, if s.normalise then 1 else tick)

end Sleplet.Plot
