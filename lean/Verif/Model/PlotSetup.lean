import Verif.Model.Integration
import Verif.Model.Plot

/-!
The geometry and the colour scale of figures: all of `_create_plot_sphere.py:122-194`, `_plotly_methods.py`, and the vertices drawn by
`_create_plot_mesh.py`.

Real numbers replace floats; `none` is nan or an infinity.  Simplification: the field has the shape of the grid whenever it has its size.
-/
namespace Sleplet.Plot

open Integration

/-- `ssht.sample_positions(L, Grid=True, Method="MWSS")`, the colatitudes. -/
noncomputable def gridThetas (L : ℕ) : List (List ℝ) := (thetas L).map fun t => List.replicate (2 * L) t

/-- `ssht.sample_positions(L, Grid=True, Method="MWSS")`, the longitudes. -/
noncomputable def gridPhis (L : ℕ) : List (List ℝ) := List.replicate (L + 1) (phis L)

/-- the keyword arguments of `_create_plot_sphere.py:123-132`. -/
structure SetupArgs where
  close : Bool := true
  parametric : Bool := false
  scaling : ℝ × ℝ := (0, 1 / 2)
  colourRange : Option (List ℝ) := none

/-- `_create_plot_sphere.py:161-163`, for one value: the three masked assignments in turn. -/
noncomputable def clip (lo hi x : ℝ) : Option ℝ :=
  let x := if x < lo then lo else x
  let x := if x > hi then hi else x
  if x = sphereUnseen then none else some x

/-- `_create_plot_sphere.py:152-163`: the range of values and the values drawn. -/
noncomputable def colourRange (f : List (List ℝ)) (fmin fmax : ℝ) : Option (List ℝ) → Except Err (ℝ × ℝ × List (List (Option ℝ)))
  | none => .ok (fmin, fmax, f.map fun r => r.map some)
  | some range => do
    let lo ← NumPy.item range 0
    let hi ← NumPy.item range 1
    return (lo, hi, f.map fun r => r.map (clip lo hi))

/-- `_create_plot_sphere.py:165-171`: the radii of a parametric plot.  Division of the numbers of a colour range by zero raises; that of NumPy
numbers does not. -/
noncomputable def radii (a : SetupArgs) (fPlot : List (List (Option ℝ))) (vmin vmax : ℝ) : Except Err (List (List (Option ℝ))) :=
  if a.colourRange.isSome && decide (vmax - vmin = 0) then .error .zeroDivisionError
  else .ok (fPlot.map fun r => r.map fun x => do
    let x ← x
    let q ← fdiv vmin (vmax - vmin)
    return (x - q) * a.scaling.2 + a.scaling.1)

/-- `ssht.s2_to_cart` (external). -/
noncomputable def s2ToCart (th ph : ℝ) : ℝ × ℝ × ℝ := (Real.sin th * Real.cos ph, Real.sin th * Real.sin ph, Real.cos th)

/-- `ssht.spherical_to_cart` (external). -/
noncomputable def sphericalToCart (r th ph : ℝ) : ℝ × ℝ × ℝ := (r * Real.sin th * Real.cos ph, r * Real.sin th * Real.sin ph, r * Real.cos th)

/-- What `_setup_plot` returns. -/
structure FullSetup where
  positions : List (List (Option (ℝ × ℝ × ℝ)))
  fPlot : List (List (Option ℝ))
  vmin : ℝ
  vmax : ℝ

/-- `np.insert(f, n, c, axis=1)` for a column `c`. -/
def insertColumn {α : Type} (n : ℕ) (f : List (List α)) (c : List α) : Except Err (List (List α)) :=
  NumPy.broadcast (fun r x => if n ≤ r.length then .ok (r.take n ++ x :: r.drop n) else .error Err.indexError) f c >>= fun rows => rows.mapM id

/-- `f[:, 0]`. -/
def firstColumn {α : Type} (f : List (List α)) : Except Err (List α) := f.mapM fun r => NumPy.item r 0

/-- `_create_plot_sphere.py:122-194`, `_setup_plot` with the sampling scheme of `_vars.py`. -/
noncomputable def setupFull (f : List (List ℝ)) (resolution : ℕ) (a : SetupArgs) : Except Err FullSetup := do
  let ths := gridThetas resolution
  let phs := gridPhis resolution
  if ths.flatten.length ≠ f.flatten.length then .error .attributeError
  else
    let fmax ← amax f.flatten
    let fmin ← amin f.flatten
    let (vmin, vmax, fPlot) ← colourRange f fmin fmax a.colourRange
    let rs ← (if a.parametric then radii a fPlot vmin vmax else .ok (fPlot.map fun r => r.map fun _ => some 0) : Except Err _)
    let (fPlot, rs, ths, phs) ← (if a.close then do
        let c ← firstColumn f
        let fPlot ← insertColumn (2 * resolution) fPlot (c.map some)
        let rs ← (if a.parametric then do
            let c ← firstColumn rs
            insertColumn (2 * resolution) rs c
          else .ok rs : Except Err _)
        let c ← firstColumn ths
        let ths ← insertColumn (2 * resolution) ths c
        let c ← firstColumn phs
        let phs ← insertColumn (2 * resolution) phs c
        return (fPlot, rs, ths, phs)
      else .ok (fPlot, rs, ths, phs) : Except Err _)
    let positions := if a.parametric then
        List.zipWith (fun rr tp => List.zipWith (fun (r : Option ℝ) (q : ℝ × ℝ) => r.map fun r => sphericalToCart r q.1 q.2) rr tp) rs
          (List.zipWith List.zip ths phs)
      else List.zipWith (fun t p => List.zipWith (fun th ph => some (s2ToCart th ph)) t p) ths phs
    return ⟨positions, fPlot, vmin, vmax⟩

/-- The numbers of the colour scale: `cmin`, `cmid`, `cmax`, `tick0`, `dtick` (`_create_plot_sphere.py:98-104`, `_create_plot_mesh.py:81-90`,
`_plotly_methods.py:63-80`). -/
structure ColourScale where
  cmin : ℝ
  cmid : ℝ
  cmax : ℝ
  ticks : Option (ℝ × ℝ)

/-- `_create_plot_sphere.py:98-104` and `_create_plot_mesh.py:81-90`. -/
noncomputable def colourScale (tickMark : ℝ) (normalise : Bool) : ColourScale where
  cmin := if normalise then 0 else -tickMark
  cmid := if normalise then 1 / 2 else 0
  cmax := if normalise then 1 else tickMark
  ticks := colourBarTicks tickMark normalise

/-- `_plotly_methods.py:15-29`, `create_camera`: the eye; `ZeroDivisionError` for zoom 0. -/
noncomputable def cameraEye (x y z zoom : ℝ) : Except Err (ℝ × ℝ × ℝ) :=
  if zoom = 0 then .error .zeroDivisionError else .ok (x / zoom, y / zoom, z / zoom)

/-- `_create_plot_mesh.py:73-75`: the point drawn for a vertex. -/
def drawnVertex (v : ℝ × ℝ × ℝ) : ℝ × ℝ × ℝ := (v.1, v.2.2, v.2.1)

end Sleplet.Plot
