import Verif.Model.Cache
import Verif.Model.NumPy

/-!
The argument `order` of polar caps in full: `None`, an integer or an array (`slepian_polar_cap.py:41-46`), with the same loads and
saves as in `Model/Cache.lean` (`slepian_polar_cap.py:68-138`, `:403-412`).

Simplifications: as in `Model/Cache.lean`; arrays have one axis.
-/
namespace Sleplet.PolarOrders

open Cache Region

/-- `slepian_polar_cap.py:41`: `order: int | npt.NDArray[np.int_] | None`. -/
inductive Request
  | all
  | one (m : ℤ)
  | array (ms : List ℤ)

/-- `slepian_polar_cap.py:403-412`: `v is not None and (np.abs(v) >= L).any()`. -/
def Request.bad (L : ℕ) : Request → Bool
  | .all => false
  | .one m => decide (m.natAbs ≥ L)
  | .array ms => ms.any fun m => decide (m.natAbs ≥ L)

/-- `a[np.where(mask)]`: `IndexError` for a position past the end. -/
def gatherMask {α : Type} (a : List α) (mask : List Bool) : Except Err (List α) :=
  ((List.range mask.length).filter fun p => mask.getD p false).mapM fun p => NumPy.item a p

/-- `slepian_polar_cap.py:103-107`: the end of `_solve_eigenproblem_from_files`.  `orders == self.order` broadcasts (NumPy 2 raises
`ValueError` for shapes that do not fit); the attribute `order` keeps the array asked for. -/
noncomputable def select (q : Request) (ev evec ord : File) : Except Err Result :=
  match q with
  | .all => .ok ⟨ev, evec, some ord⟩
  | .one m => selectOrder (some m) ev evec ord
  | .array ms => match ev, evec, ord with
    | .evals w, .evecs v, .orders o => do
      let mask ← NumPy.broadcast (fun a b : ℤ => decide (a = b)) o ms
      let w' ← gatherMask w mask
      let v' ← gatherMask v mask
      return ⟨.evals w', .evecs v', some (.orders ms)⟩
    | _, _, _ => .error .valueError

/-- `slepian_polar_cap.py:68-138`.  From scratch only an `int` restricts the orders (`:116-117`). -/
noncomputable def solve (loc : String) (L : ℕ) (N : ℤ) (q : Request) (w : List ℝ) (v : List (List ℂ)) (o : List ℤ)
    (single : ℤ → List ℝ × List (List ℂ)) : Prog :=
  let everything : Prog := .save (evalFile loc) (.evals w) <|
    .save (evecFile loc) (.evecs (if L > lSaveAll then slice v N else v)) <|
    .save (orderFile loc) (.orders o) <| .done (.ok ⟨.evals w, .evecs v, some (.orders o)⟩)
  let scratch : Prog := match q with
    | .one m => .done (.ok ⟨.evals (single m).1, .evecs (single m).2, none⟩)
    | _ => everything
  .load (evalFile loc) fun
    | .error .typeError => scratch
    | .error e => .done (.error e)
    | .ok ev => .load (evecFile loc) fun
      | .error .typeError => scratch
      | .error e => .done (.error e)
      | .ok evec => .load (orderFile loc) fun
        | .error .typeError => scratch
        | .error e => .done (.error e)
        | .ok ord => .done (select q ev evec ord)

/-- `SlepianPolarCap(L, theta_max, gap=gap, order=q)`: validators, region, Shannon number, location, eigenproblem. -/
noncomputable def construct (env : Env) (L : ℕ) (t : ℝ) (gap : Bool) (q : Request) : Prog :=
  let s : Slepian := .polarCap L t gap
  match s.validate with
  | .error e => .done (.error e)
  | .ok _ =>
    match s.createRegion with
    | .error e => .done (.error e)
    | .ok r =>
      if q.bad L then .done (.error .valueError)
      else solve (env.location s r) L (env.shannon s) q (env.solve s).1 (env.solve s).2.1 (env.solve s).2.2 (env.solveOrder s)

end Sleplet.PolarOrders
