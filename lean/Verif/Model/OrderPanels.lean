import Verif.Model.PolarFigures

/-!
The figure of the eigenvalues of four polar caps, marked by order: `examples/polar_cap/simons_5_3.py`.

The Slepian objects are given.  Drawing is replaced by what is handed to matplotlib and seaborn; where texts are placed, fonts and colours are
left out.
-/
namespace Sleplet.PolarFigures

/-- What the figure reads of `SlepianPolarCap(L, np.deg2rad(theta_max))`: the attributes `eigenvalues`, `order` and `N`. -/
structure CapSolution where
  evals : List ℝ
  orders : List ℤ
  N : ℤ

/-- `simons_5_3.py:44`: the label of an order without its sign.  NumPy makes a text of the number 0, which stands in a list with texts.
Simplification: it does so also if all orders shown are zero. -/
def orderLabel (m : ℕ) : String := if m ≠ 0 then "$\\pm$" ++ toString m else toString m

/-- One panel: where it is, the text with the angle, the labelled points, the order of the labels, whether they are explained in a legend, the
vertical line with its text, and which axes are named. -/
structure OrderPanel where
  row : ℕ
  col : ℕ
  caption : String
  points : List (ℕ × ℝ × String)
  hueOrder : List String
  legend : Bool
  line : ℤ
  text : String
  xLabel : Bool
  yLabel : Bool

/-- `simons_5_3.py:16`: the angles in degrees with their positions, in the order written. -/
def thetaRange : List (ℕ × ℕ × ℕ) := [(10, 0, 0), (20, 0, 1), (30, 1, 0), (40, 1, 1)]

/-- `simons_5_3.py:33-74`, `_create_plot`.  `ranks` is the constant `RANKS` (60, line 14). -/
def createPanel (ranks : ℕ) (s : CapSolution) (theta row col : ℕ) : Except Err OrderPanel := do
  let points ← orderPoints s.evals s.orders ranks
  let orders := (s.orders.take ranks).map Int.natAbs
  return {
    row := row
    col := col
    caption := "$\\Theta={" ++ toString theta ++ "}^\\circ$"
    points := points.map fun x => (x.1, x.2.1, orderLabel x.2.2)
    hueOrder := (orders.mergeSort fun a b => decide (a ≤ b)).map orderLabel
    legend := decide (row = 0 ∧ col = 0)
    line := s.N - 1
    text := "N=" ++ toString s.N
    xLabel := decide (row = 1)
    yLabel := decide (col = 0) }

/-- `simons_5_3.py:19-30`, `main`. -/
def orderFigure (ranks : ℕ) (solve : ℕ → CapSolution) : Except Err (List OrderPanel) :=
  thetaRange.mapM fun x => createPanel ranks (solve x.1) x.1 x.2.1 x.2.2

end Sleplet.PolarFigures
