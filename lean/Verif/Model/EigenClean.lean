import Mathlib.Data.Complex.BigOperators
import Mathlib.Order.Fin.Basic
import Mathlib.Logic.Equiv.Basic
import Verif.Model.HarmonicIndex

/-!
Models of the routines that bring eigensolutions into the library's format:
`_slepian_arbitrary_methods.py:12-34`, `slepian/slepian_limit_lat_lon.py:210-231`,
`slepian/slepian_polar_cap.py:109-164,375-401`, `meshes/mesh_slepian.py:163-175`.

`argsort` is any sorting permutation (NumPy's default sort is not stable).
-/
namespace Sleplet.Eigen

open Complex

/-- NumPy's `z < 0` for complex `z` is lexicographic. -/
def npLtZero (z : ℂ) : Prop := z.re < 0 ∨ (z.re = 0 ∧ z.im < 0)

open Classical in
/-- `np.where(first < 0, -1, 1)`. -/
noncomputable def signOf (z : ℂ) : ℂ := if npLtZero z then -1 else 1

/-- `idx = w.argsort()`: a permutation of the positions along which `w` is non-decreasing. -/
def IsArgsort {n : ℕ} (w : Fin n → ℝ) (σ : Equiv.Perm (Fin n)) : Prop := Monotone (w ∘ σ)

/-- `slepian_limit_lat_lon.py:217-231` (and `_slepian_arbitrary_methods.py:17-28`): real part, descending order,
conjugate transpose, sign of the first element.  `V r k` is component `r` of the `k`-th solver eigenvector. -/
noncomputable def cleanLatLon {n : ℕ} (σ : Equiv.Perm (Fin (n + 1))) (w : Fin (n + 1) → ℂ)
    (V : Fin (n + 1) → Fin (n + 1) → ℂ) : (Fin (n + 1) → ℝ) × (Fin (n + 1) → Fin (n + 1) → ℂ) :=
  let idx := fun p : Fin (n + 1) => σ (Fin.rev p)
  let evals := fun p => (w (idx p)).re
  let evecs := fun p c => (starRingEnd ℂ) (V c (idx p))
  (evals, fun p c => evecs p c * signOf (evecs p 0))

/-- `_slepian_arbitrary_methods.py:30-32`: `pairs = np.where(np.abs(np.diff(eigenvalues)) < 1e-14)[0] + 1`: row `p` is
a member iff `p ≥ 1` and its eigenvalue is that close to the previous one. -/
def inPairs {n : ℕ} (evals : Fin (n + 1) → ℝ) (p : Fin (n + 1)) : Prop :=
  ∃ q : Fin (n + 1), (q : ℕ) + 1 = p ∧ |evals p - evals q| < 1e-14

open Classical in
/-- `_slepian_arbitrary_methods.py:12-34`, `clean_evals_and_evecs`. -/
noncomputable def cleanArbitrary {n : ℕ} (σ : Equiv.Perm (Fin (n + 1))) (w : Fin (n + 1) → ℂ)
    (V : Fin (n + 1) → Fin (n + 1) → ℂ) : (Fin (n + 1) → ℝ) × (Fin (n + 1) → Fin (n + 1) → ℂ) :=
  let r := cleanLatLon σ w V
  (r.1, fun p c => r.2 p c * if inPairs r.1 p then I else 1)

/-- `mesh_slepian.py:163-175`: descending order, transpose. -/
def cleanMesh {n : ℕ} (σ : Equiv.Perm (Fin n)) (w : Fin n → ℝ) (V : Fin n → Fin n → ℝ) :
    (Fin n → ℝ) × (Fin n → Fin n → ℝ) :=
  (fun p => w (σ (Fin.rev p)), fun p c => V c (σ (Fin.rev p)))

/-- The three routines as relations: some sorting permutation gives this output. -/
def CleansLatLon {n : ℕ} (w : Fin (n + 1) → ℂ) (V : Fin (n + 1) → Fin (n + 1) → ℂ) (e : Fin (n + 1) → ℝ)
    (S : Fin (n + 1) → Fin (n + 1) → ℂ) : Prop :=
  ∃ σ, IsArgsort (fun k => (w k).re) σ ∧ cleanLatLon σ w V = (e, S)

def CleansArbitrary {n : ℕ} (w : Fin (n + 1) → ℂ) (V : Fin (n + 1) → Fin (n + 1) → ℂ) (e : Fin (n + 1) → ℝ)
    (S : Fin (n + 1) → Fin (n + 1) → ℂ) : Prop :=
  ∃ σ, IsArgsort (fun k => (w k).re) σ ∧ cleanArbitrary σ w V = (e, S)

def CleansMesh {n : ℕ} (w : Fin n → ℝ) (V : Fin n → Fin n → ℝ) (e : Fin n → ℝ) (S : Fin n → Fin n → ℝ) : Prop :=
  ∃ σ, IsArgsort w σ ∧ cleanMesh σ w V = (e, S)

/-! ### polar caps -/

/-- Boolean-mask assignment `zeros[mask] = vals` in row-major order; NumPy raises `ValueError` when the number of
values differs from the number of selected positions. -/
noncomputable def scatter : List Bool → List ℂ → Except Err (List ℂ)
  | [], [] => .ok []
  | [], _ :: _ => .error .valueError
  | true :: _, [] => .error .valueError
  | true :: b, v :: vs => do let r ← scatter b vs; return v :: r
  | false :: b, vs => do let r ← scatter b vs; return 0 :: r

/-- `slepian_polar_cap.py:395`: a row times the sign of its first element. -/
noncomputable def signFixRow (row : List ℂ) : List ℂ := row.map (· * signOf (row.headD 0))

/-- list version of `argsort`. -/
def IsArgsortList (w : List ℝ) (idx : List ℕ) : Prop :=
  idx.Perm (List.range w.length) ∧ (idx.map fun k => w.getD k 0).Pairwise (· ≤ ·)

/-- `slepian_polar_cap.py:375-401`, `_clean_evals_and_evecs(eigenvalues, gl, emm, m)` with `idx = argsort()`.
`gl r k` is component `r` of the `k`-th solver eigenvector (real), `0 ≤ r, k < L - |m|`. -/
noncomputable def polarClean (L : ℕ) (m : ℤ) (emm : List ℤ) (w : List ℝ) (gl : ℕ → ℕ → ℝ) (idx : List ℕ) :
    Except Err (List ℝ × List (List ℂ)) := do
  let n := L - m.natAbs
  let evals := idx.reverse.map fun k => w.getD k 0
  let vals := idx.reverse.flatMap fun k => (List.range n).map fun r => (gl r k : ℂ)
  let mask := (emm.take (L ^ 2)).map fun e => decide (e = m)
  let flat ← scatter (List.replicate n mask).flatten vals
  let rows := (List.range n).map fun p => (flat.drop (p * L ^ 2)).take (L ^ 2)
  let rows := rows.map signFixRow
  let rows := if m < 0 then rows.map fun row => row.map (· * I) else rows
  return (evals, rows)

/-- The eigensolver's answer for one order: eigenvalues, eigenvector components. -/
abbrev OrderSolution := List ℝ × (ℕ → ℕ → ℝ)

/-- `slepian_polar_cap.py:140-149`, `_solve_eigenproblem_order(m)`: `sol` is `LA.eigh` of the order-`|m|` matrix. -/
noncomputable def solveOrder (L : ℕ) (sol : ℤ → OrderSolution) (idx : ℤ → List ℕ) (m : ℤ) :
    Except Err (List ℝ × List (List ℂ)) :=
  polarClean L m (createEmmVector L) (sol m).1 (sol m).2 (idx m)

/-- `range(-(L - 1), L)`. -/
def ordersRange (L : ℕ) : List ℤ := (List.range (2 * L - 1)).map fun t : ℕ => (t : ℤ) - ((L : ℤ) - 1)

/-- `slepian_polar_cap.py:119-126`: the accumulation over orders. -/
noncomputable def accumulate (L : ℕ) (sol : ℤ → OrderSolution) (idx : ℤ → List ℕ) :
    List ℤ → Except Err (List ℝ × List (List ℂ) × List ℤ)
  | [] => .ok ([], [], [])
  | m :: ms => do
    let (e, v) ← solveOrder L sol idx m
    let (es, vs, os) ← accumulate L sol idx ms
    return (e ++ es, v ++ vs, List.replicate e.length m ++ os)

/-- `slepian_polar_cap.py:151-164`, `_sort_all_evals_and_evecs`. -/
noncomputable def sortAll (idx : List ℕ) (e : List ℝ) (v : List (List ℂ)) (o : List ℤ) : List ℝ × List (List ℂ) × List ℤ :=
  (idx.reverse.map fun k => e.getD k 0, idx.reverse.map fun k => v.getD k [], idx.reverse.map fun k => o.getD k 0)

/-- `slepian_polar_cap.py:109-138` without the saving: all orders from scratch. -/
noncomputable def solveAll (L : ℕ) (sol : ℤ → OrderSolution) (idx : ℤ → List ℕ) (idxAll : List ℕ) :
    Except Err (List ℝ × List (List ℂ) × List ℤ) := do
  let (e, v, o) ← accumulate L sol idx (ordersRange L)
  return sortAll idxAll e v o

/-- `SolvesAll`: some sorting permutations (one per order and one for the merge) give this result. -/
def SolvesAll (L : ℕ) (sol : ℤ → OrderSolution) (r : Except Err (List ℝ × List (List ℂ) × List ℤ)) : Prop :=
  ∃ idx idxAll, (∀ m ∈ ordersRange L, IsArgsortList (sol m).1 (idx m)) ∧
    (∀ e v o, accumulate L sol idx (ordersRange L) = .ok (e, v, o) → IsArgsortList e idxAll) ∧
    solveAll L sol idx idxAll = r

end Sleplet.Eigen
