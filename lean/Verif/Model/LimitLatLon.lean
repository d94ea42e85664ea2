import Mathlib.Analysis.SpecialFunctions.Trigonometric.Basic
import Mathlib.Data.Complex.BigOperators
import Verif.Model.Executor
import Verif.Model.Wigner
import Verif.Model.DMatrixArbitrary

/-!
Model of the concentration matrix of a limited latitude/longitude region:
`slepian/slepian_limit_lat_lon.py:85-208`.

Arrays are functions of natural indices together with an extent that is passed to every access; an index is resolved
as NumPy does (negative ones count from the end) and anything outside raises `IndexError`.  The compiled loop
(`numba.njit`) does not check bounds: there an `IndexError` of the model stands for undefined behaviour.
-/
namespace Sleplet.LatLon

open Complex

/-- position of index `i` on an axis of extent `n`. -/
def pos (n : ℕ) (i : ℤ) : Except Err ℕ :=
  if 0 ≤ i ∧ i < n then .ok i.toNat
  else if -n ≤ i ∧ i < 0 then .ok (i + n).toNat
  else .error .indexError

/-- A square array of complex numbers. -/
abbrev Mat := ℕ → ℕ → ℂ

/-- `M[i, j]`. -/
def getM (n : ℕ) (M : Mat) (i j : ℤ) : Except Err ℂ := do
  let a ← pos n i
  let b ← pos n j
  return M a b

/-- the array after its element `(a, b)` was replaced. -/
def put (M : Mat) (a b : ℕ) (v : ℂ) : Mat := fun x y => if x = a ∧ y = b then v else M x y

/-- `M[i, j] = v`. -/
def setM (n : ℕ) (M : Mat) (i j : ℤ) (v : ℂ) : Except Err Mat := do
  let a ← pos n i
  let b ← pos n j
  return put M a b v

/-- The region: `theta_min`, `theta_max`, `phi_min`, `phi_max`. -/
structure Bounds where
  tmin : ℝ
  tmax : ℝ
  pmin : ℝ
  pmax : ℝ

/-- Python's `1 / k` for an integer `k`. -/
noncomputable def oneOver (k : ℤ) : Except Err ℝ := if k = 0 then .error .zeroDivisionError else .ok (1 / k)

/-- `slepian_limit_lat_lon.py:120-132`: the value `Q`, with the `ZeroDivisionError` handler. -/
noncomputable def qValue (B : Bounds) (col : ℤ) : Except Err ℂ :=
  match oneOver (col ^ 2 - 1) with
  | .ok r => .ok ((r : ℂ) * (exp (I * col * B.tmin) * (I * col * Real.sin B.tmin - Real.cos B.tmin)
      + exp (I * col * B.tmax) * (Real.cos B.tmax - I * col * Real.sin B.tmax)))
  | .error .zeroDivisionError =>
      .ok (0.25 * (2 * I * col * (B.tmax - B.tmin) + exp (2 * I * col * B.tmin) - exp (2 * I * col * B.tmax)))
  | .error e => .error e

/-- `slepian_limit_lat_lon.py:118-138`, `helper(row, col, S)`. -/
noncomputable def helper (L : ℕ) (B : Bounds) (row : ℤ) (S : ℂ) (G : Mat) (col : ℤ) : Except Err Mat := do
  let Q ← qValue B col
  let G ← setM (4 * L - 3) G (2 * ((L : ℤ) - 1) + row) (2 * ((L : ℤ) - 1) + col) (Q * S)
  let v ← getM (4 * L - 3) G (2 * ((L : ℤ) - 1) + row) (2 * ((L : ℤ) - 1) + col)
  setM (4 * L - 3) G (2 * ((L : ℤ) - 1) - row) (2 * ((L : ℤ) - 1) - col) ((starRingEnd ℂ) v)

/-- `slepian_limit_lat_lon.py:147-149`: `S` for a row that is not zero. -/
noncomputable def sValue (B : Bounds) (row : ℤ) : Except Err ℂ :=
  if row = 0 then .error .zeroDivisionError
  else .ok ((I / row) * (exp (I * row * B.pmin) - exp (I * row * B.pmax)))

/-- `slepian_limit_lat_lon.py:146-151`: the body of the loop over rows. -/
noncomputable def integralRow (L : ℕ) (B : Bounds) (G : Mat) (row : ℤ) : Except Err Mat := do
  let S ← sValue B row
  (Wigner.intRange (-2 * ((L : ℤ) - 1)) (2 * ((L : ℤ) - 1))).foldlM (helper L B row S) G

/-- `slepian_limit_lat_lon.py:99-153`, `_slepian_integral`.  `np.zeros` raises `ValueError` on the negative extent that
`L = 0` gives. -/
noncomputable def slepianIntegral (L : ℕ) (B : Bounds) : Except Err Mat := do
  if L = 0 then .error .valueError
  else do
    let G ← (Wigner.intRange (-2 * ((L : ℤ) - 1)) 0).foldlM (helper L B 0 ((B.pmax - B.pmin : ℝ) : ℂ)) (fun _ _ => 0)
    (Wigner.intRange (-2 * ((L : ℤ) - 1)) (-1)).foldlM (integralRow L B) G

/-- The table of Wigner-d values at `π/2`, `ssht.generate_dl(np.pi / 2, L)` (external), of shape `(L, 2L-1, 2L-1)`. -/
abbrev Table := ℕ → ℕ → ℕ → ℝ

/-- `dl[l, i, j]`. -/
def readDl (L : ℕ) (dl : Table) (l i j : ℤ) : Except Err ℝ := do
  let a ← pos L l
  let b ← pos (2 * L - 1) i
  let c ← pos (2 * L - 1) j
  return dl a b c

/-- `slepian_limit_lat_lon.py:199-203`: the body of the innermost loop. -/
noncomputable def s1Step (L : ℕ) (dl : Table) (G : Mat) (p : ℕ) (q mp row : ℤ) (S1 : ℂ) (qp : ℤ) : Except Err ℂ := do
  let N : ℤ := (L : ℤ) - 1
  let a ← readDl L dl p (N + qp) (N + q)
  let b ← readDl L dl p (N + qp) N
  let g ← getM (4 * L - 3) G (2 * N + row) (2 * N + (mp - qp))
  return S1 + ((a * b : ℝ) : ℂ) * g

/-- `slepian_limit_lat_lon.py:195-205`: the term `C3 * S1` for one `mp`. -/
noncomputable def mpTerm (L : ℕ) (dl : Table) (G : Mat) (ell p : ℕ) (m q mp : ℤ) : Except Err ℂ := do
  let N : ℤ := (L : ℤ) - 1
  let a ← readDl L dl ell (N + mp) (N + m)
  let b ← readDl L dl ell (N + mp) N
  let S1 ← (Wigner.intRange (-p) p).foldlM (s1Step L dl G p q mp (m - q)) 0
  return ((a * b : ℝ) : ℂ) * S1

/-- The shared array `K` and the value a thread read from it last. -/
abbrev A := Act Mat ℂ

/-- read `K[i, j]` into the local variable. -/
def load (L : ℕ) (i j : ℤ) : A := fun K _ => do
  let v ← getM (L ^ 2) K i j
  return (K, v)

/-- `K[i, j] = f(local)`, where computing `f` may raise. -/
def store (L : ℕ) (i j : ℤ) (f : ℂ → Except Err ℂ) : A := fun K x => do
  let v ← f x
  let K ← setM (L ^ 2) K i j v
  return (K, x)

/-- `slepian_limit_lat_lon.py:187`: `ind_lm` (and line 190, `ind_pq`). -/
def ind (l : ℕ) (m : ℤ) : ℤ := (l : ℤ) * (l + 1) + m

/-- `slepian_limit_lat_lon.py:189-207`: everything that happens to one entry: `+=` for every `mp`, then `*=`. -/
noncomputable def entryActs (L : ℕ) (dl : Table) (G : Mat) (ell p : ℕ) (m q : ℤ) : List A :=
  ((Wigner.intRange (-ell) ell).flatMap fun mp =>
    [load L (ind ell m) (ind p q),
     store L (ind ell m) (ind p q) fun x => do
       let t ← mpTerm L dl G ell p m q mp
       return x + t]) ++
  [load L (ind ell m) (ind p q),
   store L (ind ell m) (ind p q) fun x =>
     .ok (x * (((Real.sqrt ((2 * ell + 1) * (2 * p + 1)) / (4 * Real.pi) : ℝ) : ℂ) * (-I) ^ (m - q)))]

/-- `slepian_limit_lat_lon.py:182-207`: the body of the parallel loop. -/
noncomputable def degreeActs (L : ℕ) (dl : Table) (G : Mat) (ell : ℕ) : List A :=
  (List.range (ell + 1)).flatMap fun p : ℕ =>
    (Wigner.intRange (-ell) ell).flatMap fun m =>
      (Wigner.intRange (-p) p).flatMap fun q => entryActs L dl G ell p m q

/-- How `numba.prange(L)` distributes the degrees over `k` threads: every degree goes to exactly one of them. -/
def Distributes (L : ℕ) {k : ℕ} (chunks : Fin k → List ℕ) : Prop :=
  ((List.finRange k).flatMap chunks).Perm (List.range L)

/-- `slepian_limit_lat_lon.py:155-208`, `_slepian_matrix(dl, L, L - 1, G)`: some number of threads, some distribution of
the degrees and some interleaving give `K`; `we` tells which threads went wrong. -/
inductive SlepianMatrix (L : ℕ) (dl : Table) (G : Mat) : (ℕ → Option Err) → Mat → Prop
  | run (k : ℕ) (chunks : Fin k → List ℕ) (hc : Distributes L chunks) (K : Mat) (ts : Fin k → Task Mat ℂ)
      (h : PoolRun (fun t => (chunks t).flatMap (degreeActs L dl G)) 0 (fun _ _ => 0) K ts) :
      SlepianMatrix L dl G (fun t => if ht : t < k then (ts ⟨t, ht⟩).failed else none) K

/-- `slepian_limit_lat_lon.py:85-97`, `_create_K_matrix`. -/
inductive CreatesK (L : ℕ) (B : Bounds) (dl : Table) : (ℕ → Option Err) → Except Err Mat → Prop
  | integralFails (e : Err) (h : slepianIntegral L B = .error e) : CreatesK L B dl (fun _ => none) (.error e)
  | run (G : Mat) (hG : slepianIntegral L B = .ok G) (we : ℕ → Option Err) (K : Mat) (h : SlepianMatrix L dl G we K) :
      CreatesK L B dl we (.ok (Arb.fillUpper K))

end Sleplet.LatLon
