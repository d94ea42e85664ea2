import Mathlib.Data.Complex.BigOperators
import Verif.Model.Executor
import Verif.Model.Parallel
import Verif.Model.Wigner
import Verif.Model.HarmonicIndex

/-!
Models of the two real-valued concentration matrices:
mesh (`meshes/mesh_slepian.py:96-161`) and polar cap (`slepian/slepian_polar_cap.py:166-269,364-373`).
-/
namespace Sleplet.RealMat

/-- The shared-memory matrix. -/
abbrev Shared := ℕ → ℕ → ℝ

abbrev A := Act Shared Unit

/-- `D[a, b] = v`. -/
def setEntry (D : Shared) (a b : ℕ) (v : ℝ) : Shared := fun x y => if x = a ∧ y = b then v else D x y

/-- compute a value (which may raise) and store it. -/
def write (a b : ℕ) (v : Except Err ℝ) : A := fun s _ =>
  match v with
  | .ok x => .ok (setEntry s a b x, ())
  | .error e => .error e

/-- `D[a, b] = D[c, d]`. -/
def copy (a b c d : ℕ) : A := fun s _ => .ok (setEntry s a b (s c d), ())

/-- One task per chunk of `range(n)`, each looping over its chunk
(`mesh_slepian.py:106-133`, `slepian_polar_cap.py:194-222`). -/
def programs (n : ℕ) (helper : ℕ → List A) (ncpu : ℕ) : Fin ncpu → List A :=
  fun t => ((Parallel.splitArrIntoChunks n ncpu).getD t []).flatMap helper

/-- A parallel construction from a zero matrix followed by `post` in the main thread; `we t` is the exception stored
in the future of task `t`, never looked at by the code. -/
inductive Creates (n : ℕ) (helper : ℕ → List A) (post : Shared → Shared) :
    ℕ → (ℕ → Option Err) → Except Err Shared → Prop
  | noWorkers : Creates n helper post 0 (fun _ => none) (.error .valueError)
  | run (ncpu : ℕ) (hpos : 1 ≤ ncpu) (s' : Shared) (ts' : Fin ncpu → Task Shared Unit)
      (h : PoolRun (programs n helper ncpu) () (fun _ _ => 0) s' ts') :
      Creates n helper post ncpu (fun t => if ht : t < ncpu then (ts' ⟨t, ht⟩).failed else none) (.ok (post s'))

/-- `mesh_slepian.py:153-161`, `_integral(i, j)`: `self.mesh.basis_functions[i]` and `[j]` (IndexError out of range)
multiplied and summed over the region by `_integration_methods.py:53-61`. -/
noncomputable def meshIntegral {V : Type} [Fintype V] (region : V → Bool) (basis : List (V → ℝ)) (i j : ℕ) : Except Err ℝ :=
  match basis[i]?, basis[j]? with
  | some f, some g => .ok (∑ v, f v * g v * (if region v then 1 else 0))
  | _, _ => .error .indexError

/-- `mesh_slepian.py:143-151`, `_fill_D_elements(D, i)`. -/
def meshHelper (K : ℕ) (entry : ℕ → ℕ → Except Err ℝ) (i : ℕ) : List A :=
  write i i (entry i i) :: ((List.range K).drop (i + 1)).map fun j => write j i (entry j i)

/-- `_array_methods.py:7-10` on a real matrix (conjugation is the identity). -/
def fillUpper (M : Shared) : Shared := fun a b => if a < b then M b a else M a b

/-- `slepian_polar_cap.py:243-269`, `_dm_matrix_helper(Dm, i, …)` on a matrix of size `n = L - m`. -/
def polarHelper (n : ℕ) (entry : ℕ → ℕ → Except Err ℝ) (i : ℕ) : List A :=
  ((List.range n).drop i).flatMap fun j => [write i j (entry i j), copy j i i j]

/-! ### the polar-cap entries -/

/-- `slepian_polar_cap.py:364-373`, `_polar_gap_modification`. -/
def polarGapModification (gap : Bool) (ell1 ell2 : ℕ) : ℤ :=
  1 + (if gap then 1 else 0) * (-1) ^ (ell1 + ell2)

/-- `Pl[ell == k]` with `ell = np.arange(2 * L)` (`slepian_polar_cap.py:239,258,262`); no match gives an empty array,
and storing the resulting empty sum raises `ValueError`. -/
def plAt (L : ℕ) (Pl : ℕ → ℝ) (k : ℤ) : Except Err ℝ :=
  if 0 ≤ k ∧ k < 2 * L then .ok (Pl k.toNat) else .error .valueError

/-- `slepian_polar_cap.py:258-263`: the summand for one `n`. -/
noncomputable def dmTerm (L : ℕ) (Pl : ℕ → ℝ) (m el p : ℕ) (n : ℤ) : Except Err ℝ := do
  let a ← (if n ≠ 0 then plAt L Pl (n - 1) else .ok 1 : Except Err ℝ)
  let w0 ← Wigner.wigner3j el n p 0 0 0
  let wm ← Wigner.wigner3j el n p m 0 (-m)
  let b ← plAt L Pl (n + 1)
  return w0 * wm * (a - b)

/-- `slepian_polar_cap.py:256-263`: the accumulated sum. -/
noncomputable def dmSum (L : ℕ) (Pl : ℕ → ℝ) (m el p : ℕ) : List ℤ → Except Err ℝ
  | [] => .ok 0
  | n :: ns => do
    let a ← dmTerm L Pl m el p n
    let b ← dmSum L Pl m el p ns
    return a + b

/-- `slepian_polar_cap.py:253-268`: the value stored at `Dm[i, j]`, `el = lvec[i] = m + i`, `p = lvec[j] = m + j`. -/
noncomputable def dmEntry (L : ℕ) (gap : Bool) (Pl : ℕ → ℝ) (m : ℕ) (i j : ℕ) : Except Err ℝ := do
  let el := m + i
  let p := m + j
  let c ← dmSum L Pl m el p (Wigner.intRange |(el : ℤ) - p| (el + p))
  return (polarGapModification gap el p : ℝ) * Real.sqrt ((2 * el + 1) * (2 * p + 1)) * c

/-- `slepian_polar_cap.py:225`: `Dm = Dm_ext * (-1) ** m / 2`. -/
noncomputable def polarPost (m : ℕ) (D : Shared) : Shared := fun a b => D a b * (-1) ^ m / 2

/-- `slepian_polar_cap.py:166-230`, `_create_Dm_matrix(m, emm)` with `m ≥ 0` (it is called with `abs(m)`, line 146). -/
def CreatesDm (L : ℕ) (gap : Bool) (Pl : ℕ → ℝ) (m : ℕ) :=
  Creates (L - m) (polarHelper (L - m) (dmEntry L gap Pl m)) (polarPost m)

/-- `mesh_slepian.py:96-141` followed by the triangle fill at line 84. -/
def CreatesMesh (K : ℕ) (entry : ℕ → ℕ → Except Err ℝ) := Creates K (meshHelper K entry) fillUpper

end Sleplet.RealMat
