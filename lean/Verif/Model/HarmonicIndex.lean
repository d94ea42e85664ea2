import Mathlib.Data.Nat.Sqrt
import Verif.Model.Common

/-!
Harmonic indexing: `ssht.elm2ind`, `ssht.ind2elm` (external, documented behaviour) and
`harmonic_methods.py:99-108`.
-/
namespace Sleplet

/-- `ssht.elm2ind(el, m) = el * el + el + m` (pyssht, external).  Only used with `|m| ≤ el`, where it is
nonnegative. -/
def elm2ind (ell : ℕ) (m : ℤ) : ℕ := ((ell : ℤ) * ell + ell + m).toNat

/-- `ssht.ind2elm(ind)`: `ell = floor(sqrt(ind))`, `m = ind - ell * ell - ell` (pyssht, external). -/
def ind2elm (ind : ℕ) : ℕ × ℤ :=
  let ell := Nat.sqrt ind
  (ell, (ind : ℤ) - ell * ell - ell)

/-- NumPy slice assignment `emm[k : k + len(vals)] = vals` on a vector long enough to hold it. -/
def setSlice (xs : List ℤ) (k : ℕ) (vals : List ℤ) : List ℤ :=
  xs.take k ++ vals ++ xs.drop (k + vals.length)

/-- `np.arange(-ell, ell + 1)`. -/
def arangeEmm (ell : ℕ) : List ℤ := (List.range (2 * ell + 1)).map fun t : ℕ => (t : ℤ) - (ell : ℤ)

/-- `harmonic_methods.py:104-107`: the loop body, state `(k, emm)`. -/
def emmStep (st : ℕ × List ℤ) (ell : ℕ) : ℕ × List ℤ :=
  (st.1 + (2 * ell + 1), setSlice st.2 st.1 (arangeEmm ell))

/-- `harmonic_methods.py:99-108`, `_create_emm_vector`. -/
def createEmmVector (L : ℕ) : List ℤ :=
  ((List.range (2 * L)).foldl emmStep (0, List.replicate (2 * L * 2 * L) 0)).2

end Sleplet
