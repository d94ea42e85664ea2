import Mathlib.Data.List.GetD
import Verif.Model.Thresholding

namespace Sleplet.Thresholding

open NumPy

variable {Pix : Type}

/-- row `j` with content `row` is thresholded to `t`. -/
def Thresholds (inverse : List ℂ → Except Err (Pix → ℂ)) (forward : (Pix → ℂ) → Except Err (List ℂ))
    (nSigma : ℤ) (row : List ℂ) (s : Pix → ℝ) (t : List ℂ) : Prop :=
  ∃ f, inverse row = .ok f ∧ forward (performHardThresholding f s nSigma) = .ok t ∧ t.length = row.length

theorem body_ok (inverse : List ℂ → Except Err (Pix → ℂ)) (forward : (Pix → ℂ) → Except Err (List ℂ))
    (sigma : List (Pix → ℝ)) (nSigma : ℤ) (off r j : ℕ) (h : Heap) (arr : List (List ℂ)) (row t : List ℂ) (s : Pix → ℝ)
    (hr : h[r]? = some arr) (ha : arr[off + j]? = some row) (hs : sigma[j]? = some s)
    (ht : Thresholds inverse forward nSigma row s t) :
    body inverse forward sigma nSigma off r h j = .ok (h.set r (arr.set (off + j) t)) := by
  obtain ⟨f, h1, h2, h3⟩ := ht
  simp [body, item, hr, ha, hs, h1, h2, assignRow, h3, bind, Except.bind, pure, Except.pure]

theorem body_short (inverse : List ℂ → Except Err (Pix → ℂ)) (forward : (Pix → ℂ) → Except Err (List ℂ))
    (sigma : List (Pix → ℝ)) (nSigma : ℤ) (off r j : ℕ) (h : Heap) (arr : List (List ℂ)) (row : List ℂ) (f : Pix → ℂ)
    (hr : h[r]? = some arr) (ha : arr[off + j]? = some row) (hs : sigma[j]? = none) (hf : inverse row = .ok f) :
    body inverse forward sigma nSigma off r h j = .error .indexError := by
  simp [body, item, hr, ha, hs, hf, bind, Except.bind]

theorem loop_ok (inverse : List ℂ → Except Err (Pix → ℂ)) (forward : (Pix → ℂ) → Except Err (List ℂ))
    (sigma : List (Pix → ℝ)) (nSigma : ℤ) (off r : ℕ) (h : Heap) (hr : r < h.length) (rest ts : List (List ℂ))
    (js : List ℕ) (post : List (List ℂ)) :
    ∀ (pre : List (List ℂ)) (s : ℕ), pre.length = off + s → ts.length = rest.length →
      (∀ i row t, rest[i]? = some row → ts[i]? = some t → ∃ sg, sigma[s + i]? = some sg ∧
        Thresholds inverse forward nSigma row sg t) →
      loop inverse forward sigma nSigma off r (List.range' s rest.length ++ js) (h.set r (pre ++ rest ++ post)) =
        loop inverse forward sigma nSigma off r js (h.set r (pre ++ ts ++ post)) := by
  induction rest generalizing ts with
  | nil =>
    intro pre s _ hl _
    have : ts = [] := by simpa using hl
    subst this
    simp
  | cons row rest ih =>
    intro pre s hp hl ht
    match ts, hl with
    | t :: ts, hl =>
      obtain ⟨sg, hsg, hth⟩ := ht 0 row t (by simp) (by simp)
      rw [List.length_cons, List.range'_succ, List.cons_append, loop,
        body_ok inverse forward sigma nSigma off r s _ (pre ++ row :: rest ++ post) row t sg (by simp [hr])
          (by simp [← hp]) (by simpa using hsg) hth]
      simp only
      have e : (pre ++ row :: rest ++ post).set (off + s) t = (pre ++ [t]) ++ rest ++ post := by
        rw [← hp, List.append_assoc, List.set_append_right _ _ le_rfl]
        simp
      rw [e, List.set_set, ih ts (pre ++ [t]) (s + 1) (by simp [hp]; omega) (by simpa using hl)]
      · simp
      · intro i row' t' h1 h2
        have := ht (i + 1) row' t' (by simpa using h1) (by simpa using h2)
        rwa [show s + (i + 1) = s + 1 + i from by omega] at this

end Sleplet.Thresholding
