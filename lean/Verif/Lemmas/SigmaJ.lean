import Verif.Model.SigmaJ
import Verif.Lemmas.MeshTransform

namespace Sleplet.SigmaJ

open NumPy

theorem waveletPower_ok {X : Type} (row : List ℂ) (N : ℕ) (hN : N ≤ row.length) (s2 : ℕ → X → ℝ) :
    waveletPower (row.take N) ((List.range N).map s2) = .ok fun x => ∑ p : Fin N, ‖row.getD p 0‖ ^ 2 * s2 p x := by
  unfold waveletPower
  rw [broadcast_of_length_eq _ _ _ (by simp [hN])]
  simp only [bind, Except.bind, pure, Except.pure, Except.ok.injEq]
  funext x
  have : (List.zipWith (fun (k : ℂ) (s : X → ℝ) => fun x => ‖k‖ ^ 2 * s x) (row.take N) ((List.range N).map s2)).map (fun t => t x) =
      List.ofFn fun p : Fin N => ‖row.getD p 0‖ ^ 2 * s2 p x := by
    apply List.ext_getElem
    · simp [hN]
    · intro i h1 h2
      simp at h2
      have : i < row.length := by omega
      simp [List.getD_eq_getElem?_getD, this]
  rw [this, List.sum_ofFn]

end Sleplet.SigmaJ
