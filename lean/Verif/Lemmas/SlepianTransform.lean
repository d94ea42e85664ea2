import Mathlib.Algebra.BigOperators.Fin
import Mathlib.Analysis.Complex.Norm
import Mathlib.Tactic.Ring
import Mathlib.Tactic.Linarith
import Mathlib.Tactic.LinearCombination
import Verif.Model.SlepianTransform
import Verif.Spec.Eigen

namespace Sleplet.Transform

open Complex Sleplet.Spec

variable {Pix : Type} [Fintype Pix] {L : ℕ}

theorem detectMethod_flm (a c : Bool) : detectMethod a true c = .ok .harmonicSum := by simp [detectMethod]

theorem validateRank_ok {rank : ℕ} (h : rank < L ^ 2) : validateRank L rank = .ok () := by
  unfold validateRank
  have : (rank : ℤ) < (L : ℤ) ^ 2 := by exact_mod_cast h
  rw [if_neg (by omega), if_neg (by omega)]

theorem decompose_flm (sl : Slepian (L ^ 2)) (synth : (Fin (L ^ 2) → ℂ) → Pix → ℂ) (w : Pix → ℝ)
    (inp : Inputs (L ^ 2) Pix) (flm : Fin (L ^ 2) → ℂ) (hflm : inp.flm = some flm) (rank : ℕ) (h : rank < L ^ 2) :
    decompose sl synth w inp rank = harmonicSum sl flm rank := by
  unfold decompose
  simp only [hflm, Option.isSome_some, detectMethod_flm, validateRank_ok h, bind, Except.bind]
  simp

theorem decomposeAll_ok (sl : Slepian (L ^ 2)) (synth : (Fin (L ^ 2) → ℂ) → Pix → ℂ) (w : Pix → ℝ)
    (inp : Inputs (L ^ 2) Pix) (g : ℕ → ℂ) (rs : List ℕ) (h : ∀ r ∈ rs, decompose sl synth w inp r = .ok (g r)) :
    decomposeAll sl synth w inp rs = .ok (rs.map g) := by
  induction rs with
  | nil => rfl
  | cons r rs ih =>
    unfold decomposeAll
    rw [h r (by simp), ih fun r hr => h r (by simp [hr])]
    rfl

omit [Fintype Pix] in
theorem computeSp_ok {n : ℕ} (sl : Slepian n) (synth : (Fin n → ℂ) → Pix → ℂ) (E : ℕ → Fin n → ℂ) (ps : List ℕ)
    (h : ∀ p ∈ ps, sl.evecs[p]? = some (E p)) : computeSp sl synth ps = .ok (ps.map fun p => synth (E p)) := by
  induction ps with
  | nil => rfl
  | cons p ps ih =>
    unfold computeSp
    rw [ih fun p hp => h p (by simp [hp])]
    simp [NumPy.item, h p (by simp), bind, Except.bind, pure, Except.pure]

omit [Fintype Pix] in
theorem slepianInverse_ok {n N : ℕ} (sl : Slepian n) (synth : (Fin n → ℂ) → Pix → ℂ) (E : Fin N → Fin n → ℂ)
    (hN : sl.N = N) (h : ∀ p : Fin N, sl.evecs[(p : ℕ)]? = some (E p)) (a : Fin N → ℂ) :
    slepianInverse sl synth (List.ofFn a) = .ok fun x => ∑ p, a p * synth (E p) x := by
  unfold slepianInverse
  have h' : ∀ p ∈ List.range sl.N, sl.evecs[p]? = some (if hp : p < N then E ⟨p, hp⟩ else fun _ => 0) := by
    intro p hp
    have hp : p < N := by rw [← hN]; simpa using hp
    simp only [hp, dite_true]
    exact h ⟨p, hp⟩
  rw [computeSp_ok sl synth _ _ h']
  simp only [bind, Except.bind]
  rw [NumPy.broadcast_of_length_eq _ _ _ (by simp [hN])]
  simp only [pure, Except.pure, Except.ok.injEq]
  funext x
  have : (List.map (fun t => t x) (List.zipWith (fun (c : ℂ) (s : Pix → ℂ) => fun x => c * s x) (List.take sl.N (List.ofFn a))
      (List.map (fun p => synth (if hp : p < N then E ⟨p, hp⟩ else fun _ => 0)) (List.range sl.N)))) =
      List.ofFn fun p : Fin N => a p * synth (E p) x := by
    apply List.ext_getElem
    · simp [hN]
    · intro i h1 h2
      simp at h2
      simp [h2]
  rw [this, List.sum_ofFn]

end Sleplet.Transform
