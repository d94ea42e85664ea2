import Verif.Lemmas.Concentration
import Verif.Props.DMatrixArbitrary
import Verif.Props.DMatrixReal
import Verif.Props.EigenClean

/-!
C50: eigenvalues are energy ratios, end to end (parallel construction of the matrix, eigensolver, cleaning).
-/
namespace Sleplet.Props

open Complex Sleplet.Spec Sleplet.Arb Sleplet.Eigen

variable {Pix : Type} [Fintype Pix]

/-- C50, arbitrary regions.  Whatever the schedule of the workers and whatever permutation sorts the eigenvalues: if the
solver returned an eigendecomposition of the matrix it was given, the fields `s_p` synthesised from the returned rows
are orthogonal over the region with `∫_R |s_p|² = e_p`, the eigenvalues add up to `∑_i ∫_R |Y_i|²`, and when the basis
fields are orthonormal on the grid (weights and mask between 0 and 1) each `e_p` is the ratio of region energy to total
energy and lies in `[0, 1]`. -/
theorem C50_arbitrary_energy_ratio (P : Params Pix) (n : ℕ) (hn : n + 1 = P.L ^ 2) (Y : ℕ → Pix → ℂ)
    (hY : ∀ x < P.L ^ 2, P.fieldOf x = .ok (Y x)) (hsym : ConjSymmetric P.L Y)
    (ncpu : ℕ) (hpos : 1 ≤ ncpu) (we : ℕ → Option Err) (M : ℕ → ℕ → ℂ) (h : CreatesD P ncpu we (.ok M))
    (w : Fin (n + 1) → ℂ) (V : Fin (n + 1) → Fin (n + 1) → ℂ)
    (hD : IsEigh (fun r c : Fin (n + 1) => M r c) w V)
    (e : Fin (n + 1) → ℝ) (S : Fin (n + 1) → Fin (n + 1) → ℂ) (hS : CleansArbitrary w V e S) :
    let s : Fin (n + 1) → Pix → ℂ := fun p x => ∑ i, S p i * Y i x
    (∀ p, ∑ x, ‖s p x‖ ^ 2 * P.weight x * P.mask x = e p) ∧
    (∀ p q, p ≠ q → ∑ x, s p x * (starRingEnd ℂ) (s q x) * (P.weight x : ℂ) * (P.mask x : ℂ) = 0) ∧
    (∑ p, e p = ∑ i : Fin (n + 1), ∑ x, ‖Y i x‖ ^ 2 * P.weight x * P.mask x) ∧
    ((∀ x, 0 ≤ P.weight x) → (∀ x, 0 ≤ P.mask x ∧ P.mask x ≤ 1) →
      (∀ a b : Fin (n + 1), ∑ x, Y a x * (starRingEnd ℂ) (Y b x) * (P.weight x : ℂ) = if a = b then 1 else 0) →
      ∀ p, e p = (∑ x, ‖s p x‖ ^ 2 * P.weight x * P.mask x) / (∑ x, ‖s p x‖ ^ 2 * P.weight x) ∧ 0 ≤ e p ∧ e p ≤ 1) := by
  intro s
  obtain ⟨-, M', h1, h2, -⟩ := C03_arbitrary_matrix_schedule_independent P Y hY hsym ncpu hpos we _ h
  injection h1 with h1
  subst h1
  obtain ⟨heig, horth⟩ := C18_arbitrary_orthonormal_eigenvectors _ w V hD e S hS
  let Y' : Fin (n + 1) → Pix → ℂ := fun i => Y i
  have hD' : ∀ a b : Fin (n + 1), M a b = regionInner P.weight P.mask (Y' a) (Y' b) :=
    fun a b => h2 a (by omega) b (by omega)
  have hin := regionInner_eigen P.weight P.mask Y' (fun r c : Fin (n + 1) => M r c) e S hD' heig horth
  have hen : ∀ p, energy P.weight P.mask (s p) = e p := by
    intro p
    have := hin p p
    rw [regionInner_self, if_pos rfl] at this
    exact_mod_cast this
  refine ⟨hen, fun p q hpq => ?_, ?_, ?_⟩
  · have := hin p q
    rw [if_neg hpq] at this
    exact this
  · have := sum_eigenvalues _ e S heig horth
    simp only [hD', regionInner_self, conj_ofReal] at this
    exact_mod_cast this
  · intro hw hm horthY p
    have hY1 : ∀ a b, regionInner P.weight (fun _ => 1) (Y' a) (Y' b) = if a = b then 1 else 0 := by
      intro a b
      rw [← horthY a b]
      simp [regionInner, Y']
    have htot : energy P.weight (fun _ => 1) (s p) = 1 := by
      have := wholeInner_synth P.weight Y' hY1 (S p) (S p)
      rw [regionInner_self, horth p p, if_pos rfl] at this
      exact_mod_cast this
    have htot' : ∑ x, ‖s p x‖ ^ 2 * P.weight x = 1 := by
      rw [← htot]; simp [energy]
    refine ⟨?_, ?_, ?_⟩
    · rw [htot', div_one]; exact (hen p).symm
    · rw [← hen p]; exact energy_nonneg hw (fun x => (hm x).1) _
    · rw [← hen p, ← htot]; exact energy_mono hw (fun x => (hm x).2) _

/-- all hypotheses are met together: two pixels of weight one half, one of them in the region, `L = 1`, constant harmonic;
the eigenvalue is one half. -/
example : ∃ (P : Params (Fin 2)) (Y : ℕ → Fin 2 → ℂ) (we : ℕ → Option Err) (M : ℕ → ℕ → ℂ), P.L = 1 ∧
    (∀ x < P.L ^ 2, P.fieldOf x = .ok (Y x)) ∧ ConjSymmetric P.L Y ∧ CreatesD P 2 we (.ok M) ∧
    IsEigh (n := 1) (fun r c => M r c) (fun _ => 1 / 2) (fun _ _ => 1) ∧
    CleansArbitrary (n := 0) (fun _ => 1 / 2) (fun _ _ => 1) (fun _ => 1 / 2) (fun _ _ => 1) ∧
    (∀ a b : Fin 1, ∑ x, Y a x * (starRingEnd ℂ) (Y b x) * (P.weight x : ℂ) = if a = b then 1 else 0) := by
  classical
  let Y : ℕ → Fin 2 → ℂ := fun _ _ => 1
  let P : Params (Fin 2) := ⟨1, fun x => if x = 0 then 1 else 0, fun _ => 1 / 2, fun x => .ok (Y x)⟩
  have hsym : ConjSymmetric P.L Y := by
    intro l m hl hm p
    have hl' : l < 1 := hl
    have : m = 0 := by
      rw [abs_le] at hm; omega
    subst this
    simp [Y]
  obtain ⟨we, M, h⟩ := C03_run_exists P 2 (by norm_num)
  obtain ⟨-, M', h1, h2, -⟩ := C03_arbitrary_matrix_schedule_independent P Y (fun _ _ => rfl) hsym 2 (by norm_num) we _ h
  injection h1 with h1
  subst h1
  have hM : M 0 0 = 1 / 2 := by
    rw [h2 0 (by norm_num [P]) 0 (by norm_num [P])]
    simp [regionInner, P, Y]
  refine ⟨P, Y, we, M, rfl, fun _ _ => rfl, hsym, h, ⟨fun _ => by simp, ?_, ?_⟩, ⟨Equiv.refl _, ?_, ?_⟩, ?_⟩
  · intro k r
    have : r = 0 := Subsingleton.elim _ _
    subst this
    simp [hM]
  · intro p q
    have : p = q := Subsingleton.elim _ _
    simp [this]
  · intro a b _; exact le_rfl
  · have hn : ¬ inPairs (n := 0) (fun _ => (1 / 2 : ℝ)) 0 := by
      rintro ⟨q, hq, -⟩
      simp at hq
    have hs : signOf 1 = 1 := by
      unfold signOf npLtZero; simp
    simp only [cleanArbitrary, cleanLatLon, Prod.mk.injEq]
    constructor
    · funext p; simp
    · funext p c
      have : p = 0 := by ext; omega
      subst this
      have : ((1 / 2 : ℂ)).re = 1 / 2 := by norm_num
      simp only [map_one, hs, this, hn, if_false, mul_one]
  · intro a b
    have : a = b := Subsingleton.elim _ _
    simp [this, Y, P]

end Sleplet.Props
