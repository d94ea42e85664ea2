import Verif.Lemmas.DMatrixArbitrary

/-!
C03, C04 (arbitrary regions): concentration matrix under every thread schedule.
-/
namespace Sleplet.Props

open Sleplet.Arb Sleplet.Spec

variable {Pix : Type} [Fintype Pix]

/-- C03. For every bandlimit, mask, weights, worker count `ncpu ≥ 1` and every interleaving of the workers: if the
inverse transforms succeed with fields `Y` having the conjugation symmetry of spherical harmonics, then no worker
raises, and the matrix handed to the eigensolver is exactly the Hermitian matrix of region integrals
`∑ Y_a conj(Y_b) w mask`.  In particular it does not depend on the schedule. -/
theorem C03_arbitrary_matrix_schedule_independent (P : Params Pix) (Y : ℕ → Pix → ℂ)
    (hY : ∀ x < P.L ^ 2, P.fieldOf x = .ok (Y x)) (hsym : ConjSymmetric P.L Y)
    (ncpu : ℕ) (hpos : 1 ≤ ncpu) (we : ℕ → Option Err) (r : Except Err (ℕ → ℕ → ℂ)) (h : CreatesD P ncpu we r) :
    (∀ t, we t = none) ∧ ∃ M, r = .ok M ∧
      (∀ a < P.L ^ 2, ∀ b < P.L ^ 2, M a b = regionInner P.weight P.mask (Y a) (Y b)) ∧
      (∀ a < P.L ^ 2, ∀ b < P.L ^ 2, M b a = (starRingEnd ℂ) (M a b)) := by
  cases h with
  | noWorkers => omega
  | run _ _ s' ts' hrun =>
    have hpost := pool_post (E := False) (F := Y) (fun x hx => Or.inl (hY x hx)) hsym hpos hrun
    have hM : ∀ a < P.L ^ 2, ∀ b < P.L ^ 2,
        (fillUpper fun a b => (s'.dr a b : ℂ) + Complex.I * (s'.di a b : ℂ)) a b
          = regionInner P.weight P.mask (Y a) (Y b) := by
      have low : ∀ a b, b ≤ a → a < P.L ^ 2 →
          (s'.dr a b : ℂ) + Complex.I * (s'.di a b : ℂ) = regionInner P.weight P.mask (Y a) (Y b) := by
        intro a b hba ha
        obtain ⟨t, ht, hb⟩ := Parallel.exists_chunk (P.L ^ 2) ncpu hpos b (lt_of_le_of_lt hba ha)
        obtain ⟨h1, h2⟩ := (hpost ⟨t, ht⟩).1 ((hpost ⟨t, ht⟩).2 id) b hb a hba ha
        rw [h1, h2, mul_comm Complex.I]
        exact Complex.re_add_im _
      intro a ha b hb
      unfold fillUpper
      split
      · rename_i hab
        simp only [low b a hab.le hb]
        simp only [regionInner, map_sum, map_mul, Complex.conj_conj, Complex.conj_ofReal]
        exact Finset.sum_congr rfl fun p _ => by ring
      · rename_i hab
        exact low a b (by omega) ha
    refine ⟨?_, _, rfl, hM, ?_⟩
    · intro t
      by_cases ht : t < ncpu
      · simp only [ht, dite_true]; exact (hpost ⟨t, ht⟩).2 id
      · simp [ht]
    · intro a ha b hb
      rw [hM a ha b hb, hM b hb a ha]
      simp only [regionInner, map_sum, map_mul, Complex.conj_conj, Complex.conj_ofReal]
      exact Finset.sum_congr rfl fun p _ => by ring

/-- Some run always exists, so the theorem above speaks about something. -/
theorem C03_run_exists (P : Params Pix) (ncpu : ℕ) (hpos : 1 ≤ ncpu) : ∃ we M, CreatesD P ncpu we (.ok M) := by
  obtain ⟨s', ts', h⟩ := exists_poolRun (programs P ncpu) initLocal initShared
  exact ⟨_, _, CreatesD.run ncpu hpos s' ts' h⟩

/-- fields on a one-pixel grid with the required symmetry that are not trivial: `Y_{ℓ,m} = i^|m|`. -/
noncomputable def exampleY : ℕ → Unit → ℂ := fun x _ => Complex.I ^ (ind2elm x).2.natAbs

theorem exampleY_sym (L : ℕ) : ConjSymmetric L exampleY := by
  intro l m _ hm p
  unfold exampleY
  rw [ind2elm_elm2ind hm, ind2elm_elm2ind (by rwa [abs_neg])]
  simp only [Int.natAbs_neg, map_pow, Complex.conj_I]
  have : ((-1 : ℂ) ^ m) = (-1) ^ m.natAbs := by
    rcases Int.natAbs_eq m with h | h
    · conv_lhs => rw [h]
      rw [zpow_natCast]
    · conv_lhs => rw [h]
      rw [zpow_neg, zpow_natCast, ← inv_pow]
      norm_num
  rw [this, ← mul_pow]
  norm_num

/-- the hypotheses of C03 are met for `L = 2` and three workers. -/
example : ∃ (P : Params Unit), P.L = 2 ∧ (∀ x < P.L ^ 2, P.fieldOf x = .ok (exampleY x)) ∧ ConjSymmetric P.L exampleY ∧
    ∃ we M, CreatesD P 3 we (.ok M) ∧ M 3 2 = Complex.I := by
  let P : Params Unit := ⟨2, fun _ => 1, fun _ => 1, fun x => .ok (exampleY x)⟩
  obtain ⟨we, M, h⟩ := C03_run_exists P 3 (by norm_num)
  obtain ⟨-, M', h1, h2, -⟩ := C03_arbitrary_matrix_schedule_independent P exampleY (fun _ _ => rfl) (exampleY_sym 2) 3
    (by norm_num) we _ h
  injection h1 with h1
  subst h1
  refine ⟨P, rfl, fun _ _ => rfl, exampleY_sym 2, we, M, h, ?_⟩
  rw [h2 3 (by norm_num [P]) 2 (by norm_num [P])]
  have e3 : ind2elm 3 = (1, 1) := ind2elm_elm2ind (l := 1) (m := 1) (by norm_num)
  have e2 : ind2elm 2 = (1, 0) := ind2elm_elm2ind (l := 1) (m := 0) (by norm_num)
  simp [regionInner, exampleY, e3, e2, P]

/-- C04 is violated: the full claim "if some entry cannot be computed, building the matrix raises" is false. -/
theorem C04_worker_failure_swallowed :
    ¬ (∀ (P : Params Unit) (ncpu : ℕ) (we : ℕ → Option Err) (r : Except Err (ℕ → ℕ → ℂ)), 1 ≤ ncpu →
        (∃ x < P.L ^ 2, ∃ e, P.fieldOf x = .error e) → CreatesD P ncpu we r → ∃ e, r = .error e) := by
  intro h
  let P : Params Unit := ⟨1, fun _ => 1, fun _ => 1, fun _ => .error .memoryError⟩
  obtain ⟨we, M, hM⟩ := C03_run_exists P 1 le_rfl
  obtain ⟨e, he⟩ := h P 1 we _ le_rfl ⟨0, by simp [P], _, rfl⟩ hM
  cases he

/-- C04, what is left (partial): whatever fails, and under every schedule, a column handled by a worker that did not
raise is correct on and below the diagonal; so a wrong entry means that the worker owning its column raised an
exception which was then dropped.  Missing from the full property: the exception reaching the caller. -/
theorem C04_columns_of_surviving_workers_partial (P : Params Pix) (Y : ℕ → Pix → ℂ)
    (hY : ∀ x < P.L ^ 2, ∀ f, P.fieldOf x = .ok f → f = Y x) (hsym : ConjSymmetric P.L Y)
    (ncpu : ℕ) (hpos : 1 ≤ ncpu) (we : ℕ → Option Err) (M : ℕ → ℕ → ℂ) (h : CreatesD P ncpu we (.ok M))
    (t : ℕ) (ht : t < ncpu) (hwe : we t = none) :
    ∀ b ∈ (Parallel.splitArrIntoChunks (P.L ^ 2) ncpu).getD t [], ∀ a, b ≤ a → a < P.L ^ 2 →
      M a b = regionInner P.weight P.mask (Y a) (Y b) := by
  cases h with
  | run _ _ s' ts' hrun =>
    have hF : ∀ x < P.L ^ 2, FieldOk True P Y x := by
      intro x hx
      cases hf : P.fieldOf x with
      | ok f => exact Or.inl (by rw [hf, hY x hx f hf])
      | error e => exact Or.inr ⟨trivial, e, hf⟩
    simp only [ht, dite_true] at hwe
    intro b hb a hba ha
    obtain ⟨h1, h2⟩ := (pool_post hF hsym hpos hrun ⟨t, ht⟩).1 hwe b hb a hba ha
    unfold fillUpper
    rw [if_neg (by omega)]
    simp only [h1, h2]
    rw [mul_comm Complex.I]
    exact Complex.re_add_im _

/-- a run in which a worker fails: the entry stays zero although the integral is one. -/
example : ∃ (P : Params Unit) (we : ℕ → Option Err) (M : ℕ → ℕ → ℂ), P.L = 1 ∧
    CreatesD P 1 we (.ok M) ∧ we 0 = some .memoryError ∧ M 0 0 = 0 ∧ regionInner P.weight P.mask (exampleY 0) (exampleY 0) = 1 := by
  let P : Params Unit := ⟨1, fun _ => 1, fun _ => 1, fun _ => .error .memoryError⟩
  have hp : programs P 1 0 = matrixHelper P 0 := by
    have : Parallel.splitArrIntoChunks 1 1 = [[0]] := by decide
    simp [programs, chunkProgram, P, this]
  let T0 : Fin 1 → Task (Shared Unit) (Local Unit) := startTasks (programs P 1) initLocal
  have hrem : (T0 0).rem = checkField 0 :: storeField P 0 :: ((T0 0).rem.drop 2) := by
    simp [T0, startTasks, hp, matrixHelper, integralActs]
  let l1 : Local Unit := { (initLocal : Local Unit) with missing := true }
  let T1 := Function.update T0 0 ⟨storeField P 0 :: ((T0 0).rem.drop 2), l1, none⟩
  have s1 : Step (initShared, T0) ((initShared : Shared Unit), T1) :=
    Step.run initShared initShared T0 0 (checkField 0) _ l1 hrem rfl
  let T2 := Function.update T1 0 ⟨[], l1, some .memoryError⟩
  have s2 : Step (initShared, T1) ((initShared : Shared Unit), T2) := by
    have := Step.die (initShared : Shared Unit) T1 0 (storeField P 0) ((T0 0).rem.drop 2) .memoryError (by simp [T1])
      (by simp [T1, storeField, l1, P])
    simpa [T2, T1] using this
  refine ⟨P, _, _, rfl, CreatesD.run 1 le_rfl initShared T2 ⟨.tail (.tail .refl s1) s2, ?_⟩, ?_, ?_, ?_⟩
  · intro i
    obtain rfl : i = 0 := Subsingleton.elim _ _
    simp [T2]
  · simp [T2]
  · simp [fillUpper, initShared]
  · have e0 : ind2elm 0 = (0, 0) := ind2elm_elm2ind (l := 0) (m := 0) (by norm_num)
    simp [regionInner, exampleY, e0, P]

end Sleplet.Props
