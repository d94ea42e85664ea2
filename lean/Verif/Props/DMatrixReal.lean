import Mathlib.Algebra.BigOperators.Fin
import Verif.Lemmas.DMatrixReal

/-!
C05, C06, C07, C51, and C04 for the mesh and polar-cap matrices.
-/
namespace Sleplet.Props

open Sleplet.RealMat Sleplet.Wigner

/-- `∑_v f(v) g(v)` over the vertices `v` in the region: the region integral of a product of mesh functions. -/
noncomputable def meshInner {V : Type} [Fintype V] (region : V → Bool) (f g : V → ℝ) : ℝ :=
  ∑ v with region v = true, f v * g v

theorem meshIntegral_eq {V : Type} [Fintype V] (region : V → Bool) (basis : List (V → ℝ)) (a b : ℕ)
    (ha : a < basis.length) (hb : b < basis.length) :
    meshIntegral region basis a b = .ok (meshInner region basis[a] basis[b]) := by
  unfold meshIntegral meshInner
  rw [List.getElem?_eq_getElem ha, List.getElem?_eq_getElem hb, Finset.sum_filter]
  simp

/-- C05. For every mesh, every region, basis functions, worker count and interleaving, no worker raises and the matrix
handed to the eigensolver is exactly the symmetric matrix of region integrals of products of basis functions. -/
theorem C05_mesh_matrix_schedule_independent {V : Type} [Fintype V] (region : V → Bool) (basis : List (V → ℝ))
    (K : ℕ) (hK : K = basis.length)
    (ncpu : ℕ) (hpos : 1 ≤ ncpu) (we : ℕ → Option Err) (r : Except Err (ℕ → ℕ → ℝ))
    (h : CreatesMesh K (meshIntegral region basis) ncpu we r) :
    (∀ t, we t = none) ∧ ∃ M, r = .ok M ∧
      (∀ (a : ℕ) (ha : a < basis.length) (b : ℕ) (hb : b < basis.length), M a b = meshInner region basis[a] basis[b]) ∧
      (∀ a < K, ∀ b < K, M a b = M b a) := by
  subst hK
  let T : ℕ → ℕ → ℝ := fun a b => meshInner region (basis.getD a 0) (basis.getD b 0)
  have hsymm : ∀ a b, T a b = T b a := by
    intro a b
    simp only [T, meshInner]
    exact Finset.sum_congr rfl fun v _ => by ring
  have hentry : ∀ a < basis.length, ∀ b < basis.length, meshIntegral region basis a b = .ok (T a b) := by
    intro a ha b hb
    rw [meshIntegral_eq region basis a b ha hb]
    simp [T, List.getElem?_eq_getElem ha, List.getElem?_eq_getElem hb]
  cases h with
  | noWorkers => omega
  | run _ _ s' ts' hrun =>
    have hpost := pool_post (E := False) (own := fun _ b => b) (T := T)
      (fun i a b => b = i ∧ i ≤ a ∧ a < basis.length)
      (fun C K' i hi hC x s h => good_meshHelper (fun a ha b hb => Or.inl (hentry a ha b hb)) i hi hC x s h) hpos hrun
    have low : ∀ a b, b ≤ a → a < basis.length → s' a b = T a b := by
      intro a b hba ha
      obtain ⟨t, ht, hb⟩ := Parallel.exists_chunk basis.length ncpu hpos b (lt_of_le_of_lt hba ha)
      exact (hpost ⟨t, ht⟩).1 ((hpost ⟨t, ht⟩).2 id) b hb a b ⟨rfl, hba, ha⟩
    have hM : ∀ a < basis.length, ∀ b < basis.length, fillUpper s' a b = T a b := by
      intro a ha b hb
      unfold fillUpper
      split
      · rename_i hab; rw [low b a hab.le hb, hsymm]
      · rename_i hab; exact low a b (by omega) ha
    refine ⟨?_, _, rfl, ?_, ?_⟩
    · intro t
      by_cases ht : t < ncpu
      · simp only [ht, dite_true]; exact (hpost ⟨t, ht⟩).2 id
      · simp [ht]
    · intro a ha b hb
      rw [hM a ha b hb]
      simp [T, List.getElem?_eq_getElem ha, List.getElem?_eq_getElem hb]
    · intro a ha b hb
      rw [hM a ha b hb, hM b hb a ha, hsymm]

/-- Runs exist for both matrices. -/
theorem C05_run_exists (n : ℕ) (helper : ℕ → List A) (post : Shared → Shared) (ncpu : ℕ) (hpos : 1 ≤ ncpu) :
    ∃ we M, Creates n helper post ncpu we (.ok M) := by
  obtain ⟨s', ts', h⟩ := exists_poolRun (programs n helper ncpu) () (fun _ _ => 0)
  exact ⟨_, _, Creates.run ncpu hpos s' ts' h⟩

/-- a mesh with two vertices, one in the region, and two basis functions. -/
example : ∃ we M, CreatesMesh 2 (meshIntegral (fun v : Fin 2 => v = 0) [![1, 2], ![3, 4]]) 3 we (.ok M) ∧ M 0 1 = 3 := by
  obtain ⟨we, M, h⟩ := C05_run_exists 2 (meshHelper 2 (meshIntegral (fun v : Fin 2 => v = 0) [![1, 2], ![3, 4]]))
    fillUpper 3 (by norm_num)
  obtain ⟨-, M', h1, h2, -⟩ := C05_mesh_matrix_schedule_independent (fun v : Fin 2 => v = 0) [![1, 2], ![3, 4]] 2 rfl
    3 (by norm_num) we _ h
  injection h1 with h1
  subst h1
  refine ⟨we, M, h, ?_⟩
  rw [h2 0 (by norm_num) 1 (by norm_num)]
  simp [meshInner, Finset.sum_filter]

/-- The 3j symbols as the code computes them never raise; `W` is their value. -/
theorem C51_wigner_never_raises (l1 l2 l3 m1 m2 m3 : ℤ) : ∃ w, wigner3j l1 l2 l3 m1 m2 m3 = .ok w :=
  ⟨_, wigner3j_eq ..⟩

/-- C51, selection rules: the symbol vanishes unless the orders add up to zero, no order exceeds its degree and the
triangle inequality holds. -/
theorem C51_selection_rules (l1 l2 l3 m1 m2 m3 : ℤ)
    (h : m1 + m2 + m3 ≠ 0 ∨ l3 < |l1 - l2| ∨ l1 + l2 < l3 ∨ |l1| < |m1| ∨ |l2| < |m2| ∨ |l3| < |m3|) :
    wigner3j l1 l2 l3 m1 m2 m3 = .ok 0 := by
  apply wigner3j_zero
  rw [← not_admissible_iff]
  simpa only [gt_iff_lt] using h

/-- C51, symmetries: exchanging columns 1,2 or 2,3 (hence any two) or negating all orders multiplies the symbol by
`(-1)^(l1+l2+l3)`. -/
theorem C51_symmetries (l1 l2 l3 m1 m2 m3 : ℤ) (w : ℝ) (hw : wigner3j l1 l2 l3 m1 m2 m3 = .ok w) :
    wigner3j l2 l1 l3 m2 m1 m3 = .ok ((-1) ^ (l1 + l2 + l3) * w) ∧
    wigner3j l1 l3 l2 m1 m3 m2 = .ok ((-1) ^ (l1 + l2 + l3) * w) ∧
    wigner3j l3 l2 l1 m3 m2 m1 = .ok ((-1) ^ (l1 + l2 + l3) * w) ∧
    wigner3j l1 l2 l3 (-m1) (-m2) (-m3) = .ok ((-1) ^ (l1 + l2 + l3) * w) := by
  rw [wigner3j_eq] at hw
  injection hw with hw
  subst hw
  simp only [wigner3j_eq, w3j_swap12 l1 l2 l3 m1 m2 m3, w3j_swap23 l1 l2 l3 m1 m2 m3, w3j_swap13 l1 l2 l3 m1 m2 m3,
    w3j_neg l1 l2 l3 m1 m2 m3, and_self]

/-- C51: with zero orders the symbol vanishes when the sum of the degrees is odd. -/
theorem C51_zero_orders_odd (l1 l2 l3 : ℤ) (h : Odd (l1 + l2 + l3)) : wigner3j l1 l2 l3 0 0 0 = .ok 0 := by
  rw [wigner3j_eq, w3j_zero_odd h]

/-- a symbol that does not vanish: `(0 0 0; 0 0 0) = 1`. -/
example : wigner3j 0 0 0 0 0 0 = .ok 1 := by
  rw [wigner3j_value (admissible_of_linear (by norm_num))]
  simp [value, term, zf]

/-- The formula of Simons, Dahlen & Wieczorek for the order-`m` matrix of a polar cap, written with arbitrary 3j values
`W` and Legendre values `Pl` (`P_{-1} = 1`). -/
noncomputable def simonsFormula (W : ℤ → ℤ → ℤ → ℤ → ℤ → ℤ → ℝ) (Pl : ℕ → ℝ) (gap : Bool) (m l p : ℕ) : ℝ :=
  (-1) ^ m * (if gap then (if Even (l + p) then 2 else 0) else 1) * Real.sqrt ((2 * l + 1) * (2 * p + 1)) / 2 *
    ∑ n ∈ Finset.Icc |(l : ℤ) - p| (l + p),
      W l n p 0 0 0 * W l n p m 0 (-m) * ((if n = 0 then 1 else Pl (n - 1).toNat) - Pl (n + 1).toNat)

theorem gap_factor (gap : Bool) (l p : ℕ) :
    ((polarGapModification gap l p : ℤ) : ℝ) = if gap then (if Even (l + p) then 2 else 0) else 1 := by
  unfold polarGapModification
  cases gap
  · simp
  · rcases Nat.even_or_odd (l + p) with h | h
    · simp [h.neg_one_pow, h]
    · simp [h.neg_one_pow, Nat.not_even_iff_odd.2 h]

/-- C06. For every bandlimit, order, Legendre table, gap flag, worker count and interleaving: no worker raises (so no
lookup of a missing Legendre value and no factorial of a negative number), every entry is written, the matrix is the
one given by the formula, and it is symmetric. -/
theorem C06_polar_matrix_schedule_independent (L : ℕ) (gap : Bool) (Pl : ℕ → ℝ) (m : ℕ)
    (W : ℤ → ℤ → ℤ → ℤ → ℤ → ℤ → ℝ) (hW : ∀ a b c d e f, wigner3j a b c d e f = .ok (W a b c d e f))
    (ncpu : ℕ) (hpos : 1 ≤ ncpu) (we : ℕ → Option Err) (r : Except Err (ℕ → ℕ → ℝ))
    (h : CreatesDm L gap Pl m ncpu we r) :
    (∀ t, we t = none) ∧ ∃ M, r = .ok M ∧
      (∀ i j, m + i < L → m + j < L → M i j = simonsFormula W Pl gap m (m + i) (m + j)) ∧
      (∀ i j, m + i < L → m + j < L → M i j = M j i) := by
  have hWw : W = w3j := by
    funext a b c d e f
    have h1 := hW a b c d e f
    rw [wigner3j_eq] at h1
    injection h1 with h1
    exact h1.symm
  subst hWw
  let T : ℕ → ℕ → ℝ := fun i j => (polarGapModification gap (m + i) (m + j) : ℝ) *
      Real.sqrt ((2 * ((m + i : ℕ) : ℝ) + 1) * (2 * ((m + j : ℕ) : ℝ) + 1)) * dmC Pl m (m + i) (m + j)
  have hT : ∀ a b, T a b = T b a := by
    intro a b
    simp only [T]
    rw [dmC_symm, mul_comm (2 * ((m + a : ℕ) : ℝ) + 1)]
    congr 2
    unfold polarGapModification
    rw [add_comm (m + a)]
  cases h with
  | noWorkers => omega
  | run _ _ s' ts' hrun =>
    have hpost := pool_post (E := False) (own := fun a b => min a b) (T := T)
      (fun i a b => (a = i ∧ i ≤ b ∧ b < L - m) ∨ (b = i ∧ i ≤ a ∧ a < L - m))
      (fun C K' i hi hC x s h => good_polarHelper hT
        (fun a b hab hb => Or.inl (dmEntry_ok L gap Pl m a b (by omega) hb)) i hi hC x s h) hpos hrun
    have hs : ∀ i j, m + i < L → m + j < L → s' i j = T i j := by
      intro i j hi hj
      rcases le_total i j with hij | hij
      · obtain ⟨t, ht, hb⟩ := Parallel.exists_chunk (L - m) ncpu hpos i (by omega)
        exact (hpost ⟨t, ht⟩).1 ((hpost ⟨t, ht⟩).2 id) i hb i j (Or.inl ⟨rfl, hij, by omega⟩)
      · obtain ⟨t, ht, hb⟩ := Parallel.exists_chunk (L - m) ncpu hpos j (by omega)
        exact (hpost ⟨t, ht⟩).1 ((hpost ⟨t, ht⟩).2 id) j hb i j (Or.inr ⟨rfl, hij, by omega⟩)
    refine ⟨?_, _, rfl, ?_, ?_⟩
    · intro t
      by_cases ht : t < ncpu
      · simp only [ht, dite_true]; exact (hpost ⟨t, ht⟩).2 id
      · simp [ht]
    · intro i j hi hj
      simp only [polarPost, hs i j hi hj, T, simonsFormula, gap_factor, dmC, plPrev]
      have : ∀ n : ℤ, (if n ≠ 0 then Pl (n - 1).toNat else 1) = if n = 0 then 1 else Pl (n - 1).toNat := by
        intro n; by_cases hn : n = 0 <;> simp [hn]
      simp only [this]
      ring
    · intro i j hi hj
      simp only [polarPost, hs i j hi hj, hs j i hj hi, hT i j]

/-- C07. The polar-gap matrix of every order is twice the single-cap matrix where the degrees have even sum and zero
where they have odd sum. -/
theorem C07_polar_gap_parity (L : ℕ) (Pl : ℕ → ℝ) (m ncpu : ℕ) (hpos : 1 ≤ ncpu) (we we' : ℕ → Option Err)
    (M M' : ℕ → ℕ → ℝ) (h : CreatesDm L false Pl m ncpu we (.ok M)) (h' : CreatesDm L true Pl m ncpu we' (.ok M')) :
    ∀ i j, m + i < L → m + j < L → M' i j = if Even ((m + i) + (m + j)) then 2 * M i j else 0 := by
  obtain ⟨-, N, h1, h2, -⟩ := C06_polar_matrix_schedule_independent L false Pl m w3j wigner3j_eq ncpu hpos we _ h
  obtain ⟨-, N', h1', h2', -⟩ := C06_polar_matrix_schedule_independent L true Pl m w3j wigner3j_eq ncpu hpos we' _ h'
  injection h1 with h1
  injection h1' with h1'
  subst h1 h1'
  intro i j hi hj
  rw [h2 i j hi hj, h2' i j hi hj]
  unfold simonsFormula
  by_cases he : Even ((m + i) + (m + j))
  · simp only [he, if_true, Bool.false_eq_true, if_false]; ring
  · simp only [he, if_true, if_false, mul_zero, zero_mul, zero_div]

/-- the hypotheses of C06/C07 are met, with a matrix that is not zero: `L = 1`, `m = 0`, where the single entry is
`(1 - P_1) / 2`. -/
example (Pl : ℕ → ℝ) : ∃ we M, CreatesDm 1 false Pl 0 2 we (.ok M) ∧ M 0 0 = (1 - Pl 1) / 2 := by
  obtain ⟨we, M, h⟩ := C05_run_exists (1 - 0) (polarHelper (1 - 0) (dmEntry 1 false Pl 0)) (polarPost 0) 2 (by norm_num)
  obtain ⟨-, N, h1, h2, -⟩ := C06_polar_matrix_schedule_independent 1 false Pl 0 w3j wigner3j_eq 2 (by norm_num) we _ h
  injection h1 with h1
  subst h1
  refine ⟨we, M, h, ?_⟩
  rw [h2 0 0 (by norm_num) (by norm_num)]
  have hw : w3j 0 0 0 0 0 0 = 1 := by
    rw [w3j, if_pos (admissible_of_linear (by norm_num))]
    simp [value, term, zf]
  simp [simonsFormula, hw]
  ring

/-- C04 is violated by the mesh and polar-cap constructions too: a failing entry is swallowed. -/
theorem C04_worker_failure_swallowed_mesh :
    ¬ (∀ (K : ℕ) (entry : ℕ → ℕ → Except Err ℝ) (ncpu : ℕ) (we : ℕ → Option Err) (r : Except Err (ℕ → ℕ → ℝ)),
        1 ≤ ncpu → (∃ a < K, ∃ b < K, ∃ e, entry a b = .error e) → CreatesMesh K entry ncpu we r → ∃ e, r = .error e) := by
  intro h
  obtain ⟨we, M, hM⟩ := C05_run_exists 1 (meshHelper 1 fun _ _ => .error .memoryError) fillUpper 1 le_rfl
  obtain ⟨e, he⟩ := h 1 _ 1 we _ le_rfl ⟨0, by norm_num, 0, by norm_num, _, rfl⟩ hM
  cases he

/-- C04, mesh (partial): columns of workers that did not raise are right, whatever fails elsewhere. -/
theorem C04_mesh_columns_of_surviving_workers_partial (K : ℕ) (entry : ℕ → ℕ → Except Err ℝ) (T : ℕ → ℕ → ℝ)
    (hentry : ∀ a < K, ∀ b < K, ∀ v, entry a b = .ok v → v = T a b)
    (ncpu : ℕ) (hpos : 1 ≤ ncpu) (we : ℕ → Option Err) (M : ℕ → ℕ → ℝ)
    (h : CreatesMesh K entry ncpu we (.ok M)) (t : ℕ) (ht : t < ncpu) (hwe : we t = none) :
    ∀ b ∈ (Parallel.splitArrIntoChunks K ncpu).getD t [], ∀ a, b ≤ a → a < K → M a b = T a b := by
  cases h with
  | run _ _ s' ts' hrun =>
    have hE : ∀ a < K, ∀ b < K, EntryOk True entry T a b := by
      intro a ha b hb
      cases he : entry a b with
      | ok v => exact Or.inl (by rw [he, hentry a ha b hb v he])
      | error e => exact Or.inr ⟨trivial, e, he⟩
    have hpost := pool_post (E := True) (own := fun _ b => b) (T := T) (fun i a b => b = i ∧ i ≤ a ∧ a < K)
      (fun C K' i hi hC x s h => good_meshHelper hE i hi hC x s h) hpos hrun
    simp only [ht, dite_true] at hwe
    intro b hb a hba ha
    unfold fillUpper
    rw [if_neg (by omega)]
    exact (hpost ⟨t, ht⟩).1 hwe b hb a b ⟨rfl, hba, ha⟩

end Sleplet.Props
