import Mathlib.Tactic.NormNum
import Verif.Lemmas.MeshTransform
import Verif.Model.Ranks
import Verif.Props.FunctionObjects
import Verif.Props.SlepianTransform

/-!
C48 (ranks of mesh functions), C61 (the Slepian function of a rank).
-/
namespace Sleplet.Props

open Complex NumPy Ranks Spec

/-! ### C48 -/

/-- C48. `MeshBasisFunctions` on a mesh with `K` orthonormal basis functions: the rank given by keyword or as the single
command-line argument is accepted exactly when it is one of `0 … K-1`, and then the coefficients are one at the rank and
zero elsewhere.  A negative rank raises `ValueError`. -/
theorem C48_basis_rank {V : Type} [Fintype V] {K : ℕ} (evals : List ℝ) (he : evals.length = K) (φ : Fin K → V → ℝ)
    (hφ : ∀ p q, ∑ v, φ p v * φ q v = if p = q then 1 else 0) (r : ℤ) (extra : Option (List ℤ)) (rank : ℤ)
    (hsel : (extra = none ∧ rank = r) ∨ (extra = some [r] ∧ 0 ≤ rank)) :
    (0 ≤ r ∧ r < K → ∃ c, meshBasis evals (List.ofFn φ) rank extra = .ok c ∧ c.length = K ∧
      ∀ i < K, c.getD i 0 = if (i : ℤ) = r then 1 else 0) ∧
    (r < 0 → meshBasis evals (List.ofFn φ) rank extra = .error .valueError) ∧
    (K ≤ r → ∃ e, meshBasis evals (List.ofFn φ) rank extra = .error e ∧ (e = .indexError ∨ e = .valueError)) := by
  have hset : checkRank rank = .error .valueError ∧ r < 0 ∨ checkRank rank = .ok () ∧
      setupRank rank extra = (if r < 0 then .error .valueError else .ok r) := by
    rcases hsel with ⟨rfl, rfl⟩ | ⟨rfl, h⟩
    · by_cases h : rank < 0
      · exact Or.inl ⟨by simp [checkRank, h], h⟩
      · exact Or.inr ⟨by simp [checkRank, h], by simp [setupRank, h]⟩
    · refine Or.inr ⟨by simp [checkRank]; omega, ?_⟩
      simp only [setupRank, checkRank, bind, Except.bind]
      split_ifs <;> rfl
  have hval : r ≤ K → validateBasis evals.length extra = .ok () := by
    intro h
    rcases hsel with ⟨rfl, rfl⟩ | ⟨rfl, -⟩
    · rfl
    · simp only [validateBasis]
      rw [if_neg (by omega)]
  refine ⟨?_, ?_, ?_⟩
  · rintro ⟨h0, hK⟩
    rcases hset with ⟨-, hneg⟩ | ⟨h1, h2⟩
    · omega
    rw [if_neg (by omega)] at h2
    obtain ⟨p, rfl⟩ := Int.eq_ofNat_of_zero_le h0
    have hp : p < K := by omega
    refine ⟨List.ofFn fun i => ∑ v, φ ⟨p, hp⟩ v * φ i v, ?_, by simp, fun i hi => ?_⟩
    · simp only [meshBasis, h1, hval (by omega), h2, bind, Except.bind, Int.toNat_natCast]
      rw [item_of_lt _ _ (by omega), item_of_lt _ _ (by simpa using hp)]
      simp only [List.getElem_ofFn, he]
      exact MeshT.meshForward_ofFn φ _
    · simp only [List.getD_eq_getElem?_getD, List.getElem?_ofFn, hi, dite_true, Option.getD_some, hφ, Fin.mk.injEq]
      by_cases h : p = i
      · subst h; simp
      · rw [if_neg h, if_neg (by omega)]
  · intro h
    rcases hset with ⟨h1, -⟩ | ⟨h1, h2⟩
    · simp only [meshBasis, h1, bind, Except.bind]
    · rw [if_pos h] at h2
      simp only [meshBasis, h1, hval (by omega), h2, bind, Except.bind]
  · intro h
    rcases hset with ⟨-, hneg⟩ | ⟨h1, h2⟩
    · omega
    rw [if_neg (by omega)] at h2
    cases hv : validateBasis evals.length extra with
    | error e =>
      refine ⟨e, by simp only [meshBasis, h1, hv, bind, Except.bind], ?_⟩
      rcases hsel with ⟨rfl, rfl⟩ | ⟨rfl, -⟩
      · cases hv
      · simp only [validateBasis] at hv
        split_ifs at hv
        cases hv
        exact Or.inr rfl
    | ok u =>
      refine ⟨.indexError, ?_, Or.inl rfl⟩
      simp only [meshBasis, h1, hv, h2, bind, Except.bind]
      rw [item_of_ge _ _ (by omega)]

/-- C48 is violated: the rank equal to the number of basis functions, which does not exist, passes the validation of the
command line and fails later with `IndexError`; larger ones are reported as `ValueError`. -/
theorem C48_validation_violation {V : Type} [Fintype V] (evals : List ℝ) (basis : List (V → ℝ)) :
    validateBasis evals.length (some [(evals.length : ℤ)]) = .ok () ∧
    meshBasis evals basis 0 (some [(evals.length : ℤ)]) = .error .indexError ∧
    ∀ r : ℤ, evals.length < r → meshBasis evals basis 0 (some [r]) = .error .valueError := by
  have hv : validateBasis evals.length (some [(evals.length : ℤ)]) = .ok () := by simp [validateBasis]
  have h0 : checkRank 0 = .ok () := by simp [checkRank]
  refine ⟨hv, ?_, fun r hr => ?_⟩
  · have : ¬ ((evals.length : ℤ) < 0) := by omega
    simp only [meshBasis, h0, hv, setupRank, checkRank, if_neg this, bind, Except.bind, pure, Except.pure, Int.toNat_natCast]
    rw [item_of_ge _ _ le_rfl]
    simp
  · simp only [meshBasis, h0, validateBasis, if_pos hr, bind, Except.bind]

/-- C48 is violated by `MeshSlepianFunctions`: the command-line rank is never compared with the number of functions, so
every rank past the end is an `IndexError`. -/
theorem C48_mesh_slepian_violation {V : Type} [Fintype V] (ms : MeshT.MeshSlepian V) (r : ℤ) (hr : (ms.evals.length : ℤ) ≤ r) :
    meshSlepian ms 0 (some [r]) = .error .indexError := by
  have h0 : checkRank 0 = .ok () := by simp [checkRank]
  have h1 : checkRank r = .ok () := by simp [checkRank]; omega
  simp only [meshSlepian, h0, setupRank, h1, bind, Except.bind, pure, Except.pure]
  rw [item_of_ge _ _ (by omega)]

/-- C48. `MeshSlepianFunctions` on a mesh with orthonormal eigenvectors `S`: a rank that exists, given by keyword or as the single command-line
argument, has coefficients one at the rank and zero elsewhere; a negative rank, given either way, raises `ValueError`, and so does a list of
another length. -/
theorem C48_mesh_slepian_rank {V : Type} [Fintype V] (ms : MeshT.MeshSlepian V) {R : ℕ} (S : Fin R → Fin ms.numBasis → ℝ)
    (hS : ∀ p q, ∑ c, S p c * S q c = if p = q then 1 else 0) (hv : ms.evecs = List.ofFn fun p => List.ofFn (S p))
    (hR : R ≤ ms.evals.length) (hN : ms.N ≤ R) (hK : R ≤ ms.numBasis) (r : ℤ) (extra : Option (List ℤ)) (rank : ℤ)
    (hsel : (extra = none ∧ rank = r) ∨ (extra = some [r] ∧ 0 ≤ rank)) :
    (0 ≤ r ∧ r < R → ∃ c, meshSlepian ms rank extra = .ok c ∧ c.length = ms.N ∧
      ∀ i < ms.N, c.getD i 0 = if (i : ℤ) = r then 1 else 0) ∧
    (r < 0 → meshSlepian ms rank extra = .error .valueError) ∧
    (∀ k : ℤ, k < 0 → ∀ xs, meshSlepian ms k xs = .error .valueError) ∧
    ∀ xs : List ℤ, xs.length ≠ 1 → meshSlepian ms rank (some xs) = .error .valueError := by
  have hneg : ∀ k : ℤ, k < 0 → ∀ xs, meshSlepian ms k xs = .error .valueError := by
    intro k hk xs
    simp only [meshSlepian, checkRank, if_pos hk, bind, Except.bind]
  refine ⟨fun ⟨h0, hr⟩ => ?_, fun h => ?_, hneg, fun xs hxs => ?_⟩
  · have hrank : checkRank rank = .ok () := by
      rcases hsel with ⟨-, rfl⟩ | ⟨-, h⟩ <;> simp only [checkRank] <;> rw [if_neg (by omega)]
    have hset : setupRank rank extra = .ok r := by
      rcases hsel with ⟨rfl, rfl⟩ | ⟨rfl, h⟩
      · rfl
      · simp only [setupRank, checkRank, if_neg (by omega : ¬ r < 0), bind, Except.bind, pure, Except.pure]
    obtain ⟨n, rfl⟩ := Int.eq_ofNat_of_zero_le h0
    have hn : n < R := by exact_mod_cast hr
    have hrow : ∀ p (hp : p < R), NumPy.item ms.evecs p = .ok (List.ofFn (S ⟨p, hp⟩)) := by
      intro p hp
      rw [item_of_lt _ _ (by rw [hv]; simpa using hp)]
      simp [hv]
    refine ⟨(List.range ms.N).map fun p => if p = n then 1 else 0, ?_, by simp, fun i hi => ?_⟩
    · simp only [meshSlepian, hrank, hset, bind, Except.bind, Int.toNat_natCast]
      rw [item_of_lt ms.evals n (by omega), hrow n hn]
      simp only
      unfold MeshT.slepianMeshForward
      simp only [MeshT.detectMethod, Option.isSome_some, if_true, bind, Except.bind, Option.getD_none]
      refine MeshT.decomposeAll_ok ms _ _ _ fun p hp => ?_
      have hpN : p < ms.N := List.mem_range.1 hp
      have hpR : p < R := by omega
      have hval : MeshT.validateRank ms.numBasis (p : ℤ) = .ok () := by
        unfold MeshT.validateRank
        rw [if_neg (by omega), if_neg (by omega)]
      simp only [MeshT.decompose, MeshT.detectMethod, Option.isSome_some, if_true, hval, bind, Except.bind, MeshT.harmonicSum, Int.toNat_natCast,
        hrow p hpR, pure, Except.pure]
      rw [broadcast_of_length_eq _ _ _ (by simp)]
      simp only [Except.ok.injEq]
      have := hS ⟨n, hn⟩ ⟨p, hpR⟩
      have hz : List.zipWith (fun a b => a * b) (List.ofFn (S ⟨n, hn⟩)) (List.ofFn (S ⟨p, hpR⟩)) = List.ofFn fun c => S ⟨n, hn⟩ c * S ⟨p, hpR⟩ c := by
        refine List.ext_getElem (by simp) fun i h1 h2 => by simp
      rw [hz, List.sum_ofFn, this]
      simp only [Fin.mk.injEq, eq_comm]
    · simp [List.getD_eq_getElem?_getD, hi]
  · rcases hsel with ⟨rfl, rfl⟩ | ⟨rfl, h'⟩
    · exact hneg _ h _
    · simp only [meshSlepian, checkRank, if_neg (by omega : ¬ rank < 0), setupRank, if_pos h, bind, Except.bind]
  · simp only [meshSlepian, bind, Except.bind]
    match xs, hxs with
    | [], _ => simp only [setupRank, checkRank]; split_ifs <;> rfl
    | _ :: _ :: _, _ => simp only [setupRank, checkRank]; split_ifs <;> rfl

/-- one eigenvector of one basis function, the rank given by keyword. -/
example : (∀ p q : Fin 1, ∑ c : Fin 1, (fun _ _ : Fin 1 => (1 : ℝ)) p c * 1 = if p = q then 1 else 0) ∧
    (⟨1, [fun _ => 1], fun _ => true, 1, [1], [[1]]⟩ : MeshT.MeshSlepian Unit).evecs = List.ofFn fun _ : Fin 1 => List.ofFn fun _ : Fin 1 => 1 := by
  refine ⟨fun p q => by simp [Subsingleton.elim p q], by simp⟩

/-- one basis function on one vertex. -/
example : ∀ p q : Fin 1, ∑ v : Unit, (fun (_ : Fin 1) (_ : Unit) => (1 : ℝ)) p v * 1 = if p = q then 1 else 0 := by
  intro p q
  simp [Subsingleton.elim p q]

/-! ### C61 -/

variable {L : ℕ} {Pix : Type} [Fintype Pix]

/-- the Slepian coefficients of eigenvector `r`. -/
private theorem slepian_row (e : Functions.SlepianEnv L Pix) (he : HasRows e.sl) (r : ℕ) (v : Fin (L ^ 2) → ℂ) (lam : ℝ)
    (hv : e.sl.evecs[r]? = some v) (hlam : e.sl.evals[r]? = some lam)
    (hrow : ∀ (p q : ℕ) (u w : Fin (L ^ 2) → ℂ), e.sl.evecs[p]? = some u → e.sl.evecs[q]? = some w →
      ∑ i, u i * (starRingEnd ℂ) (w i) = if p = q then 1 else 0) (orders : Option (List ℤ))
    (ho : ∀ os, orders = some os → r < os.length) :
    slepian e orders r none = .ok (List.ofFn fun p : Fin e.sl.N => if r = p then (1 : ℂ) else 0) := by
  have h0 : checkRank (r : ℤ) = .ok () := by simp [checkRank]
  have hrows : ∀ p : Fin e.sl.N, e.sl.evecs[(p : ℕ)]? = some (e.sl.evecs[(p : ℕ)]'(lt_of_lt_of_le p.2 he.2)) := fun p =>
    List.getElem?_eq_getElem _
  have hfwd := forward_flm e.sl e.synth e.weight _ rfl he.1 hrows v
  have hsum : (fun p : Fin e.sl.N => ∑ i, v i * (starRingEnd ℂ) ((e.sl.evecs[(p : ℕ)]'(lt_of_lt_of_le p.2 he.2)) i)) =
      fun p : Fin e.sl.N => if r = p then (1 : ℂ) else 0 := by
    funext p
    exact hrow r p v _ hv (hrows p)
  rw [hsum] at hfwd
  have hi1 : item e.sl.evals r = .ok lam := by simp [item, hlam]
  have hi2 : item e.sl.evecs r = .ok v := by simp [item, hv]
  cases orders with
  | none =>
    simp only [slepian, h0, validateSlepian, setupRank, bind, Except.bind, pure, Except.pure, Int.toNat_natCast, hi1, hi2]
    exact hfwd
  | some os =>
    have hi3 := item_of_lt os r (ho os rfl)
    simp only [slepian, h0, validateSlepian, setupRank, bind, Except.bind, pure, Except.pure, Int.toNat_natCast, hi1, hi2, hi3]
    exact hfwd

/-- C61. With orthonormal eigenvectors, the Slepian function of rank `r < N` has coefficient one at `r` and zero
elsewhere. -/
theorem C61_slepian_rank (e : Functions.SlepianEnv L Pix) (he : HasRows e.sl) (hev : e.sl.N ≤ e.sl.evals.length)
    (hrow : ∀ (p q : ℕ) (u w : Fin (L ^ 2) → ℂ), e.sl.evecs[p]? = some u → e.sl.evecs[q]? = some w →
      ∑ i, u i * (starRingEnd ℂ) (w i) = if p = q then 1 else 0) (orders : Option (List ℤ))
    (ho : ∀ os, orders = some os → e.sl.N ≤ os.length) (r : ℕ) (hr : r < e.sl.N) :
    ∃ c, slepian e orders r none = .ok c ∧ c.length = e.sl.N ∧ ∀ p < e.sl.N, c.getD p 0 = if p = r then 1 else 0 := by
  have h1 : r < e.sl.evecs.length := lt_of_lt_of_le hr he.2
  have h2 : r < e.sl.evals.length := lt_of_lt_of_le hr hev
  refine ⟨_, slepian_row e he r _ _ (List.getElem?_eq_getElem h1) (List.getElem?_eq_getElem h2) hrow orders
    (fun os h => lt_of_lt_of_le hr (ho os h)), by simp, fun p hp => ?_⟩
  simp only [List.getD_eq_getElem?_getD, List.getElem?_ofFn, hp, dite_true, Option.getD_some, eq_comm]

/-- C61 is violated for ranks from the Shannon number on: they are accepted, but when all eigenvectors were just computed
the function is zero, and when only the first `N` could be loaded `IndexError` is raised. -/
theorem C61_high_rank_violation (e : Functions.SlepianEnv L Pix) (he : HasRows e.sl)
    (hrow : ∀ (p q : ℕ) (u w : Fin (L ^ 2) → ℂ), e.sl.evecs[p]? = some u → e.sl.evecs[q]? = some w →
      ∑ i, u i * (starRingEnd ℂ) (w i) = if p = q then 1 else 0) (orders : Option (List ℤ))
    (hev : e.sl.evals.length = L ^ 2) (ho : ∀ os, orders = some os → os.length = L ^ 2) (r : ℕ) (hr : e.sl.N ≤ r)
    (hL : r < L ^ 2) :
    (e.sl.evecs.length = L ^ 2 → slepian e orders r none = .ok (List.replicate e.sl.N 0)) ∧
    (e.sl.evecs.length = e.sl.N → slepian e orders r none = .error .indexError) := by
  have h2 : r < e.sl.evals.length := by omega
  constructor
  · intro hall
    rw [slepian_row e he r _ _ (List.getElem?_eq_getElem (show r < e.sl.evecs.length by omega))
      (List.getElem?_eq_getElem h2) hrow orders (fun os h => by rw [ho os h]; exact hL)]
    congr 1
    apply List.ext_getElem
    · simp
    · intro i h3 h4
      simp at h4
      simp only [List.getElem_ofFn, List.getElem_replicate]
      rw [if_neg (by omega)]
  · intro hN
    have h0 : checkRank (r : ℤ) = .ok () := by simp [checkRank]
    have hi1 := item_of_lt _ _ h2
    have hi2 := item_of_ge e.sl.evecs r (by omega)
    cases orders with
    | none =>
      simp only [slepian, h0, validateSlepian, setupRank, bind, Except.bind, pure, Except.pure, Int.toNat_natCast, hi1, hi2]
    | some os =>
      have hi3 := item_of_lt os r (by rw [ho os rfl]; exact hL)
      simp only [slepian, h0, validateSlepian, setupRank, bind, Except.bind, pure, Except.pure, Int.toNat_natCast, hi1, hi2, hi3]

/-- C61, command line: the argument replaces the keyword; `ValueError` unless there is one argument in `0 … L²-1`
(`IndexError` for none). -/
theorem C61_command_line (e : Functions.SlepianEnv L Pix) (orders : Option (List ℤ)) (hL : 0 < L) (xs : List ℤ) :
    (∀ r : ℤ, xs = [r] → 0 ≤ r ∧ r < (L : ℤ) ^ 2 → slepian e orders 0 (some xs) = slepian e orders r none) ∧
    (xs = [] → slepian e orders 0 (some xs) = .error .indexError) ∧
    (xs ≠ [] → (¬ ∃ r : ℤ, xs = [r] ∧ 0 ≤ r ∧ r < (L : ℤ) ^ 2) → slepian e orders 0 (some xs) = .error .valueError) := by
  have h0 : checkRank 0 = .ok () := by simp [checkRank]
  refine ⟨?_, ?_, ?_⟩
  · rintro r rfl ⟨h1, h2⟩
    have hc : checkRank r = .ok () := by simp [checkRank]; omega
    have hv : validateSlepian L (some [r]) = .ok () := by
      simp only [validateSlepian]
      rw [if_neg (by omega)]
    simp only [slepian, h0, hc, hv, setupRank, bind, Except.bind, pure, Except.pure]
    rfl
  · rintro rfl
    simp only [slepian, h0, validateSlepian, bind, Except.bind]
  · intro h1 h2
    match xs with
    | [] => exact absurd rfl h1
    | [r] =>
      by_cases h3 : r ≥ (L : ℤ) ^ 2
      · simp only [slepian, h0, validateSlepian, if_pos h3, bind, Except.bind]
      · have h4 : r < 0 := by
          by_contra hc
          exact h2 ⟨r, rfl, by omega, by omega⟩
        simp only [slepian, h0, validateSlepian, if_neg h3, setupRank, checkRank, if_pos h4, bind, Except.bind]
        simp
    | x :: y :: zs =>
      by_cases h3 : x ≥ (L : ℤ) ^ 2
      · simp only [slepian, h0, validateSlepian, if_pos h3, bind, Except.bind]
      · simp only [slepian, h0, validateSlepian, if_neg h3, setupRank, bind, Except.bind]

/-- four orthonormal eigenvectors and `N = 2`: rank 3 is accepted and is the zero function. -/
example : slepian (L := 2) (Pix := Unit)
    ⟨⟨2, [1, 1, 0, 0], List.ofFn fun p : Fin 4 => fun i : Fin 4 => if i = p then 1 else 0⟩, fun c _ => c 0, fun _ => 1,
      fun _ => []⟩ none 3 none = .ok [0, 0] := by
  refine (C61_high_rank_violation _ ⟨by norm_num, by simp⟩ ?_ none rfl (by simp) 3 (by simp) (by norm_num)).1 (by simp)
  intro p q u w hu hw
  simp only [List.getElem?_ofFn] at hu hw
  split_ifs at hu with h1
  split_ifs at hw with h2
  cases hu
  cases hw
  by_cases hpq : p = q
  · subst hpq; simp
  · rw [if_neg hpq]
    refine Finset.sum_eq_zero fun i _ => ?_
    by_cases hi : i = ⟨p, h1⟩
    · subst hi; simp [hpq]
    · simp [hi]

end Sleplet.Props
