import Mathlib.Algebra.BigOperators.Fin
import Mathlib.Algebra.Order.BigOperators.Group.Multiset
import Mathlib.Data.List.Nodup
import Mathlib.Analysis.Complex.Norm
import Mathlib.Tactic.FinCases
import Verif.Lemmas.EigenClean
import Verif.Model.DMatrixArbitrary
import Verif.Model.DMatrixReal

/-!
C17, C18, C19, C20 (format of the eigensolutions), C57 (Hermitian completion).
-/
namespace Sleplet.Props

open Complex Sleplet.Eigen Sleplet.Spec

/-! ### C17 -/

private theorem antitone_of_argsort {n : ℕ} {w : Fin n → ℝ} {σ : Equiv.Perm (Fin n)} (h : IsArgsort w σ) :
    Antitone fun p => w (σ (Fin.rev p)) := by
  intro p q hpq
  exact h (Fin.rev_le_rev.2 hpq)

private theorem norm_one_of_unit {u : ℂ} (h : u * (starRingEnd ℂ) u = 1) : ‖u‖ = 1 := by
  rw [mul_conj, normSq_eq_norm_sq] at h
  have : ‖u‖ ^ 2 = 1 := by exact_mod_cast h
  nlinarith [norm_nonneg u]

/-- C17, limited latitude/longitude: the eigenvalues come in non-increasing order, one per solver eigenvalue, and row `p`
is a unit multiple of the conjugate of the solver's eigenvector for the `p`-th eigenvalue. -/
theorem C17_lat_lon_sorted_and_paired {n : ℕ} (w : Fin (n + 1) → ℂ) (V : Fin (n + 1) → Fin (n + 1) → ℂ)
    (e : Fin (n + 1) → ℝ) (S : Fin (n + 1) → Fin (n + 1) → ℂ) (h : CleansLatLon w V e S) :
    Antitone e ∧ ∃ τ : Equiv.Perm (Fin (n + 1)), ∀ p, e p = (w (τ p)).re ∧
      ∃ u : ℂ, ‖u‖ = 1 ∧ ∀ c, S p c = u * (starRingEnd ℂ) (V c (τ p)) := by
  obtain ⟨σ, hσ, h⟩ := h
  simp only [cleanLatLon, Prod.mk.injEq] at h
  obtain ⟨rfl, rfl⟩ := h
  refine ⟨antitone_of_argsort hσ, Fin.revPerm.trans σ, fun p => ⟨rfl, signOf ((starRingEnd ℂ) (V 0 (σ p.rev))),
    norm_one_of_unit (signOf_unit _), fun c => ?_⟩⟩
  rw [mul_comm]
  rfl

/-- C17, arbitrary regions. -/
theorem C17_arbitrary_sorted_and_paired {n : ℕ} (w : Fin (n + 1) → ℂ) (V : Fin (n + 1) → Fin (n + 1) → ℂ)
    (e : Fin (n + 1) → ℝ) (S : Fin (n + 1) → Fin (n + 1) → ℂ) (h : CleansArbitrary w V e S) :
    Antitone e ∧ ∃ τ : Equiv.Perm (Fin (n + 1)), ∀ p, e p = (w (τ p)).re ∧
      ∃ u : ℂ, ‖u‖ = 1 ∧ ∀ c, S p c = u * (starRingEnd ℂ) (V c (τ p)) := by
  obtain ⟨σ, hσ, h⟩ := h
  have h0 : CleansLatLon w V (cleanLatLon σ w V).1 (cleanLatLon σ w V).2 := ⟨σ, hσ, rfl⟩
  obtain ⟨h1, τ, h2⟩ := C17_lat_lon_sorted_and_paired w V _ _ h0
  simp only [cleanArbitrary, Prod.mk.injEq] at h
  obtain ⟨rfl, rfl⟩ := h
  refine ⟨h1, τ, fun p => ⟨(h2 p).1, ?_⟩⟩
  obtain ⟨u, hu, h3⟩ := (h2 p).2
  classical
  refine ⟨u * if inPairs (cleanLatLon σ w V).1 p then I else 1, ?_, fun c => ?_⟩
  · rw [Complex.norm_mul, hu]
    split
    · simp
    · rw [one_mul]; exact norm_one_of_unit (by simp)
  · simp only [h3]; ring

/-- C17, meshes. -/
theorem C17_mesh_sorted_and_paired {n : ℕ} (w : Fin n → ℝ) (V : Fin n → Fin n → ℝ) (e : Fin n → ℝ)
    (S : Fin n → Fin n → ℝ) (h : CleansMesh w V e S) :
    Antitone e ∧ ∃ τ : Equiv.Perm (Fin n), ∀ p, e p = w (τ p) ∧ ∀ c, S p c = V c (τ p) := by
  obtain ⟨σ, hσ, h⟩ := h
  simp only [cleanMesh, Prod.mk.injEq] at h
  obtain ⟨rfl, rfl⟩ := h
  exact ⟨antitone_of_argsort hσ, Fin.revPerm.trans σ, fun p => ⟨rfl, fun c => rfl⟩⟩

/-- every list of numbers has a sorting permutation, so the routines always return something. -/
example {n : ℕ} (w : Fin (n + 1) → ℂ) (V : Fin (n + 1) → Fin (n + 1) → ℂ) (σ : Equiv.Perm (Fin (n + 1)))
    (h : Monotone fun k => (w (σ k)).re) : ∃ e S, CleansArbitrary w V e S := ⟨_, _, σ, h, rfl⟩

/-- two eigenvalues in ascending order come out in descending order with their eigenvectors. -/
example : CleansMesh (n := 2) ![1, 2] ![![1, 0], ![0, 1]] ![2, 1] ![![0, 1], ![1, 0]] := by
  refine ⟨Equiv.refl _, ?_, ?_⟩
  · intro a b hab
    fin_cases a <;> fin_cases b <;> simp at hab ⊢
  · simp only [cleanMesh, Prod.mk.injEq]
    refine ⟨?_, ?_⟩
    · funext p; fin_cases p <;> rfl
    · funext p c; fin_cases p <;> fin_cases c <;> rfl

/-! ### C18 -/

private theorem eigen_of_paired {n : ℕ} {D : Fin n → Fin n → ℂ} {w : Fin n → ℂ} {V : Fin n → Fin n → ℂ}
    {e : Fin n → ℝ} {S : Fin n → Fin n → ℂ} (hD : IsEigh D w V) (τ : Equiv.Perm (Fin n))
    (h : ∀ p, e p = (w (τ p)).re ∧ ∃ u : ℂ, ‖u‖ = 1 ∧ ∀ c, S p c = u * (starRingEnd ℂ) (V c (τ p))) :
    (∀ p r, ∑ c, (starRingEnd ℂ) (D r c) * S p c = e p * S p r) ∧ OrthonormalRows S := by
  obtain ⟨h1, h2, h3⟩ := hD
  constructor
  · intro p r
    obtain ⟨he, u, -, hS⟩ := h p
    have hw : (w (τ p)) = (e p : ℂ) := by
      apply Complex.ext
      · simp [he]
      · simp [h1]
    have := congrArg (starRingEnd ℂ) (h2 (τ p) r)
    rw [map_sum, map_mul, hw, conj_ofReal] at this
    calc ∑ c, (starRingEnd ℂ) (D r c) * S p c = u * ∑ c, (starRingEnd ℂ) (D r c * V c (τ p)) := by
            rw [Finset.mul_sum]
            exact Finset.sum_congr rfl fun c _ => by rw [hS, map_mul]; ring
      _ = e p * S p r := by rw [this, hS]; ring
  · intro p q
    obtain ⟨-, u, hu, hS⟩ := h p
    obtain ⟨-, u', -, hS'⟩ := h q
    have hpq := h3 (τ q) (τ p)
    simp only at hpq
    have : ∑ c, S p c * (starRingEnd ℂ) (S q c) = u * (starRingEnd ℂ) u' *
        ∑ c, V c (τ q) * (starRingEnd ℂ) (V c (τ p)) := by
      rw [Finset.mul_sum]
      refine Finset.sum_congr rfl fun c _ => ?_
      rw [hS, hS', map_mul, conj_conj]
      ring
    rw [this, hpq]
    by_cases hne : p = q
    · subst hne
      simp only [if_true, mul_one]
      -- the two unit factors agree where it matters
      have hV := h3 (τ p) (τ p)
      simp only [if_true] at hV
      have h4 : ∀ c, u * (starRingEnd ℂ) (V c (τ p)) = u' * (starRingEnd ℂ) (V c (τ p)) := fun c => by
        rw [← hS, ← hS']
      have h5 : (u - u') * ∑ c, V c (τ p) * (starRingEnd ℂ) (V c (τ p)) = 0 := by
        rw [Finset.mul_sum]
        refine Finset.sum_eq_zero fun c _ => ?_
        linear_combination V c (τ p) * h4 c
      rw [hV, mul_one, sub_eq_zero] at h5
      rw [← h5, mul_conj, normSq_eq_norm_sq, hu]
      norm_num
    · have : τ q ≠ τ p := fun h => hne (τ.injective h).symm
      simp [hne, this]

/-- C17/C18, limited latitude/longitude regions: if the solver returned an orthonormal eigenbasis of the Hermitian matrix
`D`, then the returned rows are orthonormal and row `p` satisfies the concentration eigenvalue equation
`∑_c conj(D r c) S p c = e p · S p r` with its own eigenvalue. -/
theorem C18_lat_lon_orthonormal_eigenvectors {n : ℕ} (D : Fin (n + 1) → Fin (n + 1) → ℂ) (w : Fin (n + 1) → ℂ)
    (V : Fin (n + 1) → Fin (n + 1) → ℂ) (hD : IsEigh D w V) (e : Fin (n + 1) → ℝ)
    (S : Fin (n + 1) → Fin (n + 1) → ℂ) (h : CleansLatLon w V e S) :
    (∀ p r, ∑ c, (starRingEnd ℂ) (D r c) * S p c = e p * S p r) ∧ OrthonormalRows S := by
  obtain ⟨-, τ, h⟩ := C17_lat_lon_sorted_and_paired w V e S h
  exact eigen_of_paired hD τ h

/-- C17/C18, arbitrary regions, including the factor `1j` on repeated eigenvalues. -/
theorem C18_arbitrary_orthonormal_eigenvectors {n : ℕ} (D : Fin (n + 1) → Fin (n + 1) → ℂ) (w : Fin (n + 1) → ℂ)
    (V : Fin (n + 1) → Fin (n + 1) → ℂ) (hD : IsEigh D w V) (e : Fin (n + 1) → ℝ)
    (S : Fin (n + 1) → Fin (n + 1) → ℂ) (h : CleansArbitrary w V e S) :
    (∀ p r, ∑ c, (starRingEnd ℂ) (D r c) * S p c = e p * S p r) ∧ OrthonormalRows S := by
  obtain ⟨-, τ, h⟩ := C17_arbitrary_sorted_and_paired w V e S h
  exact eigen_of_paired hD τ h

/-- C17/C18, meshes. -/
theorem C18_mesh_orthonormal_eigenvectors {n : ℕ} (D : Fin n → Fin n → ℝ) (w : Fin n → ℝ) (V : Fin n → Fin n → ℝ)
    (hD : IsEighReal D w V) (e : Fin n → ℝ) (S : Fin n → Fin n → ℝ) (h : CleansMesh w V e S) :
    (∀ p r, ∑ c, D r c * S p c = e p * S p r) ∧ ∀ p q, ∑ c, S p c * S q c = if p = q then 1 else 0 := by
  obtain ⟨-, τ, h⟩ := C17_mesh_sorted_and_paired w V e S h
  obtain ⟨h1, h2⟩ := hD
  constructor
  · intro p r
    simp only [(h p).2, (h p).1]
    exact h1 (τ p) r
  · intro p q
    simp only [(h p).2, (h q).2]
    rw [h2]
    simp [τ.injective.eq_iff]

/-- a solver answer meeting the hypotheses, with a repeated eigenvalue and complex eigenvectors. -/
example : IsEigh (n := 2) (fun r c => if r = c then 1 else 0) (fun _ => 1)
    (fun r k => (if r = k then 1 else 0) * I) := by
  refine ⟨fun _ => by simp, fun k r => by simp, ?_⟩
  intro k k'
  fin_cases k <;> fin_cases k' <;> simp

/-! ### C19 -/

/-- What the eigensolver promises for the real symmetric `n × n` matrix `D` of one order. -/
def IsEighOrder (n : ℕ) (D : ℕ → ℕ → ℝ) (s : OrderSolution) : Prop :=
  s.1.length = n ∧
  (∀ k < n, ∀ r < n, ∑ c ∈ Finset.range n, D r c * s.2 c k = s.1.getD k 0 * s.2 r k) ∧
  (∀ k < n, ∀ k' < n, ∑ r ∈ Finset.range n, s.2 r k * s.2 r k' = if k = k' then 1 else 0)

private theorem mem_ordersRange {L : ℕ} {m : ℤ} : m ∈ ordersRange L ↔ m.natAbs < L := by
  unfold ordersRange
  simp only [List.mem_map, List.mem_range]
  constructor
  · rintro ⟨t, ht, rfl⟩; omega
  · intro h; exact ⟨(m + (L - 1)).toNat, by omega, by omega⟩

private theorem nodup_ordersRange (L : ℕ) : (ordersRange L).Nodup := by
  unfold ordersRange
  refine List.Nodup.map ?_ List.nodup_range
  intro a b h
  simp only at h
  omega

theorem sum_ordersRange (L : ℕ) : ((ordersRange L).map fun m => L - m.natAbs).sum = L ^ 2 := by
  have h1 : ∑ m ∈ (ordersRange L).toFinset, ((createEmmVector L).take (L ^ 2)).count m = L ^ 2 := by
    have := Multiset.sum_count_eq_card (s := (ordersRange L).toFinset) (m := (((createEmmVector L).take (L ^ 2) : List ℤ) : Multiset ℤ)) (by
      intro a ha
      have ha : a ∈ (createEmmVector L).take (L ^ 2) := by simpa using ha
      rw [List.mem_toFinset, mem_ordersRange]
      have := List.count_pos_iff.2 ha
      rw [count_emm_take L L (by omega)] at this
      omega)
    simp only [Multiset.coe_count, Multiset.coe_card] at this
    rw [this, List.length_take, (C21_emm_vector L).1]
    have : L ^ 2 ≤ (2 * L) ^ 2 := Nat.pow_le_pow_left (by omega) 2
    omega
  rw [← h1, List.sum_toFinset _ (nodup_ordersRange L)]
  congr 1
  apply List.map_congr_left
  intro m _
  rw [count_emm_take L L (by omega)]

/-- `C19_polar_all_orders` with a matrix for every order, so that those of opposite orders may differ. -/
theorem polar_all_orders (L : ℕ) (D : ℤ → ℕ → ℕ → ℝ) (sol : ℤ → OrderSolution)
    (hsol : ∀ m : ℤ, m.natAbs < L → IsEighOrder (L - m.natAbs) (D m) (sol m))
    (r : Except Err (List ℝ × List (List ℂ) × List ℤ)) (h : SolvesAll L sol r) :
    ∃ e v o, r = .ok (e, v, o) ∧ e.length = L ^ 2 ∧ v.length = L ^ 2 ∧ o.length = L ^ 2 ∧
      e.Pairwise (· ≥ ·) ∧ e.Perm ((ordersRange L).flatMap fun m => (sol m).1) ∧
      (∀ m : ℤ, m.natAbs < L → o.count m = L - m.natAbs) ∧
      (∀ p < L ^ 2, (v.getD p []).length = L ^ 2 ∧ (o.getD p 0).natAbs < L ∧
        (∀ (l : ℕ) (m : ℤ), l < L → |m| ≤ (l : ℤ) → m ≠ o.getD p 0 → (v.getD p []).getD (elm2ind l m) 0 = 0) ∧
        (∀ i < L - (o.getD p 0).natAbs, ∑ j ∈ Finset.range (L - (o.getD p 0).natAbs),
            (D (o.getD p 0) i j : ℂ) * (v.getD p []).getD (elm2ind ((o.getD p 0).natAbs + j) (o.getD p 0)) 0
          = e.getD p 0 * (v.getD p []).getD (elm2ind ((o.getD p 0).natAbs + i) (o.getD p 0)) 0)) ∧
      (∀ p < L ^ 2, ∀ q < L ^ 2, ∑ i ∈ Finset.range (L ^ 2),
        (v.getD p []).getD i 0 * (starRingEnd ℂ) ((v.getD q []).getD i 0) = if p = q then 1 else 0) := by
  obtain ⟨idx, idxAll, hidx, hall, rfl⟩ := h
  have hm : ∀ m ∈ ordersRange L, (sol m).1.length = L - m.natAbs ∧ (idx m).Perm (List.range (sol m).1.length) :=
    fun m hm => ⟨(hsol m (mem_ordersRange.1 hm)).1, (hidx m hm).1⟩
  have hacc := accumulate_eq L sol idx (ordersRange L) hm
  have hall := hall _ _ _ hacc
  have hallp : idxAll.Perm (List.range (keys idx (ordersRange L)).length) := by
    have := hall.1
    rwa [List.length_map] at this
  obtain ⟨ks, hperm, hks, hres⟩ := solveAll_eq L sol idx idxAll hm hallp
  have hklen : (keys idx (ordersRange L)).length = L ^ 2 := by
    unfold keys
    rw [List.length_flatMap, ← sum_ordersRange L]
    congr 1
    apply List.map_congr_left
    intro m hmm
    simp only [List.length_map, List.length_reverse]
    rw [(hm m hmm).2.length_eq, List.length_range, (hm m hmm).1]
  have hkslen : ks.length = L ^ 2 := by rw [hperm.length_eq, hklen]
  have hmem : ∀ q ∈ ks, q.1.natAbs < L ∧ q.2 < L - q.1.natAbs := by
    intro q hq
    have hq := hperm.subset hq
    unfold keys at hq
    simp only [List.mem_flatMap, List.mem_map, List.mem_reverse] at hq
    obtain ⟨m, hmm, k, hk, rfl⟩ := hq
    have h1 := (hm m hmm).2.subset hk
    rw [(hm m hmm).1] at h1
    exact ⟨mem_ordersRange.1 hmm, by simpa using h1⟩
  have hnodup : ks.Nodup := by
    rw [hperm.nodup_iff]
    unfold keys
    rw [List.nodup_flatMap]
    constructor
    · intro m hmm
      refine List.Nodup.map (fun a b hab => (Prod.mk.inj hab).2) ?_
      rw [List.nodup_reverse, (hm m hmm).2.nodup_iff]
      exact List.nodup_range
    · refine (nodup_ordersRange L).imp ?_
      intro a b hab x hx hy
      simp only [List.mem_map] at hx hy
      obtain ⟨_, _, rfl⟩ := hx
      obtain ⟨_, _, hy⟩ := hy
      exact hab (Prod.mk.inj hy).1.symm
  -- access to the p-th key
  have hget : ∀ p < L ^ 2, ∃ q, q ∈ ks ∧ ks[p]? = some q := by
    intro p hp
    have : p < ks.length := by omega
    exact ⟨ks[p], List.getElem_mem this, List.getElem?_eq_getElem this⟩
  refine ⟨_, _, _, hres, by simp [hkslen], by simp [hkslen], by simp [hkslen], ?_, ?_, ?_, ?_, ?_⟩
  · have h1 := hall.2
    have hlt : ∀ k ∈ idxAll.reverse, k < (keys idx (ordersRange L)).length := by
      intro k hk
      have := hallp.subset (List.mem_reverse.1 hk)
      simpa using this
    have h2 : ks.map (fun q => (sol q.1).1.getD q.2 0) =
        (idxAll.map fun k => ((keys idx (ordersRange L)).map fun q => (sol q.1).1.getD q.2 0).getD k 0).reverse := by
      rw [hks, ← List.map_reverse]
      exact (map_getD_map _ _ _ hlt _ _).symm
    rw [h2, List.pairwise_reverse]
    exact h1
  · refine (hperm.map _).trans ?_
    unfold keys
    rw [List.map_flatMap]
    refine List.Perm.flatMap_left _ ?_
    intro m hmm
    rw [List.map_map]
    have h1 : ((idx m).reverse.map ((fun q : ℤ × ℕ => (sol q.1).1.getD q.2 0) ∘ fun k => (m, k))).Perm
        ((List.range (sol m).1.length).map fun k => (sol m).1.getD k 0) :=
      ((List.reverse_perm _).trans (hm m hmm).2).map _
    rwa [map_getD_range] at h1
  · intro m hmL
    rw [(hperm.map Prod.fst).count_eq]
    unfold keys
    rw [List.map_flatMap, List.count_flatMap]
    have h1 : ((ordersRange L).map (List.count m ∘ fun a => List.map Prod.fst ((idx a).reverse.map fun k => (a, k)))) =
        (ordersRange L).map fun a => if a = m then L - m.natAbs else 0 := by
      apply List.map_congr_left
      intro a ha
      simp only [Function.comp, List.map_map]
      have : (idx a).reverse.map (Prod.fst ∘ fun k => (a, k)) = List.replicate (L - a.natAbs) a := by
        rw [List.eq_replicate_iff]
        constructor
        · rw [List.length_map, List.length_reverse, (hm a ha).2.length_eq, List.length_range, (hm a ha).1]
        · intro b hb
          obtain ⟨k, -, rfl⟩ := List.mem_map.1 hb
          rfl
      rw [this, List.count_replicate]
      by_cases hab : a = m
      · simp [hab]
      · simp [hab]
    rw [h1, ← List.sum_toFinset _ (nodup_ordersRange L), Finset.sum_ite_eq' , if_pos]
    rw [List.mem_toFinset, mem_ordersRange]
    exact hmL
  · intro p hp
    obtain ⟨q, hq, hpq⟩ := hget p hp
    obtain ⟨hq1, hq2⟩ := hmem q hq
    simp only [List.getD_eq_getElem?_getD (l := List.map _ ks), List.getElem?_map, hpq, Option.map_some, Option.getD_some]
    refine ⟨rowOf_length .., hq1, ?_, ?_⟩
    · intro l m hl hlm hne
      exact rowOf_off L q.1 m _ _ l hl hlm hne
    · intro i hi
      have hE := (hsol q.1 hq1).2.1 q.2 hq2 i hi
      rw [rowOf_on L q.1 _ _ _ (by omega) (by omega), Nat.add_sub_cancel_left]
      have : ∀ j ∈ Finset.range (L - q.1.natAbs), (D q.1 i j : ℂ) *
          (rowOf L q.1 (sol q.1).2 q.2).getD (elm2ind (q.1.natAbs + j) q.1) 0 =
          ((D q.1 i j * (sol q.1).2 j q.2 : ℝ) : ℂ) * unitOf L q.1 (sol q.1).2 q.2 := by
        intro j hj
        have hj := Finset.mem_range.1 hj
        rw [rowOf_on L q.1 _ _ _ (by omega) (by omega), Nat.add_sub_cancel_left]
        push_cast; ring
      rw [Finset.sum_congr rfl this, ← Finset.sum_mul, ← ofReal_sum, hE]
      push_cast; ring
  · intro p hp p' hp'
    obtain ⟨q, hq, hpq⟩ := hget p hp
    obtain ⟨q', hq', hpq'⟩ := hget p' hp'
    obtain ⟨hq1, hq2⟩ := hmem q hq
    obtain ⟨hq1', hq2'⟩ := hmem q' hq'
    have heq : p = p' ↔ q = q' := by
      constructor
      · rintro rfl
        rw [hpq] at hpq'
        exact Option.some_inj.1 hpq'
      · rintro rfl
        exact (List.getElem?_inj (by omega) hnodup).1 (hpq.trans hpq'.symm)
    simp only [List.getD_eq_getElem?_getD (l := List.map _ ks), List.getElem?_map, hpq, hpq', Option.map_some,
      Option.getD_some]
    by_cases hm0 : q.1 = q'.1
    · -- same order
      obtain ⟨m, k⟩ := q
      obtain ⟨m', k'⟩ := q'
      simp only at hm0 hq1 hq2 hq1' hq2'
      subst hm0
      have hO := (hsol m hq1).2.2 k hq2 k' hq2'
      have hsum : ∑ i ∈ Finset.range (L ^ 2), (rowOf L m (sol m).2 k).getD i 0 *
          (starRingEnd ℂ) ((rowOf L m (sol m).2 k').getD i 0) =
          ∑ j ∈ Finset.range (L - m.natAbs), (((sol m).2 j k * (sol m).2 j k' : ℝ) : ℂ) *
            (unitOf L m (sol m).2 k * (starRingEnd ℂ) (unitOf L m (sol m).2 k')) := by
        symm
        refine Finset.sum_of_injOn (fun j => elm2ind (m.natAbs + j) m) ?_ ?_ ?_ ?_
        · intro a ha b hb hab
          have ha' : |m| ≤ ((m.natAbs + a : ℕ) : ℤ) := by rw [abs_le]; omega
          have hb' : |m| ≤ ((m.natAbs + b : ℕ) : ℤ) := by rw [abs_le]; omega
          have := congrArg ind2elm hab
          simp only [ind2elm_elm2ind ha', ind2elm_elm2ind hb', Prod.mk.injEq] at this
          omega
        · intro a ha
          have ha := Finset.mem_range.1 (Finset.mem_coe.1 ha)
          have ha' : |m| ≤ ((m.natAbs + a : ℕ) : ℤ) := by rw [abs_le]; omega
          simp only [Finset.coe_range, Set.mem_Iio]
          exact (elm2ind_lt_sq ha' L).2 (by omega)
        · intro i hi hni
          have hi := Finset.mem_range.1 hi
          have hl := ind2elm_fst_lt hi
          have hb := ind2elm_abs_le i
          have hne : (ind2elm i).2 ≠ m := by
            intro hm1
            apply hni
            refine ⟨(ind2elm i).1 - m.natAbs, ?_, ?_⟩
            · simp only [Finset.coe_range, Set.mem_Iio]
              rw [hm1, abs_le] at hb
              omega
            · simp only
              rw [hm1, abs_le] at hb
              have : m.natAbs + ((ind2elm i).1 - m.natAbs) = (ind2elm i).1 := by omega
              rw [this]
              conv_rhs => rw [← elm2ind_ind2elm i]
              rw [hm1]
          rw [← elm2ind_ind2elm i, rowOf_off L m _ _ _ _ hl hb hne, zero_mul]
        · intro j hj
          have hj := Finset.mem_range.1 hj
          rw [rowOf_on L m _ _ _ (by omega) (by omega), rowOf_on L m _ _ _ (by omega) (by omega),
            Nat.add_sub_cancel_left, map_mul, conj_ofReal]
          push_cast; ring
      rw [hsum, ← Finset.sum_mul, ← ofReal_sum, hO]
      by_cases hk : k = k'
      · subst hk
        rw [if_pos (heq.2 rfl), if_pos rfl, unitOf_unit]
        simp
      · rw [if_neg hk, if_neg (fun hh => hk (Prod.mk.inj (heq.1 hh)).2)]
        simp
    · -- different orders: disjoint supports
      rw [if_neg (fun hh => hm0 (congrArg Prod.fst (heq.1 hh)))]
      refine Finset.sum_eq_zero fun i hi => ?_
      have hi := Finset.mem_range.1 hi
      have hl := ind2elm_fst_lt hi
      have hb := ind2elm_abs_le i
      rw [← elm2ind_ind2elm i]
      by_cases h1 : (ind2elm i).2 = q.1
      · rw [rowOf_off L q'.1 _ _ _ _ hl hb (by rw [h1]; exact hm0), map_zero, mul_zero]
      · rw [rowOf_off L q.1 _ _ _ _ hl hb h1, zero_mul]

/-- C17, C18, C19 for polar caps.  For every bandlimit and every answer of the eigensolver for the matrices `D μ` of the
orders, computing all orders from scratch returns `L²` eigenvalues `e`, `L²` vectors `v` of length `L²` and `L²` orders
`o` such that
* the eigenvalues are non-increasing and are exactly the solver's eigenvalues of all orders;
* order `m` occurs exactly `L - |m|` times, and only orders below `L` in magnitude occur;
* vector `p` is zero at every `(l', m')` with `m' ≠ o p`, and on its own order it satisfies the eigenvalue equation of
  `D |o p|` with eigenvalue `e p`;
* the vectors are orthonormal (in particular those of different orders are orthogonal). -/
theorem C19_polar_all_orders (L : ℕ) (D : ℕ → ℕ → ℕ → ℝ) (sol : ℤ → OrderSolution)
    (hsol : ∀ m : ℤ, m.natAbs < L → IsEighOrder (L - m.natAbs) (D m.natAbs) (sol m))
    (r : Except Err (List ℝ × List (List ℂ) × List ℤ)) (h : SolvesAll L sol r) :
    ∃ e v o, r = .ok (e, v, o) ∧ e.length = L ^ 2 ∧ v.length = L ^ 2 ∧ o.length = L ^ 2 ∧
      e.Pairwise (· ≥ ·) ∧ e.Perm ((ordersRange L).flatMap fun m => (sol m).1) ∧
      (∀ m : ℤ, m.natAbs < L → o.count m = L - m.natAbs) ∧
      (∀ p < L ^ 2, (v.getD p []).length = L ^ 2 ∧ (o.getD p 0).natAbs < L ∧
        (∀ (l : ℕ) (m : ℤ), l < L → |m| ≤ (l : ℤ) → m ≠ o.getD p 0 → (v.getD p []).getD (elm2ind l m) 0 = 0) ∧
        (∀ i < L - (o.getD p 0).natAbs, ∑ j ∈ Finset.range (L - (o.getD p 0).natAbs),
            (D (o.getD p 0).natAbs i j : ℂ) * (v.getD p []).getD (elm2ind ((o.getD p 0).natAbs + j) (o.getD p 0)) 0
          = e.getD p 0 * (v.getD p []).getD (elm2ind ((o.getD p 0).natAbs + i) (o.getD p 0)) 0)) ∧
      (∀ p < L ^ 2, ∀ q < L ^ 2, ∑ i ∈ Finset.range (L ^ 2),
        (v.getD p []).getD i 0 * (starRingEnd ℂ) ((v.getD q []).getD i 0) = if p = q then 1 else 0) :=
  polar_all_orders L (fun m => D m.natAbs) sol hsol r h

/-- the eigensolver hypothesis of C19 is met for `L = 2` by identity matrices, and a result exists. -/
example : ∃ (sol : ℤ → OrderSolution) (r : _), SolvesAll 2 sol r ∧
    ∀ m : ℤ, m.natAbs < 2 → IsEighOrder (2 - m.natAbs) (fun i j => if i = j then 1 else 0) (sol m) := by
  have hs : ∀ m : ℤ, m.natAbs < 2 → IsEighOrder (2 - m.natAbs) (fun i j => if i = j then 1 else 0)
      (List.replicate (2 - m.natAbs) 1, fun i j => if i = j then 1 else 0) := by
    intro m _
    refine ⟨by simp, ?_, ?_⟩
    · intro k hk r hr
      simp [List.getD_eq_getElem?_getD, hk]
    · intro k hk k' hk'
      simp [eq_comm]
      omega
  have hsort : ∀ n, IsArgsortList (List.replicate n 1) (List.range n) := by
    intro n
    refine ⟨by simp, ?_⟩
    rw [List.pairwise_map]
    refine List.pairwise_of_forall_mem_list ?_
    intro a ha b hb
    simp [List.getD_eq_getElem?_getD, List.mem_range.1 ha, List.mem_range.1 hb]
  refine ⟨fun m => (List.replicate (2 - m.natAbs) 1, fun i j => if i = j then 1 else 0), _,
    ⟨fun m => List.range (2 - m.natAbs), List.range 4, fun m _ => hsort _, ?_, rfl⟩, hs⟩
  intro e v o h
  rw [accumulate_eq 2 _ _ _ (fun m hm => ⟨by simp, by simp⟩)] at h
  injection h with h
  have he := (Prod.mk.inj h).1
  have : e = List.replicate 4 1 := by
    rw [← he, List.eq_replicate_iff]
    refine ⟨by simp; decide, ?_⟩
    intro b hb
    obtain ⟨⟨m, k⟩, hq, rfl⟩ := List.mem_map.1 hb
    simp only [keys, List.mem_flatMap, List.mem_map, List.mem_reverse, List.mem_range, Prod.mk.injEq] at hq
    obtain ⟨m', _, k', hk, rfl, rfl⟩ := hq
    simp [List.getD_eq_getElem?_getD, hk]
  rw [this]
  exact hsort 4

/-! ### C20 -/

/-- C20 for limited latitude/longitude regions: the first coefficient of every row is not negative (NumPy compares the
real part first, then the imaginary part). -/
theorem C20_lat_lon_first_not_negative {n : ℕ} (w : Fin (n + 1) → ℂ) (V : Fin (n + 1) → Fin (n + 1) → ℂ)
    (e : Fin (n + 1) → ℝ) (S : Fin (n + 1) → Fin (n + 1) → ℂ) (h : CleansLatLon w V e S) (p : Fin (n + 1)) :
    0 ≤ (S p 0).re ∧ ((S p 0).re = 0 → 0 ≤ (S p 0).im) := by
  obtain ⟨σ, -, h⟩ := h
  simp only [cleanLatLon, Prod.mk.injEq] at h
  obtain ⟨-, rfl⟩ := h
  have := not_npLtZero_mul_signOf ((starRingEnd ℂ) (V 0 (σ p.rev)))
  unfold npLtZero at this
  push Not at this
  exact this

/-- C20 for arbitrary regions (partial): it holds for every row whose eigenvalue is not within `1e-14` of the previous
one.  Missing: the rows multiplied by `1j` afterwards, see the next theorem. -/
theorem C20_arbitrary_first_not_negative_partial {n : ℕ} (w : Fin (n + 1) → ℂ) (V : Fin (n + 1) → Fin (n + 1) → ℂ)
    (e : Fin (n + 1) → ℝ) (S : Fin (n + 1) → Fin (n + 1) → ℂ) (h : CleansArbitrary w V e S) (p : Fin (n + 1))
    (hp : ∀ q : Fin (n + 1), (q : ℕ) + 1 = p → 1e-14 ≤ |e p - e q|) :
    0 ≤ (S p 0).re ∧ ((S p 0).re = 0 → 0 ≤ (S p 0).im) := by
  classical
  obtain ⟨σ, hσ, h⟩ := h
  simp only [cleanArbitrary, Prod.mk.injEq] at h
  obtain ⟨rfl, rfl⟩ := h
  have hn : ¬ inPairs (cleanLatLon σ w V).1 p := by
    rintro ⟨q, h1, h2⟩
    exact absurd h2 (not_lt.2 (hp q h1))
  simp only [hn, if_false, mul_one]
  exact C20_lat_lon_first_not_negative w V _ _ ⟨σ, hσ, rfl⟩ p

/-- C20 is violated for arbitrary regions with repeated eigenvalues: the factor `1j` is applied after the sign rule and
can make the first coefficient negative again. -/
theorem C20_arbitrary_repeated_violated :
    ¬ ∀ (D : Fin 2 → Fin 2 → ℂ) (w : Fin 2 → ℂ) (V : Fin 2 → Fin 2 → ℂ) (e : Fin 2 → ℝ) (S : Fin 2 → Fin 2 → ℂ),
      IsEigh D w V → CleansArbitrary (n := 1) w V e S → ∀ p, 0 ≤ (S p 0).re := by
  classical
  intro h
  -- solver eigenvectors: `(0, 1)` and `(-i, 0)` of the identity; the sorted order puts the second one last
  let V : Fin 2 → Fin 2 → ℂ := fun r k => if r = 0 then (if k = 0 then -I else 0) else (if k = 0 then 0 else 1)
  have hV : IsEigh (n := 2) (fun r c => if r = c then 1 else 0) (fun _ => 1) V := by
    refine ⟨fun _ => by simp, fun k r => by simp, ?_⟩
    intro k k'
    fin_cases k <;> fin_cases k' <;> simp [V]
  have hs : IsArgsort (n := 2) (fun _ : Fin 2 => ((1 : ℂ)).re) (Equiv.refl _) := fun a b _ => le_rfl
  have := h _ _ V _ _ hV ⟨Equiv.refl _, hs, rfl⟩ 1
  have hr : Fin.rev (1 : Fin 2) = 0 := rfl
  have hp : inPairs (cleanLatLon (n := 1) (Equiv.refl _) (fun _ => 1) V).1 1 := by
    refine ⟨0, rfl, ?_⟩
    simp [cleanLatLon]
    norm_num
  simp only [hp, if_true] at this
  simp only [cleanLatLon, Equiv.refl_apply, hr, V, if_true, map_neg, conj_I, neg_neg] at this
  have hsI : signOf I = 1 := by
    unfold signOf npLtZero
    rw [if_neg]
    simp
  rw [hsI] at this
  simp at this
  norm_num at this

/-- C20 for one order of a polar cap: for `m = 0` the first coefficient of every row is real and not negative; for every
other order the sign rule never acts: the row is exactly the solver's eigenvector placed on its order (times `1j` for
negative orders), whatever the sign of its coefficients. -/
theorem C20_polar_sign_rule (L : ℕ) (hL : 1 ≤ L) (m : ℤ) (w : List ℝ) (gl : ℕ → ℕ → ℝ) (idx : List ℕ)
    (hw : w.length = L - m.natAbs) (hidx : IsArgsortList w idx) :
    ∃ e v, polarClean L m (createEmmVector L) w gl idx = .ok (e, v) ∧ v.length = L - m.natAbs ∧
      (m = 0 → ∀ p < v.length, 0 ≤ ((v.getD p []).getD 0 0).re ∧ ((v.getD p []).getD 0 0).im = 0) ∧
      (m ≠ 0 → ∀ p < v.length, ∀ l, m.natAbs ≤ l → l < L →
        (v.getD p []).getD (elm2ind l m) 0 = gl (l - m.natAbs) (idx.reverse.getD p 0) * if m < 0 then I else 1) := by
  refine ⟨_, _, polarClean_eq L m w gl idx hw hidx.1, ?_, ?_, ?_⟩
  · rw [List.length_map, List.length_reverse, hidx.1.length_eq, List.length_range, hw]
  · rintro rfl p hp
    rw [List.length_map] at hp
    have hrow : (idx.reverse.map (rowOf L 0 gl)).getD p [] = rowOf L 0 gl (idx.reverse[p]) := by
      rw [List.getD_eq_getElem?_getD, List.getElem?_map, List.getElem?_eq_getElem hp]; rfl
    rw [hrow]
    have h0 := rowOf_on L 0 gl (idx.reverse[p]) 0 hL (by simp)
    have e0 : elm2ind 0 0 = 0 := rfl
    rw [e0] at h0
    rw [h0]
    have hh : (sc (orderMask L 0) (colOf (L - (0 : ℤ).natAbs) gl idx.reverse[p])).headD 0 =
        (gl 0 idx.reverse[p] : ℂ) := by
      have h2 := sc_getD (orderMask L 0) (colOf (L - (0 : ℤ).natAbs) gl idx.reverse[p]) 0
      have h3 := orderMask_getD L 0 0 0 hL (by simp)
      rw [e0] at h3
      rw [h3] at h2
      have hh : ∀ xs : List ℂ, xs.headD 0 = xs.getD 0 0 := by intro xs; cases xs <;> rfl
      rw [hh, h2]
      have : 0 < L := hL
      simp [colOf, List.getD_eq_getElem?_getD, this]
    unfold unitOf
    rw [hh]
    simp only [lt_irrefl, if_false, mul_one, Int.natAbs_zero, Nat.sub_zero]
    have h4 := not_npLtZero_mul_signOf (gl 0 idx.reverse[p] : ℂ)
    unfold npLtZero at h4
    push Not at h4
    refine ⟨h4.1, ?_⟩
    unfold signOf
    split <;> simp
  · intro hm p hp l hl1 hl2
    rw [List.length_map] at hp
    have hrow : (idx.reverse.map (rowOf L m gl)).getD p [] = rowOf L m gl (idx.reverse[p]) := by
      rw [List.getD_eq_getElem?_getD, List.getElem?_map, List.getElem?_eq_getElem hp]; rfl
    have hid : idx.reverse.getD p 0 = idx.reverse[p] := by
      rw [List.getD_eq_getElem?_getD, List.getElem?_eq_getElem hp]; rfl
    rw [hrow, hid, rowOf_on L m gl _ l hl2 hl1]
    have hh : (sc (orderMask L m) (colOf (L - m.natAbs) gl idx.reverse[p])).headD 0 = 0 := by
      have h2 := sc_getD (orderMask L m) (colOf (L - m.natAbs) gl idx.reverse[p]) 0
      have h3 := orderMask_getD L 0 0 m hL (by simp)
      have e0 : elm2ind 0 0 = 0 := rfl
      rw [e0] at h3
      rw [h3, decide_eq_false (Ne.symm hm)] at h2
      have hh : ∀ xs : List ℂ, xs.headD 0 = xs.getD 0 0 := by intro xs; cases xs <;> rfl
      rw [hh, h2]; rfl
    unfold unitOf
    rw [hh]
    have : signOf 0 = 1 := by unfold signOf npLtZero; rw [if_neg]; simp
    rw [this, one_mul]

/-- So the leading coefficient of a polar-cap eigenvector of order `m ≠ 0` can be negative: `L = 2`, `m = 1`, solver
eigenvector `(-1)`. -/
theorem C20_polar_leading_coefficient_negative :
    ∃ (w : List ℝ) (gl : ℕ → ℕ → ℝ) (idx : List ℕ) (e : List ℝ) (v : List (List ℂ)),
      IsEighOrder 1 (fun _ _ => 1) (w, gl) ∧ IsArgsortList w idx ∧
      polarClean 2 1 (createEmmVector 2) w gl idx = .ok (e, v) ∧ ((v.getD 0 []).getD (elm2ind 1 1) 0).re < 0 := by
  have hs : IsArgsortList [1] [0] := ⟨by simp, by simp⟩
  obtain ⟨e, v, h1, h2, -, h3⟩ := C20_polar_sign_rule 2 (by norm_num) 1 [1] (fun _ _ => -1) [0] (by simp) hs
  refine ⟨[1], fun _ _ => -1, [0], e, v, ?_, hs, h1, ?_⟩
  · refine ⟨rfl, ?_, ?_⟩
    · intro k hk r _; obtain rfl : k = 0 := by omega
      simp
    · intro k hk k' hk'; obtain rfl : k = 0 := by omega
      obtain rfl : k' = 0 := by omega
      simp
  · have := h3 (by norm_num) 0 (by rw [h2]; norm_num) 1 (by norm_num) (by norm_num)
    rw [this]
    norm_num

/-! ### C57 -/

/-- C57. Filling the upper triangle keeps the diagonal and everything below, makes the matrix equal to its conjugate
transpose off the diagonal, changes nothing when repeated, and returns a matrix that is already Hermitian unchanged. -/
theorem C57_hermitian_completion (M : ℕ → ℕ → ℂ) :
    (∀ a b, b ≤ a → Arb.fillUpper M a b = M a b) ∧
    (∀ a b, a ≠ b → Arb.fillUpper M b a = (starRingEnd ℂ) (Arb.fillUpper M a b)) ∧
    Arb.fillUpper (Arb.fillUpper M) = Arb.fillUpper M ∧
    ((∀ a b, M b a = (starRingEnd ℂ) (M a b)) → Arb.fillUpper M = M) := by
  unfold Arb.fillUpper
  refine ⟨fun a b h => by simp [not_lt.2 h], fun a b h => ?_, ?_, fun h => ?_⟩
  · rcases lt_or_gt_of_ne h with h1 | h1
    · simp [h1, not_lt.2 h1.le]
    · simp [h1, not_lt.2 h1.le]
  · funext a b
    by_cases h1 : a < b
    · simp [h1, not_lt.2 h1.le]
    · simp [h1]
  · funext a b
    by_cases h1 : a < b
    · simp [h1, h a b]
    · simp [h1]

/-- the real version used for meshes. -/
theorem C57_symmetric_completion (M : ℕ → ℕ → ℝ) :
    (∀ a b, b ≤ a → RealMat.fillUpper M a b = M a b) ∧
    (∀ a b, RealMat.fillUpper M b a = RealMat.fillUpper M a b) ∧
    RealMat.fillUpper (RealMat.fillUpper M) = RealMat.fillUpper M ∧
    ((∀ a b, M b a = M a b) → RealMat.fillUpper M = M) := by
  unfold RealMat.fillUpper
  refine ⟨fun a b h => by simp [not_lt.2 h], fun a b => ?_, ?_, fun h => ?_⟩
  · rcases lt_trichotomy a b with h1 | h1 | h1
    · simp [h1, not_lt.2 h1.le]
    · simp [h1]
    · simp [h1, not_lt.2 h1.le]
  · funext a b
    by_cases h1 : a < b
    · simp [h1, not_lt.2 h1.le]
    · simp [h1]
  · funext a b
    by_cases h1 : a < b
    · simp [h1, h a b]
    · simp [h1]

/-- a lower triangular matrix with a complex entry. -/
example : Arb.fillUpper (fun a b => if a = 1 ∧ b = 0 then I else 0) 0 1 = -I := by simp [Arb.fillUpper]

end Sleplet.Props
