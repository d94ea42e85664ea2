import Mathlib.Data.Fin.Tuple.Sort
import Mathlib.Data.List.Sort
import Mathlib.Algebra.Order.BigOperators.Group.Finset
import Verif.Model.Sparsity

/-!
Sorting, and the best approximation by few coefficients.
-/
namespace Sleplet.Sparsity

theorem sort_perm (xs : List ℝ) : (sort xs).Perm xs := List.mergeSort_perm _ _

theorem sort_sorted (xs : List ℝ) : (sort xs).Pairwise (· ≤ ·) := by
  classical
  have := List.pairwise_mergeSort (le := fun a b : ℝ => decide (a ≤ b)) (by simpa using fun a b c => le_trans) (by simpa using le_total) xs
  simpa [sort] using this

/-- there is only one way to arrange a list in non-increasing order. -/
theorem rearranged_unique {xs ys zs : List ℝ} (h1 : ys.Perm xs) (h2 : ys.Pairwise (· ≥ ·)) (h3 : zs.Perm xs) (h4 : zs.Pairwise (· ≥ ·)) : ys = zs :=
  (h1.trans h3.symm).eq_of_pairwise (fun a b _ _ h h' => le_antisymm h' h) h2 h4

theorem reverse_sort (xs : List ℝ) : (sort xs).reverse.Perm xs ∧ (sort xs).reverse.Pairwise (· ≥ ·) :=
  ⟨(List.reverse_perm _).trans (sort_perm xs), List.pairwise_reverse.2 (sort_sorted xs)⟩

theorem sortReversedView_eq (xs : List ℝ) : sortReversedView xs = (sort xs).reverse := by
  refine rearranged_unique (xs := xs) ?_ (reverse_sort _).2 (reverse_sort xs).1 (reverse_sort xs).2
  exact (reverse_sort xs.reverse).1.trans (List.reverse_perm xs)

/-- the arrangement in non-increasing order, by a permutation. -/
theorem exists_order {n : ℕ} (f : Fin n → ℝ) : ∃ σ : Equiv.Perm (Fin n), Antitone (f ∘ σ) ∧ (sort (List.ofFn f)).reverse = List.ofFn (f ∘ σ) := by
  refine ⟨Fin.revPerm.trans (Tuple.sort f), ?_, ?_⟩
  · intro a b hab
    exact Tuple.monotone_sort f (Fin.rev_le_rev.2 hab)
  · refine rearranged_unique (reverse_sort _).1 (reverse_sort _).2 (Equiv.Perm.ofFn_comp_perm _ f) ?_
    rw [List.pairwise_ofFn]
    intro i j hij
    exact Tuple.monotone_sort f (Fin.rev_le_rev.2 hij.le)

/-- no `K` entries weigh more than the first `K` of the arrangement. -/
theorem sum_le_first {n : ℕ} (g : Fin n → ℝ) (σ : Equiv.Perm (Fin n)) (h0 : ∀ i, 0 ≤ g i) (h : Antitone (g ∘ σ)) (K : ℕ) (T : Finset (Fin n)) (hT : T.card ≤ K) :
    ∑ i ∈ T, g i ≤ ∑ k : Fin n with k.val < K, g (σ k) := by
  classical
  by_cases hK : n ≤ K
  · rw [Finset.filter_true_of_mem fun k _ => lt_of_lt_of_le k.2 hK, Equiv.sum_comp σ g]
    exact Finset.sum_le_univ_sum_of_nonneg h0
  push Not at hK
  rcases Nat.eq_zero_or_pos K with rfl | hpos
  · rw [Finset.card_eq_zero.1 (by omega : T.card = 0)]
    simp
  set A : Finset (Fin n) := (Finset.univ.filter fun k : Fin n => k.val < K).map σ.toEmbedding with hA
  have hsum : ∑ k : Fin n with k.val < K, g (σ k) = ∑ i ∈ A, g i := by rw [hA, Finset.sum_map]; rfl
  have hcard : A.card = K := by
    rw [hA, Finset.card_map]
    have := Fin.card_filter_val_lt (n := n) (m := K)
    omega
  set t := g (σ ⟨K - 1, by omega⟩) with ht
  have hin : ∀ i ∈ A, t ≤ g i := by
    intro i hi
    obtain ⟨k, hk, rfl⟩ := Finset.mem_map.1 hi
    have hk : k.val < K := by simpa using hk
    exact h (show k ≤ ⟨K - 1, by omega⟩ from by rw [Fin.le_def]; simp; omega)
  have hout : ∀ i ∉ A, g i ≤ t := by
    intro i hi
    have hk : ¬ (σ.symm i).val < K := fun hlt => hi (Finset.mem_map.2 ⟨σ.symm i, by simpa using hlt, by simp⟩)
    have := h (show (⟨K - 1, by omega⟩ : Fin n) ≤ σ.symm i from by rw [Fin.le_def]; simp; omega)
    simpa using this
  rw [hsum]
  have e1 : ∑ i ∈ T, g i = ∑ i ∈ T ∩ A, g i + ∑ i ∈ T \ A, g i := (Finset.sum_inter_add_sum_sdiff T A g).symm
  have e2 : ∑ i ∈ A, g i = ∑ i ∈ A ∩ T, g i + ∑ i ∈ A \ T, g i := (Finset.sum_inter_add_sum_sdiff A T g).symm
  have e3 : ∑ i ∈ T \ A, g i ≤ (T \ A).card • t := Finset.sum_le_card_nsmul _ _ _ fun i hi => hout i (Finset.mem_sdiff.1 hi).2
  have e4 : (A \ T).card • t ≤ ∑ i ∈ A \ T, g i := Finset.card_nsmul_le_sum _ _ _ fun i hi => hin i (Finset.mem_sdiff.1 hi).1
  have e5 : (T \ A).card ≤ (A \ T).card := by
    have h1 := Finset.card_sdiff_add_card_inter T A
    have h2 := Finset.card_sdiff_add_card_inter A T
    rw [Finset.inter_comm] at h2
    omega
  have e6 : (T \ A).card • t ≤ (A \ T).card • t := nsmul_le_nsmul_left (h0 _) e5
  rw [e1, e2, Finset.inter_comm]
  linarith

theorem ofFn_take_sum {n : ℕ} (y : Fin n → ℝ) (K : ℕ) : ((List.ofFn y).take K).sum = ∑ k : Fin n with k.val < K, y k := by
  rw [Finset.sum_filter]
  induction n generalizing K with
  | zero => simp
  | succ n ih =>
    rw [List.ofFn_succ, Fin.sum_univ_succ]
    cases K with
    | zero => simp
    | succ K =>
      rw [List.take_succ_cons, List.sum_cons, ih]
      simp

/-- the least distance with at most `K` coefficients, when distances are `e - Σ|F|² + Σ|F - c|²`. -/
theorem isLeast_sparse {N : ℕ} (F : Fin N → ℂ) (e : ℝ) (K : ℕ) :
    IsLeast {d : ℝ | ∃ c : Fin N → ℂ, (Finset.univ.filter fun p => c p ≠ 0).card ≤ K ∧ d = e - ∑ p, ‖F p‖ ^ 2 + ∑ p, ‖F p - c p‖ ^ 2}
      (e - (((sort (magnitudes (List.ofFn F))).reverse.take K).map fun y => y ^ 2).sum) := by
  classical
  have hm : magnitudes (List.ofFn F) = List.ofFn fun p => ‖F p‖ := by simp [magnitudes, List.map_ofFn, Function.comp_def]
  obtain ⟨σ, hσ, hs⟩ := exists_order fun p => ‖F p‖
  rw [hm, hs, List.map_take]
  have hval : (((List.ofFn ((fun p => ‖F p‖) ∘ σ)).map fun y : ℝ => y ^ 2).take K).sum = ∑ k : Fin N with k.val < K, ‖F (σ k)‖ ^ 2 := by
    rw [List.map_ofFn, ofFn_take_sum]
    rfl
  rw [hval]
  have hanti : Antitone ((fun p => ‖F p‖ ^ 2) ∘ σ) := fun a b hab => pow_le_pow_left₀ (norm_nonneg _) (hσ hab) 2
  have hsplit : ∀ T : Finset (Fin N), ∑ p, ‖F p‖ ^ 2 = ∑ p ∈ T, ‖F p‖ ^ 2 + ∑ p ∈ Finset.univ \ T, ‖F p‖ ^ 2 := by
    intro T
    rw [add_comm, Finset.sum_sdiff (Finset.subset_univ T)]
  constructor
  · set A : Finset (Fin N) := (Finset.univ.filter fun k : Fin N => k.val < K).map σ.toEmbedding with hA
    refine ⟨fun p => if p ∈ A then F p else 0, ?_, ?_⟩
    · refine (Finset.card_le_card (t := A) fun p hp => ?_).trans ?_
      · by_contra hn
        simp [hn] at hp
      · rw [hA, Finset.card_map]
        have := Fin.card_filter_val_lt (n := N) (m := K)
        omega
    · have h1 : ∑ k : Fin N with k.val < K, ‖F (σ k)‖ ^ 2 = ∑ p ∈ A, ‖F p‖ ^ 2 := by rw [hA, Finset.sum_map]; rfl
      have h2 : ∑ p, ‖F p - (if p ∈ A then F p else 0)‖ ^ 2 = ∑ p ∈ Finset.univ \ A, ‖F p‖ ^ 2 := by
        rw [← Finset.sum_sdiff (Finset.subset_univ A), Finset.sum_eq_zero (s := A) fun p hp => by simp [hp], add_zero]
        exact Finset.sum_congr rfl fun p hp => by rw [if_neg (Finset.mem_sdiff.1 hp).2, sub_zero]
      rw [h1, h2, hsplit A]
      ring
  · rintro d ⟨c, hc, rfl⟩
    set T := Finset.univ.filter fun p => c p ≠ 0 with hT
    have h1 := sum_le_first (fun p => ‖F p‖ ^ 2) σ (fun p => by positivity) hanti K T hc
    have h2 : ∑ p ∈ Finset.univ \ T, ‖F p‖ ^ 2 ≤ ∑ p, ‖F p - c p‖ ^ 2 := by
      rw [← Finset.sum_sdiff (Finset.subset_univ T)]
      have h3 : ∑ p ∈ Finset.univ \ T, ‖F p - c p‖ ^ 2 = ∑ p ∈ Finset.univ \ T, ‖F p‖ ^ 2 := by
        refine Finset.sum_congr rfl fun p hp => ?_
        have : c p = 0 := by
          by_contra h
          exact (Finset.mem_sdiff.1 hp).2 (by simp [hT, h])
        rw [this, sub_zero]
      have h4 : 0 ≤ ∑ p ∈ T, ‖F p - c p‖ ^ 2 := Finset.sum_nonneg fun p _ => by positivity
      linarith
    have h3 := hsplit T
    linarith

end Sleplet.Sparsity
