import Verif.Lemmas.Parallel

/-!
C01, C02: the work splitting used by every parallel matrix construction.
-/
namespace Sleplet.Props

open Sleplet.Parallel

/-- C01. For every size `n` and worker count `ncpu ≥ 1`: there are `ncpu` chunks, together they contain
every index `0..n-1` exactly once, and each chunk is increasing. -/
theorem C01_chunks_partition (n ncpu : ℕ) (h : 1 ≤ ncpu) :
    (splitArrIntoChunks n ncpu).length = ncpu ∧
    (∀ x, ((splitArrIntoChunks n ncpu).flatten.count x = if x < n then 1 else 0)) ∧
    (∀ c ∈ splitArrIntoChunks n ncpu, c.Pairwise (· < ·)) := by
  have hperm := chunks_perm n ncpu h
  have hnodup : (splitArrIntoChunks n ncpu).flatten.Nodup := hperm.nodup_iff.2 List.nodup_range
  refine ⟨by simp [splitArrIntoChunks], ?_, ?_⟩
  · intro x
    rw [hperm.count_eq]
    split
    · exact List.count_eq_one_of_mem List.nodup_range (by simpa)
    · rw [List.count_eq_zero]; simp; omega
  · intro c hc
    have hcn : c.Nodup := (List.nodup_flatten.1 hnodup).1 c hc
    obtain ⟨i, _, rfl⟩ := List.mem_map.1 hc
    have hs := List.pairwise_insertionSort (· ≤ ·) (strided (reordered n) i ncpu)
    exact (hs.and hcn).imp (fun ⟨a, b⟩ => lt_of_le_of_ne a b)

/-- C02. Any two chunks differ in size by at most one. -/
theorem C02_chunks_balanced (n ncpu : ℕ) (h : 1 ≤ ncpu) :
    ∀ c ∈ splitArrIntoChunks n ncpu, ∀ d ∈ splitArrIntoChunks n ncpu, c.length ≤ d.length + 1 := by
  intro c hc d hd
  obtain ⟨i, hi, rfl⟩ := List.mem_map.1 hc
  obtain ⟨j, hj, rfl⟩ := List.mem_map.1 hd
  rw [List.mem_range] at hi hj
  rw [chunk_length, chunk_length]
  have e : (n - j + ncpu - 1) / ncpu + 1 = (n - j + ncpu - 1 + ncpu) / ncpu := by
    rw [Nat.add_div_right _ h]
  rw [e]
  apply Nat.div_le_div_right
  omega

/-- a concrete split: five indices over two workers. -/
example : splitArrIntoChunks 5 2 = [[0, 2, 4], [1, 3]] := by decide

/-- more workers than work: the spare chunks are empty. -/
example : splitArrIntoChunks 2 3 = [[0], [1], []] := by decide

end Sleplet.Props
