import Mathlib.Data.List.Perm.Basic
import Mathlib.Data.List.Nodup
import Mathlib.Data.List.GetD
import Mathlib.Data.Nat.ModEq
import Mathlib.Data.Int.ModEq
import Mathlib.Tactic.Ring
import Mathlib.Tactic.Linarith
import Verif.Model.Parallel

namespace Sleplet.Parallel

theorem reordered_perm (n : ℕ) : (reordered n).Perm (List.range n) := by
  unfold reordered
  have h := List.Perm.append_left ((List.range n).take (n / 2))
    (List.reverse_perm ((List.range n).drop (n / 2)))
  rwa [List.take_append_drop] at h

theorem reordered_length (n : ℕ) : (reordered n).length = n := by
  simpa using (reordered_perm n).length_eq

/-- positions read by the strided slice. -/
def positions (n i k : ℕ) : List ℕ := (List.range ((n - i + k - 1) / k)).map fun t => i + t * k

theorem mem_positions {n i k x : ℕ} (hk : 0 < k) :
    x ∈ positions n i k ↔ x < n ∧ i ≤ x ∧ (x - i) % k = 0 := by
  unfold positions
  simp only [List.mem_map, List.mem_range]
  constructor
  · rintro ⟨t, ht, rfl⟩
    have h1 : t + 1 ≤ (n - i + k - 1) / k := ht
    rw [Nat.le_div_iff_mul_le hk] at h1
    have h2 : (t + 1) * k = t * k + k := by ring
    refine ⟨by omega, by omega, ?_⟩
    simp
  · rintro ⟨h1, h2, h3⟩
    refine ⟨(x - i) / k, ?_, ?_⟩
    · rw [Nat.lt_iff_add_one_le, Nat.le_div_iff_mul_le hk]
      have h4 : ((x - i) / k + 1) * k = (x - i) / k * k + k := by ring
      have h5 : (x - i) / k * k ≤ x - i := Nat.div_mul_le_self _ _
      omega
    · have := Nat.div_mul_cancel (Nat.dvd_of_mod_eq_zero h3)
      omega

theorem positions_nodup {n i k : ℕ} (hk : 0 < k) : (positions n i k).Nodup := by
  unfold positions
  refine List.Nodup.map ?_ List.nodup_range
  intro a b h
  have : a * k = b * k := by simpa using h
  exact Nat.eq_of_mul_eq_mul_right hk this

theorem positions_flatMap_perm (n k : ℕ) (hk : 0 < k) :
    ((List.range k).flatMap fun i => positions n i k).Perm (List.range n) := by
  rw [List.perm_ext_iff_of_nodup]
  · intro x
    simp only [List.mem_flatMap, List.mem_range, mem_positions hk]
    constructor
    · rintro ⟨i, _, h, _⟩; exact h
    · intro h
      refine ⟨x % k, Nat.mod_lt _ hk, h, Nat.mod_le _ _, ?_⟩
      exact Nat.sub_mod_eq_zero_of_mod_eq (by simp)
  · rw [List.nodup_flatMap]
    refine ⟨fun i _ => positions_nodup hk, ?_⟩
    have : (List.range k).Pairwise (fun a b => a ≠ b ∧ a < k ∧ b < k) := by
      have h := (List.nodup_range (n := k))
      have h2 : (List.range k).Pairwise (fun a b => a < k ∧ b < k) :=
        List.pairwise_of_forall_mem_list (fun a ha b hb => ⟨List.mem_range.1 ha, List.mem_range.1 hb⟩)
      exact List.Pairwise.and h h2
    refine this.imp ?_
    rintro a b ⟨hab, ha, hb⟩
    simp only [Function.onFun, List.disjoint_left, mem_positions hk]
    rintro x ⟨_, h1, h2⟩ ⟨_, h3, h4⟩
    apply hab
    have e1 : x % k = a % k := ((Nat.modEq_iff_dvd' h1).2 (Nat.dvd_of_mod_eq_zero h2)).symm
    have e2 : x % k = b % k := ((Nat.modEq_iff_dvd' h3).2 (Nat.dvd_of_mod_eq_zero h4)).symm
    rw [Nat.mod_eq_of_lt ha] at e1
    rw [Nat.mod_eq_of_lt hb] at e2
    omega
  · exact List.nodup_range

theorem strided_eq {α : Type} [Inhabited α] (arr : List α) (i k : ℕ) :
    strided arr i k = (positions arr.length i k).map fun t => arr.getD t default := by
  simp [strided, positions, Function.comp_def]

theorem map_getD_range {α : Type} [Inhabited α] (arr : List α) :
    (List.range arr.length).map (fun t => arr.getD t default) = arr := by
  apply List.ext_getElem
  · simp
  · intro i h1 h2
    simp [List.getElem?_eq_getElem h2]

theorem strided_flatMap_perm {α : Type} [Inhabited α] (arr : List α) (k : ℕ) (hk : 0 < k) :
    ((List.range k).flatMap fun i => strided arr i k).Perm arr := by
  have h := (positions_flatMap_perm arr.length k hk).map (fun t => arr.getD t default)
  rw [map_getD_range, List.map_flatMap] at h
  simpa only [strided_eq] using h

theorem chunk_length (n i k : ℕ) :
    ((strided (reordered n) i k).insertionSort (· ≤ ·)).length = (n - i + k - 1) / k := by
  simp [strided, reordered_length]

theorem chunks_perm (n k : ℕ) (h : 1 ≤ k) : (splitArrIntoChunks n k).flatten.Perm (List.range n) := by
  unfold splitArrIntoChunks
  rw [← List.flatMap_def]
  refine List.Perm.trans ?_ ((strided_flatMap_perm (reordered n) k h).trans (reordered_perm n))
  exact List.Perm.flatMap_left _ (fun i _ => List.perm_insertionSort _ _)

theorem getD_mem_of_mem {α : Type} {x : α} {ls : List (List α)} {t : ℕ} (h : x ∈ ls.getD t []) :
    t < ls.length ∧ ls.getD t [] ∈ ls := by
  by_cases ht : t < ls.length
  · refine ⟨ht, ?_⟩
    rw [List.getD_eq_getElem _ _ ht]
    exact List.getElem_mem ht
  · rw [List.getD_eq_default _ _ (by omega)] at h
    simp at h

theorem mem_chunk_lt (n k : ℕ) (h : 1 ≤ k) (t i : ℕ) (hi : i ∈ (splitArrIntoChunks n k).getD t []) : i < n := by
  have : i ∈ (splitArrIntoChunks n k).flatten := List.mem_flatten.2 ⟨_, (getD_mem_of_mem hi).2, hi⟩
  exact List.mem_range.1 ((chunks_perm n k h).mem_iff.1 this)

theorem chunks_disjoint (n k : ℕ) (h : 1 ≤ k) (t u x : ℕ) (hx : x ∈ (splitArrIntoChunks n k).getD t [])
    (hx' : x ∈ (splitArrIntoChunks n k).getD u []) : t = u := by
  have hn : (splitArrIntoChunks n k).flatten.Nodup := (chunks_perm n k h).nodup_iff.2 List.nodup_range
  have hp := (List.nodup_flatten.1 hn).2
  have h1 := (getD_mem_of_mem hx).1
  have h2 := (getD_mem_of_mem hx').1
  rw [List.getD_eq_getElem _ _ h1] at hx
  rw [List.getD_eq_getElem _ _ h2] at hx'
  rw [List.pairwise_iff_getElem] at hp
  rcases lt_trichotomy t u with e | e | e
  · exact absurd hx' (hp t u h1 h2 e hx)
  · exact e
  · exact absurd hx (hp u t h2 h1 e hx')

theorem exists_chunk (n k : ℕ) (h : 1 ≤ k) (x : ℕ) (hx : x < n) :
    ∃ t < k, x ∈ (splitArrIntoChunks n k).getD t [] := by
  have : x ∈ (splitArrIntoChunks n k).flatten := (chunks_perm n k h).mem_iff.2 (List.mem_range.2 hx)
  obtain ⟨c, hc, hxc⟩ := List.mem_flatten.1 this
  obtain ⟨t, ht, rfl⟩ := List.mem_iff_getElem.1 hc
  refine ⟨t, by simpa [splitArrIntoChunks] using ht, ?_⟩
  rwa [List.getD_eq_getElem _ _ ht]

end Sleplet.Parallel
