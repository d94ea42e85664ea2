import Mathlib.Data.List.Basic
import Mathlib.Data.Int.Basic
import Mathlib.Tactic.Common
import Mathlib.Tactic.NormNum
import Std.Data.String.ToInt

/-! Unique parsing of file names. -/
namespace Sleplet.Names

/-- split at the first occurrence of a separator. -/
theorem split_first {α : Type*} {c : α} : ∀ {l l' t t' : List α}, c ∉ l → c ∉ l' → l ++ c :: t = l' ++ c :: t' → l = l' ∧ t = t'
  | [], [], t, t', _, _, h => by simpa using h
  | [], b :: l', t, t', _, h', h => by
    simp only [List.nil_append, List.cons_append, List.cons.injEq] at h
    exact absurd (h.1 ▸ List.mem_cons_self) h'
  | a :: l, [], t, t', h0, _, h => by
    simp only [List.nil_append, List.cons_append, List.cons.injEq] at h
    exact absurd (h.1 ▸ List.mem_cons_self) h0
  | a :: l, b :: l', t, t', h0, h', h => by
    simp only [List.cons_append, List.cons.injEq] at h
    obtain ⟨r1, r2⟩ := split_first (fun hm => h0 (List.mem_cons_of_mem _ hm)) (fun hm => h' (List.mem_cons_of_mem _ hm)) h.2
    exact ⟨by rw [h.1, r1], r2⟩

/-- split at the last occurrence of a separator. -/
theorem split_last {α : Type*} {c : α} {l l' t t' : List α} (ht : c ∉ t) (ht' : c ∉ t') (h : l ++ c :: t = l' ++ c :: t') :
    l = l' ∧ t = t' := by
  have h1 := congrArg List.reverse h
  simp only [List.reverse_append, List.reverse_cons, List.append_assoc, List.singleton_append] at h1
  obtain ⟨r1, r2⟩ := split_first (by simpa using ht) (by simpa using ht') h1
  exact ⟨List.reverse_injective r2, List.reverse_injective r1⟩

theorem nat_digits (n : ℕ) : ∀ c ∈ (toString n).toList, c.isDigit := by
  intro c hc
  have : (toString n) = n.repr := rfl
  rw [this, Nat.toList_repr] at hc
  exact Nat.isDigit_of_mem_toDigits (by norm_num) (by norm_num) hc

theorem not_mem_nat {n : ℕ} {c : Char} (h : c.isDigit = false) : c ∉ (toString n).toList := by
  intro hc
  have := nat_digits n c hc
  rw [h] at this
  cases this

theorem int_chars (n : ℤ) : ∀ c ∈ (toString n).toList, c = '-' ∨ c.isDigit := by
  intro c hc
  cases n with
  | ofNat m => exact Or.inr (nat_digits m c hc)
  | negSucc m =>
    have : toString (Int.negSucc m) = "-" ++ toString (m + 1) := rfl
    rw [this, String.toList_append] at hc
    rcases List.mem_append.1 hc with h | h
    · left; simpa using h
    · exact Or.inr (nat_digits _ c h)

theorem not_mem_int {n : ℤ} {c : Char} (h : c.isDigit = false) (h' : c ≠ '-') : c ∉ (toString n).toList := by
  intro hc
  rcases int_chars n c hc with h1 | h1
  · exact h' h1
  · rw [h] at h1; cases h1

theorem not_mem_int_of_nonneg {n : ℤ} (hn : 0 ≤ n) {c : Char} (h : c.isDigit = false) : c ∉ (toString n).toList := by
  obtain ⟨m, rfl⟩ := Int.eq_ofNat_of_zero_le hn
  exact not_mem_nat h

theorem nat_inj {a b : ℕ} (h : (toString a).toList = (toString b).toList) : a = b :=
  Nat.repr_injective (String.toList_injective h)

theorem int_inj {a b : ℤ} (h : (toString a).toList = (toString b).toList) : a = b :=
  Int.repr_injective (String.toList_injective h)

theorem nat_toList_ne_nil (n : ℕ) : (toString n).toList ≠ [] := by
  have : (toString n) = n.repr := rfl
  rw [this, Nat.toList_repr]
  exact Nat.toDigits_ne_nil

end Sleplet.Names
