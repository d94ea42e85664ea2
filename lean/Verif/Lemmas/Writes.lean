import Verif.Lemmas.Noise

/-!
Loops that write one value for every degree and order.
-/
namespace Sleplet

open Noise

theorem mem_arangeEmm {ell : ℕ} {m : ℤ} : m ∈ arangeEmm ell ↔ |m| ≤ ell := by
  unfold arangeEmm
  simp only [List.mem_map, List.mem_range, abs_le]
  constructor
  · rintro ⟨t, ht, rfl⟩
    omega
  · rintro ⟨h1, h2⟩
    exact ⟨(m + ell).toNat, by omega, by omega⟩

theorem writes_orders (V : ℤ → ℂ) (ell n : ℕ) (hn : (ell + 1) ^ 2 ≤ n) (step : List ℂ → ℤ → Except Err (List ℂ))
    (hstep : ∀ (b : List ℂ) (m : ℤ), b.length = n → |m| ≤ ell → step b m = .ok (b.set (elm2ind ell m) (V m))) (ms : List ℤ) :
    ∀ a : List ℂ, a.length = n → (∀ m ∈ ms, |m| ≤ ell) →
    ∃ b, ms.foldlM step a = .ok b ∧ b.length = n ∧
      ∀ (l : ℕ) (m : ℤ), |m| ≤ l → b.getD (elm2ind l m) 0 = if l = ell ∧ m ∈ ms then V m else a.getD (elm2ind l m) 0 := by
  induction ms with
  | nil =>
    intro a ha _
    exact ⟨a, rfl, ha, fun l m _ => by simp⟩
  | cons x ms ih =>
    intro a ha hm
    have hx := hm x (by simp)
    have hlt : elm2ind ell x < a.length := by rw [ha]; exact elm2ind_lt_of_sq hx hn
    obtain ⟨b, hb, hl, hv⟩ := ih (a.set (elm2ind ell x) (V x)) (by simpa using ha) fun m h => hm m (by simp [h])
    refine ⟨b, ?_, hl, fun l m h => ?_⟩
    · rw [List.foldlM_cons, hstep a x ha hx]
      exact hb
    · rw [hv l m h, getD_set]
      simp only [hlt, and_true, elm2ind_inj hx h, List.mem_cons]
      by_cases h1 : l = ell ∧ m ∈ ms
      · rw [if_pos h1, if_pos ⟨h1.1, Or.inr h1.2⟩]
      · rw [if_neg h1]
        by_cases h2 : ell = l ∧ x = m
        · rw [if_pos h2, if_pos ⟨h2.1.symm, Or.inl h2.2.symm⟩, h2.2]
        · rw [if_neg h2, if_neg]
          rintro ⟨rfl, rfl | h3⟩
          · exact h2 ⟨rfl, rfl⟩
          · exact h1 ⟨rfl, h3⟩

theorem writes_degrees (V : ℕ → ℤ → ℂ) (P : ℕ → ℤ → Prop) [∀ l m, Decidable (P l m)] (n : ℕ)
    (step : List ℂ → ℕ → Except Err (List ℂ)) (L : ℕ)
    (hstep : ∀ ell a, ell < L → a.length = n → ∃ b, step a ell = .ok b ∧ b.length = n ∧ ∀ (l : ℕ) (m : ℤ), |m| ≤ l →
      b.getD (elm2ind l m) 0 = if l = ell ∧ P l m then V ell m else a.getD (elm2ind l m) 0)
    (a : List ℂ) (ha : a.length = n) :
    ∃ b, (List.range L).foldlM step a = .ok b ∧ b.length = n ∧
      ∀ (l : ℕ) (m : ℤ), |m| ≤ l → b.getD (elm2ind l m) 0 = if l < L ∧ P l m then V l m else a.getD (elm2ind l m) 0 := by
  induction L with
  | zero => exact ⟨a, rfl, ha, fun l m _ => by simp⟩
  | succ L ih =>
    obtain ⟨b, hb, hl, hv⟩ := ih fun ell a h => hstep ell a (by omega)
    obtain ⟨c, hc, hcl, hcv⟩ := hstep L b (by omega) hl
    refine ⟨c, ?_, hcl, fun l m h => ?_⟩
    · rw [foldlM_range_succ, hb]
      exact hc
    · rw [hcv l m h, hv l m h]
      by_cases hP : P l m
      · by_cases h1 : l = L
        · subst h1
          simp [hP]
        · have : (l < L + 1) ↔ (l < L) := by omega
          simp only [h1, this, false_and, if_false]
      · simp [hP]

/-- two vectors of `L²` entries that agree at every degree and order are equal. -/
theorem ext_of_pairs {L : ℕ} {a b : List ℂ} (ha : a.length = L ^ 2) (hb : b.length = L ^ 2)
    (h : ∀ (l : ℕ) (m : ℤ), l < L → |m| ≤ l → a.getD (elm2ind l m) 0 = b.getD (elm2ind l m) 0) : a = b := by
  apply List.ext_getElem (by rw [ha, hb])
  intro i h1 h2
  have := h (ind2elm i).1 (ind2elm i).2 (ind2elm_fst_lt (by omega)) (ind2elm_abs_le i)
  rw [elm2ind_ind2elm] at this
  simpa [List.getD_eq_getElem?_getD, h1, h2] using this

theorem item_getD {a : List ℂ} {i : ℕ} (h : i < a.length) : NumPy.item a i = .ok (a.getD i 0) := by
  rw [NumPy.item_of_lt _ _ h]
  simp [List.getD_eq_getElem?_getD, h]

theorem mapM_eq_ok {α β : Type} (f : α → Except Err β) (g : α → β) (xs : List α) (h : ∀ x ∈ xs, f x = .ok (g x)) :
    xs.mapM f = .ok (xs.map g) := by
  induction xs with
  | nil => rfl
  | cons x xs ih =>
    rw [List.mapM_cons, h x (by simp), ih fun y hy => h y (by simp [hy])]
    rfl

end Sleplet
