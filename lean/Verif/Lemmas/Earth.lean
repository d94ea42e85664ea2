import Verif.Lemmas.Noise

namespace Sleplet.Noise

theorem earthOrder_ok (ell : ℕ) (a : List ℂ) (m : ℕ) (hm : m ≤ ell) (ha : (ell + 1) ^ 2 ≤ a.length) :
    earthOrder ell a m = .ok (a.set (elm2ind ell (-(m : ℤ))) ((-1) ^ m * (starRingEnd ℂ) (a.getD (elm2ind ell m) 0))) := by
  have hpm : elm2ind ell (m : ℤ) < a.length := elm2ind_lt_of_sq (by rw [Int.abs_eq_natAbs]; omega) ha
  have hnm : elm2ind ell (-(m : ℤ)) < a.length := elm2ind_lt_of_sq (by rw [Int.abs_eq_natAbs]; omega) ha
  unfold earthOrder
  rw [NumPy.item_of_lt _ _ hpm]
  simp only [bind, Except.bind]
  rw [NumPy.setItem_of_lt _ _ _ hnm]
  simp [List.getD_eq_getElem?_getD, hpm]

theorem earthOrders_ok (ell : ℕ) (a : List ℂ) (ha : (ell + 1) ^ 2 ≤ a.length) (k : ℕ) (hk : k ≤ ell) :
    ∃ b, (List.range' 1 k).foldlM (earthOrder ell) a = .ok b ∧ b.length = a.length ∧
      ∀ (l : ℕ) (m : ℤ), |m| ≤ l → b.getD (elm2ind l m) 0 =
        if l = ell ∧ m < 0 ∧ -(k : ℤ) ≤ m then (-1) ^ m * (starRingEnd ℂ) (a.getD (elm2ind l (-m)) 0)
        else a.getD (elm2ind l m) 0 := by
  induction k with
  | zero =>
    refine ⟨a, rfl, rfl, fun l m _ => ?_⟩
    rw [if_neg (by omega)]
  | succ k ih =>
    obtain ⟨b, hb, hl, hv⟩ := ih (by omega)
    rw [foldlM_range'_succ, hb]
    simp only [Except.bind]
    rw [show 1 + k = k + 1 from by omega, earthOrder_ok ell b (k + 1) hk (by rw [hl]; exact ha)]
    have hnm : elm2ind ell (-((k + 1 : ℕ) : ℤ)) < b.length :=
      elm2ind_lt_of_sq (by rw [Int.abs_eq_natAbs]; omega) (by rw [hl]; exact ha)
    have hnegk : |(-((k + 1 : ℕ) : ℤ))| ≤ (ell : ℤ) := by rw [Int.abs_eq_natAbs]; omega
    refine ⟨_, rfl, by simp [hl], ?_⟩
    intro l m hm
    rw [getD_set, hv l m hm, hv ell ((k + 1 : ℕ) : ℤ) (by rw [Int.abs_eq_natAbs]; omega),
      if_neg (show ¬ (ell = ell ∧ ((k + 1 : ℕ) : ℤ) < 0 ∧ -(k : ℤ) ≤ ((k + 1 : ℕ) : ℤ)) by omega)]
    simp only [hnm, and_true, elm2ind_inj hnegk hm]
    by_cases h1 : ell = l ∧ -((k + 1 : ℕ) : ℤ) = m
    · obtain ⟨rfl, rfl⟩ := h1
      rw [if_pos ⟨rfl, rfl⟩, if_pos ⟨rfl, by omega, le_rfl⟩, neg_neg, zpow_neg, zpow_natCast, ← inv_pow]
      norm_num
    · rw [if_neg h1]
      have : (l = ell ∧ m < 0 ∧ -((k + 1 : ℕ) : ℤ) ≤ m) ↔ (l = ell ∧ m < 0 ∧ -(k : ℤ) ≤ m) := by omega
      simp only [this]

theorem earthDegrees_ok (a : List ℂ) (k : ℕ) (ha : (1 + k) ^ 2 ≤ a.length ∨ k = 0) :
    ∃ b, (List.range' 1 k).foldlM (fun flm ell => (List.range' 1 ell).foldlM (earthOrder ell) flm) a = .ok b ∧
      b.length = a.length ∧
      ∀ (l : ℕ) (m : ℤ), |m| ≤ l → b.getD (elm2ind l m) 0 =
        if l < 1 + k ∧ m < 0 then (-1) ^ m * (starRingEnd ℂ) (a.getD (elm2ind l (-m)) 0)
        else a.getD (elm2ind l m) 0 := by
  induction k with
  | zero =>
    refine ⟨a, rfl, rfl, fun l m hm => ?_⟩
    rw [if_neg]
    rw [Int.abs_eq_natAbs] at hm
    omega
  | succ k ih =>
    have ha' : (1 + (k + 1)) ^ 2 ≤ a.length := by rcases ha with h | h <;> [exact h; omega]
    have hmono : (1 + k) ^ 2 ≤ (1 + (k + 1)) ^ 2 := Nat.pow_le_pow_left (by omega) 2
    obtain ⟨b, hb, hl, hv⟩ := ih (Or.inl (hmono.trans ha'))
    rw [foldlM_range'_succ, hb]
    simp only [Except.bind]
    obtain ⟨c, hc, hcl, hcv⟩ := earthOrders_ok (1 + k) b (by rw [hl]; exact ha') (1 + k) le_rfl
    refine ⟨c, hc, by rw [hcl, hl], fun l m hm => ?_⟩
    rw [hcv l m hm, hv l m hm, hv l (-m) (by rwa [abs_neg])]
    rw [Int.abs_eq_natAbs] at hm
    by_cases h1 : l = 1 + k ∧ m < 0
    · rw [if_pos (show l = 1 + k ∧ m < 0 ∧ -((1 + k : ℕ) : ℤ) ≤ m by omega), if_neg (show ¬ (l < 1 + k ∧ -m < 0) by omega),
        if_pos (show l < 1 + (k + 1) ∧ m < 0 by omega)]
    · rw [if_neg (by omega)]
      have : (l < 1 + (k + 1) ∧ m < 0) ↔ (l < 1 + k ∧ m < 0) := by omega
      simp only [this]

/-- a step of a loop that keeps the length and raises only `IndexError`. -/
def Steps (f : List ℂ → ℕ → Except Err (List ℂ)) : Prop :=
  ∀ a m, (∃ b, f a m = .ok b ∧ b.length = a.length) ∨ f a m = .error .indexError

theorem Steps.fold {f : List ℂ → ℕ → Except Err (List ℂ)} (hf : Steps f) (a : List ℂ) (s k : ℕ) :
    (∃ b, (List.range' s k).foldlM f a = .ok b ∧ b.length = a.length) ∨
      (List.range' s k).foldlM f a = .error .indexError := by
  induction k with
  | zero => exact Or.inl ⟨a, rfl, rfl⟩
  | succ k ih =>
    rw [foldlM_range'_succ]
    rcases ih with ⟨b, hb, hl⟩ | h
    · rw [hb]
      rcases hf b (s + k) with ⟨c, hc, hcl⟩ | h
      · exact Or.inl ⟨c, hc, by rw [hcl, hl]⟩
      · exact Or.inr h
    · rw [h]
      exact Or.inr rfl

theorem earthOrder_steps (ell : ℕ) : Steps (earthOrder ell) := by
  intro a m
  unfold earthOrder
  by_cases h : elm2ind ell (m : ℤ) < a.length
  · rw [NumPy.item_of_lt _ _ h]
    simp only [bind, Except.bind]
    by_cases h' : elm2ind ell (-(m : ℤ)) < a.length
    · rw [NumPy.setItem_of_lt _ _ _ h']
      exact Or.inl ⟨_, rfl, by simp⟩
    · rw [NumPy.setItem_of_ge _ _ _ (by omega)]
      exact Or.inr rfl
  · rw [NumPy.item_of_ge _ _ (by omega)]
    exact Or.inr rfl

theorem earth_short (a : List ℂ) (k : ℕ) (ha : a.length < (1 + (k + 1)) ^ 2) :
    (List.range' 1 (k + 1)).foldlM (fun flm ell => (List.range' 1 ell).foldlM (earthOrder ell) flm) a =
      .error .indexError := by
  have hs : Steps (fun flm ell => (List.range' 1 ell).foldlM (earthOrder ell) flm) := fun a m =>
    (earthOrder_steps m).fold a 1 m
  rw [foldlM_range'_succ]
  rcases hs.fold a 1 k with ⟨b, hb, hl⟩ | h
  · rw [hb]
    simp only [Except.bind]
    rw [show 1 + k = k + 1 from by omega, foldlM_range'_succ]
    rcases (earthOrder_steps (k + 1)).fold b 1 k with ⟨c, hc, hcl⟩ | h
    · rw [hc]
      simp only [Except.bind]
      unfold earthOrder
      rw [NumPy.item_of_ge]
      · rfl
      · rw [show 1 + k = k + 1 from by omega, elm2ind_nat le_rfl, hcl, hl]
        have : (1 + (k + 1)) ^ 2 = (k + 1) ^ 2 + (k + 1) + (k + 1) + 1 := by ring
        omega
    · rw [h]
      rfl
  · rw [h]
    rfl

end Sleplet.Noise
