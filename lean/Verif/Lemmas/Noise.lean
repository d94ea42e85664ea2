import Mathlib.Tactic.FieldSimp
import Mathlib.Tactic.Linarith
import Mathlib.Tactic.Ring
import Verif.Lemmas.HarmonicIndex
import Verif.Model.Noise

namespace Sleplet.Noise

open Complex

theorem elm2ind_inj {l l' : ℕ} {m m' : ℤ} (h : |m| ≤ l) (h' : |m'| ≤ l') :
    elm2ind l m = elm2ind l' m' ↔ l = l' ∧ m = m' := by
  constructor
  · intro e
    have := congrArg ind2elm e
    rw [ind2elm_elm2ind h, ind2elm_elm2ind h'] at this
    simpa using this
  · rintro ⟨rfl, rfl⟩
    rfl

theorem elm2ind_zero (l : ℕ) : elm2ind l 0 = l ^ 2 + l := by
  have := elm2ind_cast (l := l) (m := 0) (by simp)
  zify
  rw [this]
  ring

theorem elm2ind_nat {l m : ℕ} (h : m ≤ l) : elm2ind l m = l ^ 2 + l + m := by
  have := elm2ind_cast (l := l) (m := m) (by rw [Int.abs_eq_natAbs]; omega)
  zify
  rw [this]
  ring

theorem getD_set {α : Type} (a : List α) (i j : ℕ) (x d : α) :
    (a.set i x).getD j d = if i = j ∧ i < a.length then x else a.getD j d := by
  simp only [List.getD_eq_getElem?_getD, List.getElem?_set]
  by_cases h : i = j
  · subst h
    by_cases h2 : i < a.length
    · simp [h2]
    · simp [h2]
  · simp [h]

theorem foldlM_range'_succ {α : Type} (f : α → ℕ → Except Err α) (a : α) (s k : ℕ) :
    (List.range' s (k + 1)).foldlM f a = ((List.range' s k).foldlM f a).bind fun b => f b (s + k) := by
  rw [List.range'_concat, List.foldlM_append]
  simp only [List.foldlM_cons, List.foldlM_nil, one_mul]
  change Except.bind _ _ = _
  congr 1
  funext b
  exact bind_pure _

theorem foldlM_range_succ {α : Type} (f : α → ℕ → Except Err α) (a : α) (k : ℕ) :
    (List.range (k + 1)).foldlM f a = ((List.range k).foldlM f a).bind fun b => f b k := by
  rw [List.range_eq_range', foldlM_range'_succ, List.range_eq_range', Nat.zero_add]

/-- the coefficient drawn for order `m` of a degree whose first draw is number `p`. -/
noncomputable def drawn (g : ℕ → ℝ) (sigma : ℝ) (p m : ℕ) : ℂ :=
  (sigma : ℂ) / (Real.sqrt 2 : ℂ) * ((g (p + (2 * m - 1)) : ℂ) + I * (g (p + 2 * m) : ℂ))

/-- the coefficient of degree and order `(l, m)` after the loop body for that degree. -/
noncomputable def coeff (g : ℕ → ℝ) (sigma : ℝ) (p : ℕ) (m : ℤ) : ℂ :=
  if m = 0 then (sigma : ℂ) * (g p : ℂ)
  else if 0 < m then drawn g sigma p m.toNat
  else (-1) ^ (-m).toNat * (starRingEnd ℂ) (drawn g sigma p (-m).toNat)

theorem standardNormal_ok (normals : ℕ → ℕ → ℝ) (w : World) (rng s k : ℕ) (h : w[rng]? = some (s, k)) :
    standardNormal normals rng w = .ok (normals s k, w.set rng (s, k + 1)) := by
  simp [standardNormal, h]

theorem set_get {w : World} {rng : ℕ} {x : ℕ × ℕ} (h : rng < w.length) (y : ℕ × ℕ) (_ : w[rng]? = some x := by assumption) :
    (w.set rng y)[rng]? = some y := by
  simp [h]

theorem lt_of_get {w : World} {rng : ℕ} {x : ℕ × ℕ} (h : w[rng]? = some x) : rng < w.length := by
  by_contra hc
  rw [List.getElem?_eq_none (by omega)] at h
  cases h

theorem elm2ind_lt_of_sq {l n : ℕ} {m : ℤ} (h : |m| ≤ l) (hn : (l + 1) ^ 2 ≤ n) : elm2ind l m < n :=
  lt_of_lt_of_le ((elm2ind_lt_sq h (l + 1)).2 (Nat.lt_succ_self l)) hn

theorem orderBody_ok (normals : ℕ → ℕ → ℝ) (rng : ℕ) (sigma : ℝ) (ell : ℕ) (a : List ℂ) (w : World) (m s k : ℕ)
    (hw : w[rng]? = some (s, k)) (hm : m ≤ ell) (ha : (ell + 1) ^ 2 ≤ a.length) :
    orderBody normals rng sigma ell (a, w) m = .ok
      ((a.set (elm2ind ell m) ((sigma : ℂ) / (Real.sqrt 2 : ℂ) * ((normals s k : ℂ) + I * (normals s (k + 1) : ℂ)))).set
        (elm2ind ell (-(m : ℤ)))
        ((-1) ^ m * (starRingEnd ℂ) ((sigma : ℂ) / (Real.sqrt 2 : ℂ) * ((normals s k : ℂ) + I * (normals s (k + 1) : ℂ)))),
       w.set rng (s, k + 2)) := by
  have hr := lt_of_get hw
  have hpm : elm2ind ell (m : ℤ) < a.length := elm2ind_lt_of_sq (by rw [Int.abs_eq_natAbs]; omega) ha
  have hnm : elm2ind ell (-(m : ℤ)) < a.length := elm2ind_lt_of_sq (by rw [Int.abs_eq_natAbs]; omega) ha
  unfold orderBody
  simp only [standardNormal_ok normals w rng s k hw, bind, Except.bind]
  rw [standardNormal_ok normals (w.set rng (s, k + 1)) rng s (k + 1) (by simp [hr])]
  simp only
  rw [NumPy.setItem_of_lt _ _ _ hpm]
  simp only
  rw [NumPy.item_of_lt _ _ (by simpa using hpm)]
  simp only
  rw [NumPy.setItem_of_lt _ _ _ (by simpa using hnm)]
  simp [pure, Except.pure]

theorem orders_ok (normals : ℕ → ℕ → ℝ) (rng : ℕ) (sigma : ℝ) (ell : ℕ) (a : List ℂ) (w : World) (s p : ℕ)
    (hw : w[rng]? = some (s, p + 1)) (ha : (ell + 1) ^ 2 ≤ a.length) (k : ℕ) (hk : k ≤ ell) :
    ∃ b, (List.range' 1 k).foldlM (orderBody normals rng sigma ell) (a, w) = .ok (b, w.set rng (s, p + 1 + 2 * k)) ∧
      b.length = a.length ∧
      ∀ (l : ℕ) (m : ℤ), |m| ≤ l → b.getD (elm2ind l m) 0 =
        if l = ell ∧ m ≠ 0 ∧ |m| ≤ k then coeff (normals s) sigma p m else a.getD (elm2ind l m) 0 := by
  induction k with
  | zero =>
    refine ⟨a, ?_, rfl, ?_⟩
    · have : w.set rng (s, p + 1) = w := by
        apply List.ext_getElem?
        intro i
        rw [List.getElem?_set]
        split_ifs with h1 h2
        · subst h1; exact hw.symm
        · subst h1; exact absurd (lt_of_get hw) h2
        · rfl
      simp [this, pure, Except.pure]
    · intro l m _
      rw [if_neg]
      rintro ⟨_, h, h'⟩
      apply h
      rw [Int.abs_eq_natAbs] at h'
      omega
  | succ k ih =>
    obtain ⟨b, hb, hl, hv⟩ := ih (by omega)
    have hr := lt_of_get hw
    rw [foldlM_range'_succ, hb]
    simp only [Except.bind]
    rw [show 1 + k = k + 1 from by omega,
      orderBody_ok normals rng sigma ell b _ (k + 1) s (p + 1 + 2 * k) (by simp [hr]) hk (by rw [hl]; exact ha)]
    have hpm : elm2ind ell ((k + 1 : ℕ) : ℤ) < b.length :=
      elm2ind_lt_of_sq (by rw [Int.abs_eq_natAbs]; omega) (by rw [hl]; exact ha)
    have hnm : elm2ind ell (-((k + 1 : ℕ) : ℤ)) < b.length :=
      elm2ind_lt_of_sq (by rw [Int.abs_eq_natAbs]; omega) (by rw [hl]; exact ha)
    refine ⟨_, by rw [List.set_set]; rfl, by simp [hl], ?_⟩
    intro l m hm
    rw [getD_set, getD_set, hv l m hm]
    have hposk : |((k + 1 : ℕ) : ℤ)| ≤ (ell : ℤ) := by rw [Int.abs_eq_natAbs]; omega
    have hnegk : |(-((k + 1 : ℕ) : ℤ))| ≤ (ell : ℤ) := by rw [Int.abs_eq_natAbs]; omega
    simp only [List.length_set, hpm, hnm, and_true, elm2ind_inj hposk hm, elm2ind_inj hnegk hm]
    have e1 : p + 1 + 2 * k = p + (2 * (k + 1) - 1) := by omega
    have e2 : p + 1 + 2 * k + 1 = p + 2 * (k + 1) := by omega
    by_cases h1 : ell = l ∧ -((k + 1 : ℕ) : ℤ) = m
    · obtain ⟨rfl, rfl⟩ := h1
      rw [if_pos ⟨rfl, rfl⟩, if_pos ⟨rfl, by omega, by rw [Int.abs_eq_natAbs]; omega⟩]
      unfold coeff
      rw [if_neg (by omega), if_neg (by omega)]
      have : (-(-((k + 1 : ℕ) : ℤ))).toNat = k + 1 := by omega
      rw [this, drawn, ← e1, ← e2]
    · rw [if_neg h1]
      by_cases h2 : ell = l ∧ ((k + 1 : ℕ) : ℤ) = m
      · obtain ⟨rfl, rfl⟩ := h2
        rw [if_pos ⟨rfl, rfl⟩, if_pos ⟨rfl, by omega, by rw [Int.abs_eq_natAbs]; omega⟩]
        unfold coeff
        rw [if_neg (by omega), if_pos (by omega)]
        have : (((k + 1 : ℕ) : ℤ)).toNat = k + 1 := by omega
        rw [this, drawn, ← e1, ← e2]
      · rw [if_neg h2]
        have : (l = ell ∧ m ≠ 0 ∧ |m| ≤ ((k + 1 : ℕ) : ℤ)) ↔ (l = ell ∧ m ≠ 0 ∧ |m| ≤ (k : ℤ)) := by
          rw [Int.abs_eq_natAbs]
          omega
        simp only [this]

theorem degreeBody_ok (normals : ℕ → ℕ → ℝ) (rng : ℕ) (sigma : ℝ) (ell : ℕ) (a : List ℂ) (w : World) (s p : ℕ)
    (hw : w[rng]? = some (s, p)) (ha : (ell + 1) ^ 2 ≤ a.length) :
    ∃ b, degreeBody normals rng sigma ell (a, w) = .ok (b, w.set rng (s, p + (2 * ell + 1))) ∧ b.length = a.length ∧
      ∀ (l : ℕ) (m : ℤ), |m| ≤ l → b.getD (elm2ind l m) 0 =
        if l = ell then coeff (normals s) sigma p m else a.getD (elm2ind l m) 0 := by
  have hr := lt_of_get hw
  have h0 : elm2ind ell 0 < a.length := elm2ind_lt_of_sq (by simp) ha
  obtain ⟨b, hb, hl, hv⟩ := orders_ok normals rng sigma ell (a.set (elm2ind ell 0) ((sigma : ℂ) * (normals s p : ℂ)))
    (w.set rng (s, p + 1)) s p (by simp [hr]) (by simpa using ha) ell le_rfl
  refine ⟨b, ?_, by simpa using hl, ?_⟩
  · unfold degreeBody
    simp only [standardNormal_ok normals w rng s p hw, bind, Except.bind]
    rw [NumPy.setItem_of_lt _ _ _ h0]
    simp only
    rw [hb, List.set_set, show p + 1 + 2 * ell = p + (2 * ell + 1) from by omega]
  · intro l m hm
    rw [hv l m hm, getD_set]
    by_cases hl' : l = ell
    · subst hl'
      by_cases hm0 : m = 0
      · subst hm0
        simp [h0, coeff]
      · rw [if_pos ⟨rfl, hm0, hm⟩, if_pos rfl]
    · rw [if_neg (fun h => hl' h.1), if_neg hl', if_neg]
      rintro ⟨e, _⟩
      rw [elm2ind_inj (by simp) hm] at e
      exact hl' e.1.symm

/-- the loop over degrees `d, …, d + k - 1`, each with its own standard deviation. -/
theorem degrees_ok (normals : ℕ → ℕ → ℝ) (rng : ℕ) (step : List ℂ × World → ℕ → Except Err (List ℂ × World)) (sigma : ℕ → ℝ)
    (a : List ℂ) (w : World) (s p d : ℕ) (hw : w[rng]? = some (s, p)) (k : ℕ)
    (hstep : ∀ ell st, d ≤ ell → ell < d + k → step st ell = degreeBody normals rng (sigma ell) ell st)
    (ha : (d + k) ^ 2 ≤ a.length) :
    ∃ b, (List.range' d k).foldlM step (a, w) = .ok (b, w.set rng (s, p + ((d + k) ^ 2 - d ^ 2))) ∧ b.length = a.length ∧
      ∀ (l : ℕ) (m : ℤ), |m| ≤ l → b.getD (elm2ind l m) 0 =
        if d ≤ l ∧ l < d + k then coeff (normals s) (sigma l) (p + (l ^ 2 - d ^ 2)) m else a.getD (elm2ind l m) 0 := by
  induction k with
  | zero =>
    refine ⟨a, ?_, rfl, ?_⟩
    · have : w.set rng (s, p) = w := by
        apply List.ext_getElem?
        intro i
        rw [List.getElem?_set]
        split_ifs with h1 h2
        · subst h1; exact hw.symm
        · subst h1; exact absurd (lt_of_get hw) h2
        · rfl
      simp [this, pure, Except.pure]
    · intro l m _
      rw [if_neg (by omega)]
  | succ k ih =>
    have hr := lt_of_get hw
    have hmono : (d + k) ^ 2 ≤ (d + (k + 1)) ^ 2 := Nat.pow_le_pow_left (by omega) 2
    have hd : d ^ 2 ≤ (d + k) ^ 2 := Nat.pow_le_pow_left (by omega) 2
    obtain ⟨b, hb, hl, hv⟩ := ih (fun ell st h1 h2 => hstep ell st h1 (by omega)) (hmono.trans ha)
    rw [foldlM_range'_succ, hb]
    simp only [Except.bind]
    rw [hstep (d + k) _ (by omega) (by omega)]
    obtain ⟨c, hc, hcl, hcv⟩ := degreeBody_ok normals rng (sigma (d + k)) (d + k) b
      (w.set rng (s, p + ((d + k) ^ 2 - d ^ 2))) s (p + ((d + k) ^ 2 - d ^ 2)) (by simp [hr])
      (by rw [hl]; exact ha)
    refine ⟨c, ?_, by rw [hcl, hl], ?_⟩
    · rw [hc, List.set_set]
      have : (d + (k + 1)) ^ 2 = (d + k) ^ 2 + (2 * (d + k) + 1) := by ring
      rw [show p + ((d + k) ^ 2 - d ^ 2) + (2 * (d + k) + 1) = p + ((d + (k + 1)) ^ 2 - d ^ 2) from by omega]
    · intro l m hm
      rw [hcv l m hm, hv l m hm]
      by_cases h1 : l = d + k
      · subst h1
        rw [if_pos rfl, if_pos (by omega)]
      · rw [if_neg h1]
        have : (d ≤ l ∧ l < d + (k + 1)) ↔ (d ≤ l ∧ l < d + k) := by omega
        simp only [this]

end Sleplet.Noise
