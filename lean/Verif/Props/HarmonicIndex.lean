import Mathlib.Data.List.GetD
import Mathlib.Data.Set.Function
import Mathlib.Tactic.NormNum
import Verif.Lemmas.HarmonicIndex
import Verif.Model.Harmonic

/-!
C21 (harmonic indexing), C24 (padding).
-/
namespace Sleplet.Props

/-- C21. `(l, m) ↦ l² + l + m` maps the pairs with `l < L`, `|m| ≤ l` one-to-one onto `0, …, L² - 1`, and the lookup
of an index is its inverse. -/
theorem C21_index_bijection (L : ℕ) :
    Set.BijOn (fun q : ℕ × ℤ => elm2ind q.1 q.2) {q | q.1 < L ∧ |q.2| ≤ q.1} {i | i < L ^ 2} ∧
    (∀ (l : ℕ) (m : ℤ), |m| ≤ (l : ℤ) → (elm2ind l m : ℤ) = (l : ℤ) ^ 2 + l + m ∧ ind2elm (elm2ind l m) = (l, m)) ∧
    (∀ i, elm2ind (ind2elm i).1 (ind2elm i).2 = i ∧ |(ind2elm i).2| ≤ ((ind2elm i).1 : ℤ)) := by
  refine ⟨⟨?_, ?_, ?_⟩, ?_, ?_⟩
  · rintro ⟨l, m⟩ ⟨h1, h2⟩
    exact (elm2ind_lt_sq h2 L).2 h1
  · rintro ⟨l, m⟩ ⟨_, h2⟩ ⟨l', m'⟩ ⟨_, h2'⟩ h
    have := congrArg ind2elm h
    simp only at this h2 h2'
    rwa [ind2elm_elm2ind h2, ind2elm_elm2ind h2'] at this
  · intro i hi
    exact ⟨ind2elm i, ⟨ind2elm_fst_lt hi, ind2elm_abs_le i⟩, elm2ind_ind2elm i⟩
  · intro l m h
    exact ⟨by rw [elm2ind_cast h]; ring, ind2elm_elm2ind h⟩
  · intro i
    exact ⟨elm2ind_ind2elm i, ind2elm_abs_le i⟩

/-- degree 2, order -1 is at position 5. -/
example : elm2ind 2 (-1) = 5 ∧ ind2elm 5 = (2, -1) :=
  ⟨rfl, (ind2elm_elm2ind (l := 2) (m := -1) (by norm_num) : ind2elm (elm2ind 2 (-1)) = _)⟩

private theorem emm_fold (T : ℕ) (n : ℕ) (hn : n * n ≤ T) :
    let st := (List.range n).foldl emmStep (0, List.replicate T 0)
    st.1 = n * n ∧ st.2.length = T ∧ ∀ i, st.2.getD i 0 = if i < n * n then (ind2elm i).2 else 0 := by
  induction n with
  | zero => simp
  | succ n ih =>
    have hn' : n * n + (2 * n + 1) ≤ T := by linarith [show (n + 1) * (n + 1) = n * n + (2 * n + 1) by ring]
    obtain ⟨h1, h2, h3⟩ := ih (by omega)
    simp only [List.range_succ, List.foldl_append, List.foldl_cons, List.foldl_nil]
    generalize (List.range n).foldl emmStep (0, List.replicate T 0) = st at *
    have hlen : (arangeEmm n).length = 2 * n + 1 := by simp [arangeEmm]
    refine ⟨by simp only [emmStep, h1]; ring, ?_, ?_⟩
    · simp only [emmStep, setSlice, List.length_append, List.length_take, List.length_drop, hlen, h2, h1]
      omega
    · intro i
      simp only [emmStep, setSlice, h1, hlen]
      have e : (n + 1) * (n + 1) = n * n + (2 * n + 1) := by ring
      rw [e]
      have ht : (st.2.take (n * n)).length = n * n := by simp [h2]; omega
      rcases lt_or_ge i (n * n) with hi | hi
      · rw [List.append_assoc, List.getD_append _ _ _ _ (by omega), if_pos (by omega)]
        have : (st.2.take (n * n)).getD i 0 = st.2.getD i 0 := by
          simp [List.getD_eq_getElem?_getD, hi]
        rw [this, h3, if_pos hi]
      · rcases lt_or_ge i (n * n + (2 * n + 1)) with hi2 | hi2
        · rw [List.append_assoc, List.getD_append_right _ _ _ _ (by omega), ht,
            List.getD_append _ _ _ _ (by omega), if_pos hi2]
          have hq : (elm2ind n ((i - n * n : ℕ) - (n : ℤ))) = i := by
            have h := elm2ind_cast (l := n) (m := ((i - n * n : ℕ) - (n : ℤ))) (by rw [abs_le]; omega)
            zify
            rw [h]
            push_cast [hi]
            ring
          have hb : |(((i - n * n : ℕ) : ℤ) - (n : ℤ))| ≤ n := by rw [abs_le]; omega
          rw [← hq, ind2elm_elm2ind hb, hq]
          have hlt : i - n * n < 2 * n + 1 := by omega
          simp [arangeEmm, List.getD_eq_getElem?_getD, List.getElem?_map, List.getElem?_range hlt]
        · rw [List.getD_append_right _ _ _ _ (by simp only [List.length_append, ht, hlen]; omega), if_neg (by omega)]
          simp only [List.length_append, ht, hlen]
          have := h3 i
          rw [if_neg (by omega)] at this
          rw [← this]
          simp only [List.getD_eq_getElem?_getD, List.getElem?_drop]
          congr 2
          omega

/-- C21, vector of orders: for every `L` the vector has `(2L)²` entries and the one at the position of `(l, m)` is `m`,
for every `l < 2L` (so it has no other entries). -/
theorem C21_emm_vector (L : ℕ) :
    (createEmmVector L).length = (2 * L) ^ 2 ∧
    ∀ (l : ℕ) (m : ℤ), l < 2 * L → |m| ≤ (l : ℤ) → (createEmmVector L)[elm2ind l m]? = some m := by
  have h := emm_fold (2 * L * 2 * L) (2 * L) (by rw [← mul_assoc])
  obtain ⟨-, h2, h3⟩ := h
  have e : 2 * L * 2 * L = (2 * L) ^ 2 := by ring
  refine ⟨by rw [← e]; exact h2, ?_⟩
  intro l m hl hm
  have hi : elm2ind l m < (2 * L) ^ 2 := (elm2ind_lt_sq hm _).2 hl
  have h4 := h3 (elm2ind l m)
  rw [if_pos (by rwa [← sq]), ind2elm_elm2ind hm] at h4
  unfold createEmmVector
  have hlt : elm2ind l m < ((List.range (2 * L)).foldl emmStep (0, List.replicate (2 * L * 2 * L) 0)).2.length := by
    rw [h2, e]; exact hi
  rw [List.getElem?_eq_getElem hlt, Option.some_inj]
  simpa [List.getD_eq_getElem?_getD, List.getElem?_eq_getElem hlt] using h4

example : createEmmVector 1 = [0, -1, 0, 1] := by decide

/-- C24. Upsampling `L²` coefficients to bandlimit `resolution`: rejected with `ValueError` exactly when the resolution
is below `L`; otherwise the transform receives `resolution²` coefficients, those of degree below `L` unchanged at their
index and every other one zero. -/
theorem C24_boost_preserves {F : Type} (inverse : ℕ → List ℂ → F) (flm : List ℂ) (L resolution : ℕ)
    (hlen : flm.length = L ^ 2) :
    (resolution < L → invertFlmBoosted inverse flm L resolution = .error .valueError) ∧
    (L ≤ resolution → ∃ g : List ℂ, invertFlmBoosted inverse flm L resolution = .ok (inverse resolution g) ∧
      g.length = resolution ^ 2 ∧
      (∀ (l : ℕ) (m : ℤ), l < L → |m| ≤ (l : ℤ) → g[elm2ind l m]? = flm[elm2ind l m]?) ∧
      (∀ (l : ℕ) (m : ℤ), L ≤ l → l < resolution → |m| ≤ (l : ℤ) → g[elm2ind l m]? = some 0)) := by
  constructor
  · intro h
    have : (resolution : ℤ) ^ 2 - (L : ℤ) ^ 2 < 0 := by
      have : (resolution : ℤ) < L := by exact_mod_cast h
      nlinarith [Int.natCast_nonneg resolution]
    simp [invertFlmBoosted, boostCoefficientResolution, this, bind, Except.bind]
  · intro h
    have h0 : L ^ 2 ≤ resolution ^ 2 := Nat.pow_le_pow_left h 2
    have hz : (resolution : ℤ) ^ 2 - (L : ℤ) ^ 2 = ((resolution ^ 2 - L ^ 2 : ℕ) : ℤ) := by push_cast [h0]; rfl
    refine ⟨flm ++ List.replicate (resolution ^ 2 - L ^ 2) 0, ?_, ?_, ?_, ?_⟩
    · simp only [invertFlmBoosted, boostCoefficientResolution, hz]
      rw [if_neg (by omega)]
      rfl
    · simp [hlen]; omega
    · intro l m hl hm
      rw [List.getElem?_append_left (by rw [hlen]; exact (elm2ind_lt_sq hm L).2 hl)]
    · intro l m hl hl2 hm
      have h1 : ¬ elm2ind l m < L ^ 2 := fun hh => absurd ((elm2ind_lt_sq hm L).1 hh) (by omega)
      have h2 := (elm2ind_lt_sq hm resolution).2 hl2
      rw [List.getElem?_append_right (by omega), List.getElem?_replicate, if_pos (by omega)]

/-- padding from bandlimit 1 to 2. -/
example : ∃ g : List ℂ, invertFlmBoosted (fun _ g => g) [5] 1 2 = .ok g ∧ g = [5, 0, 0, 0] := by
  simp [invertFlmBoosted, boostCoefficientResolution, bind, Except.bind, pure, Except.pure, List.replicate]

end Sleplet.Props
