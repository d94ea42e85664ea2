import Mathlib.Algebra.Order.BigOperators.Group.Finset
import Mathlib.Analysis.Complex.Basic
import Mathlib.Tactic.Linarith
import Mathlib.Tactic.NormNum
import Verif.Lemmas.Thresholding

/-!
C29 (hard thresholding of a field), C30 (of rows of wavelet coefficients).
-/
namespace Sleplet.Props

open Thresholding

variable {Pix : Type}

/-- C29. A pixel keeps its value if its magnitude reaches `n σ` and becomes 0 otherwise. -/
theorem C29_pixels (f : Pix → ℂ) (sigma : Pix → ℝ) (n : ℤ) (x : Pix) :
    ((n : ℝ) * sigma x ≤ ‖f x‖ → performHardThresholding f sigma n x = f x) ∧
    (‖f x‖ < (n : ℝ) * sigma x → performHardThresholding f sigma n x = 0) := by
  unfold performHardThresholding
  exact ⟨fun h => if_neg (not_lt.2 h), fun h => if_pos h⟩

/-- C29. Thresholding twice is thresholding once; it never increases the energy, for any nonnegative weights; a larger
threshold keeps a subset of the pixels; a threshold of zero keeps everything. -/
theorem C29_laws [Fintype Pix] (f : Pix → ℂ) (sigma : Pix → ℝ) (n : ℤ) :
    performHardThresholding (performHardThresholding f sigma n) sigma n = performHardThresholding f sigma n ∧
    (∀ w : Pix → ℝ, (∀ x, 0 ≤ w x) → ∑ x, w x * ‖performHardThresholding f sigma n x‖ ^ 2 ≤ ∑ x, w x * ‖f x‖ ^ 2) ∧
    (∀ (sigma' : Pix → ℝ) (n' : ℤ), (∀ x, (n : ℝ) * sigma x ≤ (n' : ℝ) * sigma' x) → ∀ x,
      performHardThresholding f sigma' n' x ≠ 0 → performHardThresholding f sigma n x = f x) ∧
    performHardThresholding f sigma 0 = f := by
  refine ⟨?_, ?_, ?_, ?_⟩
  · funext x
    unfold performHardThresholding
    by_cases h : ‖f x‖ < (n : ℝ) * sigma x
    · simp [h]
    · simp [h]
  · intro w hw
    apply Finset.sum_le_sum
    intro x _
    apply mul_le_mul_of_nonneg_left _ (hw x)
    unfold performHardThresholding
    split_ifs
    · simp
    · exact le_rfl
  · intro sigma' n' h x hx
    apply (C29_pixels f sigma n x).1
    by_contra hc
    exact hx ((C29_pixels f sigma' n' x).2 (lt_of_lt_of_le (not_le.1 hc) (h x)))
  · funext x
    unfold performHardThresholding
    rw [if_neg]
    simp

/-- of two pixels with values 1 and 3 and threshold 2 the second survives. -/
example : performHardThresholding (fun b : Bool => if b then (3 : ℂ) else 1) (fun _ => 1) 2 false = 0 ∧
    performHardThresholding (fun b : Bool => if b then (3 : ℂ) else 1) (fun _ => 1) 2 true = 3 := by
  constructor
  · apply (C29_pixels _ _ _ _).2
    simp
  · rw [(C29_pixels _ _ _ _).1]
    · rfl
    · norm_num

/-- C30. `harmonic_hard_thresholding` returns the array it was given; in it the scaling coefficients are untouched and row
`j + 1` is replaced by its thresholded version with `sigma_j[j]`; no other array changes. -/
theorem C30_harmonic (inverse : List ℂ → Except Err (Pix → ℂ)) (forward : (Pix → ℂ) → Except Err (List ℂ))
    (sigma : List (Pix → ℝ)) (n : ℤ) (h : Heap) (r : ℕ) (scaling : List ℂ) (rows new : List (List ℂ))
    (hr : h[r]? = some (scaling :: rows)) (hn : new.length = rows.length)
    (ht : ∀ (j : ℕ) (row t : List ℂ), rows[j]? = some row → new[j]? = some t → ∃ s f, sigma[j]? = some s ∧ inverse row = .ok f ∧
      forward (performHardThresholding f s n) = .ok t ∧ t.length = row.length) :
    harmonic inverse forward sigma n r h = (.ok r, h.set r (scaling :: new)) := by
  have hlt : r < h.length := by
    by_contra hc
    rw [List.getElem?_eq_none (by omega)] at hr
    cases hr
  have hset : h.set r (scaling :: rows) = h := by
    apply List.ext_getElem?
    intro i
    rw [List.getElem?_set]
    split_ifs with h1
    · subst h1; exact hr.symm
    · rfl
  unfold harmonic
  simp only [NumPy.item, hr]
  have := loop_ok inverse forward sigma n 1 r h hlt rows new [] [] [scaling] 0 (by simp) hn (by
    intro i row t h1 h2
    obtain ⟨s, f, hs, hf, hfw, hl⟩ := ht i row t h1 h2
    exact ⟨s, by simpa using hs, f, hf, hfw, hl⟩)
  simp only [List.append_nil, List.singleton_append, hset] at this
  rw [List.range_eq_range']
  simp only [List.drop_succ_cons, List.drop_zero]
  rw [this]
  rfl

/-- C30. The Slepian and mesh versions replace every row `j`, with `sigma_j[j]`, in the array they are given. -/
theorem C30_slepian (inverse : List ℂ → Except Err (Pix → ℂ)) (forward : (Pix → ℂ) → Except Err (List ℂ))
    (sigma : List (Pix → ℝ)) (n : ℤ) (h : Heap) (r : ℕ) (rows new : List (List ℂ))
    (hr : h[r]? = some rows) (hn : new.length = rows.length)
    (ht : ∀ (j : ℕ) (row t : List ℂ), rows[j]? = some row → new[j]? = some t → ∃ s f, sigma[j]? = some s ∧ inverse row = .ok f ∧
      forward (performHardThresholding f s n) = .ok t ∧ t.length = row.length) :
    slepian inverse forward sigma n r h = (.ok r, h.set r new) := by
  have hlt : r < h.length := by
    by_contra hc
    rw [List.getElem?_eq_none (by omega)] at hr
    cases hr
  have hset : h.set r rows = h := by
    apply List.ext_getElem?
    intro i
    rw [List.getElem?_set]
    split_ifs with h1
    · subst h1; exact hr.symm
    · rfl
  unfold slepian
  simp only [NumPy.item, hr]
  have := loop_ok inverse forward sigma n 0 r h hlt rows new [] [] [] 0 (by simp) hn (by
    intro i row t h1 h2
    obtain ⟨s, f, hs, hf, hfw, hl⟩ := ht i row t h1 h2
    exact ⟨s, by simpa using hs, f, hf, hfw, hl⟩)
  simp only [List.append_nil, List.nil_append, hset] at this
  rw [List.range_eq_range', this]
  rfl

/-- C30. With fewer thresholds than rows the call fails with `IndexError`, and the caller's array has been half
thresholded: the rows before the missing threshold are replaced, the others are as before. -/
theorem C30_short_sigma (inverse : List ℂ → Except Err (Pix → ℂ)) (forward : (Pix → ℂ) → Except Err (List ℂ))
    (sigma : List (Pix → ℝ)) (n : ℤ) (h : Heap) (r : ℕ) (done new : List (List ℂ)) (row : List ℂ) (rest : List (List ℂ))
    (f₀ : Pix → ℂ) (hr : h[r]? = some (done ++ row :: rest)) (hn : new.length = done.length)
    (hs : sigma.length = done.length) (hf : inverse row = .ok f₀)
    (ht : ∀ (j : ℕ) (row t : List ℂ), done[j]? = some row → new[j]? = some t → ∃ s f, sigma[j]? = some s ∧ inverse row = .ok f ∧
      forward (performHardThresholding f s n) = .ok t ∧ t.length = row.length) :
    slepian inverse forward sigma n r h = (.error .indexError, h.set r (new ++ row :: rest)) := by
  have hlt : r < h.length := by
    by_contra hc
    rw [List.getElem?_eq_none (by omega)] at hr
    cases hr
  have hset : h.set r (done ++ row :: rest) = h := by
    apply List.ext_getElem?
    intro i
    rw [List.getElem?_set]
    split_ifs with h1
    · subst h1; exact hr.symm
    · rfl
  unfold slepian
  simp only [NumPy.item, hr]
  have := loop_ok inverse forward sigma n 0 r h hlt done new (List.range' done.length (rest.length + 1)) (row :: rest) [] 0
    (by simp) hn (by
    intro i row t h1 h2
    obtain ⟨s, f, hs, hf, hfw, hl⟩ := ht i row t h1 h2
    exact ⟨s, by simpa using hs, f, hf, hfw, hl⟩)
  simp only [List.nil_append, hset] at this
  rw [List.range_eq_range', List.length_append, List.length_cons]
  have hsplit := (List.range'_append_1 (s := 0) (m := done.length) (n := rest.length + 1)).symm
  rw [Nat.zero_add] at hsplit
  rw [hsplit, this, List.range'_succ, loop,
    body_short inverse forward sigma n 0 r done.length _ (new ++ row :: rest) row f₀ (by simp [hlt])
      (by simp [← hn]) (by simp [hs]) hf]

/-- C30. Rows whose length is not that of the result of the forward transform: the call fails with `ValueError` at that
row, with the rows before it replaced — unless the result is a single number, which fills the whole row. -/
theorem C30_row_length (inverse : List ℂ → Except Err (Pix → ℂ)) (forward : (Pix → ℂ) → Except Err (List ℂ))
    (sigma : List (Pix → ℝ)) (n : ℤ) (h : Heap) (r : ℕ) (done new : List (List ℂ)) (row t₀ : List ℂ) (rest : List (List ℂ))
    (f₀ : Pix → ℂ) (s₀ : Pix → ℝ) (hr : h[r]? = some (done ++ row :: rest)) (hn : new.length = done.length)
    (hs : sigma[done.length]? = some s₀) (hf : inverse row = .ok f₀)
    (hw : forward (performHardThresholding f₀ s₀ n) = .ok t₀) (hl : t₀.length ≠ row.length)
    (ht : ∀ (j : ℕ) (row t : List ℂ), done[j]? = some row → new[j]? = some t → ∃ s f, sigma[j]? = some s ∧ inverse row = .ok f ∧
      forward (performHardThresholding f s n) = .ok t ∧ t.length = row.length) :
    (t₀.length ≠ 1 → slepian inverse forward sigma n r h = (.error .valueError, h.set r (new ++ row :: rest))) ∧
    (∀ x : ℂ, t₀ = [x] → rest = [] → slepian inverse forward sigma n r h =
      (.ok r, h.set r (new ++ [List.replicate row.length x]))) := by
  have hlt : r < h.length := by
    by_contra hc
    rw [List.getElem?_eq_none (by omega)] at hr
    cases hr
  have hset : h.set r (done ++ row :: rest) = h := by
    apply List.ext_getElem?
    intro i
    rw [List.getElem?_set]
    split_ifs with h1
    · subst h1; exact hr.symm
    · rfl
  have main : slepian inverse forward sigma n r h = loop inverse forward sigma n 0 r
      (List.range' done.length (rest.length + 1)) (h.set r (new ++ row :: rest)) := by
    unfold slepian
    simp only [NumPy.item, hr]
    have := loop_ok inverse forward sigma n 0 r h hlt done new (List.range' done.length (rest.length + 1)) (row :: rest) [] 0
      (by simp) hn (by
      intro i row t h1 h2
      obtain ⟨s, f, hs, hf, hfw, hl⟩ := ht i row t h1 h2
      exact ⟨s, by simpa using hs, f, hf, hfw, hl⟩)
    simp only [List.nil_append, hset] at this
    rw [List.range_eq_range', List.length_append, List.length_cons]
    have hsplit := (List.range'_append_1 (s := 0) (m := done.length) (n := rest.length + 1)).symm
    rw [Nat.zero_add] at hsplit
    rw [hsplit, this]
  have hb : body inverse forward sigma n 0 r (h.set r (new ++ row :: rest)) done.length =
      (assignRow row.length t₀).map fun t => h.set r (new ++ t :: rest) := by
    have e1 : (h.set r (new ++ row :: rest))[r]? = some (new ++ row :: rest) := by simp [hlt]
    have e2 : (new ++ row :: rest)[0 + done.length]? = some row := by simp [← hn]
    have e3 : ∀ t : List ℂ, (new ++ row :: rest).set (0 + done.length) t = new ++ t :: rest := by
      intro t
      rw [Nat.zero_add, ← hn, List.set_append_right _ _ le_rfl]
      simp
    simp only [body, NumPy.item, e1, e2, hs, hf, hw, bind, Except.bind, pure, Except.pure]
    cases assignRow row.length t₀ with
    | error e => rfl
    | ok t => simp only [Except.map, e3, List.set_set]
  constructor
  · intro h1
    have ha : assignRow row.length t₀ = .error .valueError := by
      unfold assignRow
      rw [if_neg hl]
      match t₀, h1 with
      | [], _ => rfl
      | [x], h1 => exact absurd rfl h1
      | _ :: _ :: _, _ => rfl
    rw [main, List.range'_succ, loop, hb, ha]
    rfl
  · intro x hx hrest
    subst hx hrest
    have ha : assignRow row.length [x] = .ok (List.replicate row.length x) := by
      unfold assignRow
      rw [if_neg hl]
    rw [main, List.length_nil, List.range'_succ, loop, hb, ha]
    rfl

/-- a row of three numbers and a region with one function: all three entries become the one coefficient; and with a
transform that gives two numbers the call fails. -/
example : slepian (Pix := Unit) (fun row => .ok fun _ => row.getD 0 0) (fun f => .ok [f ()]) [fun _ => 0] 2 0
    [[[5, 6, 7]]] = (.ok 0, [[[5, 5, 5]]]) ∧
    slepian (Pix := Unit) (fun row => .ok fun _ => row.getD 0 0) (fun f => .ok [f (), f ()]) [fun _ => 0] 2 0
    [[[5, 6, 7]]] = (.error .valueError, [[[5, 6, 7]]]) := by
  have e : performHardThresholding (fun _ : Unit => ([5, 6, 7] : List ℂ).getD 0 0) (fun _ => 0) 2 () = 5 :=
    (C29_pixels _ _ _ _).1 (by norm_num)
  constructor
  · exact (C30_row_length (Pix := Unit) (fun row => .ok fun _ => row.getD 0 0) (fun f => .ok [f ()]) [fun _ => 0] 2
      [[[5, 6, 7]]] 0 [] [] [5, 6, 7] [5] [] _ (fun _ => 0) rfl rfl rfl rfl (by rw [e]) (by simp) (by simp)).2 5 rfl rfl
  · exact (C30_row_length (Pix := Unit) (fun row => .ok fun _ => row.getD 0 0) (fun f => .ok [f (), f ()]) [fun _ => 0] 2
      [[[5, 6, 7]]] 0 [] [] [5, 6, 7] [5, 5] [] _ (fun _ => 0) rfl rfl rfl rfl (by rw [e]) (by simp) (by simp)).1 (by simp)

/-- one scaling row and one wavelet row on a grid of one pixel: the row 1 falls below the threshold 2. -/
example : harmonic (Pix := Unit) (fun row => .ok fun _ => row.getD 0 0) (fun f => .ok [f ()]) [fun _ => 1] 2 0
    [[[5], [1]], [[7]]] = (.ok 0, [[[5], [0]], [[7]]]) := by
  rw [C30_harmonic (fun row => .ok fun _ => row.getD 0 0) (fun f => .ok [f ()]) [fun _ => 1] 2 _ 0 [5] [[1]] [[0]] rfl rfl]
  · rfl
  · intro j row t h1 h2
    match j with
    | 0 =>
      simp only [List.getElem?_cons_zero, Option.some.injEq] at h1 h2
      subst h1 h2
      refine ⟨_, _, rfl, rfl, ?_, rfl⟩
      have := (C29_pixels (fun _ : Unit => (1 : ℂ)) (fun _ => 1) 2 ()).2 (by norm_num)
      simp [this]
    | j + 1 => simp at h1

end Sleplet.Props
