import Mathlib.Tactic.Linarith
import Mathlib.Tactic.FieldSimp
import Mathlib.Data.List.OfFn
import Mathlib.Algebra.Order.Group.Abs
import Verif.Lemmas.Integration
import Verif.Model.Plot

/-!
Maximum, minimum and first minimum of a list; rows with a closing entry.
-/
namespace Sleplet.Plot

/-! ### maximum and minimum -/

theorem foldl_max_spec (x : ℝ) (xs : List ℝ) :
    xs.foldl max x ∈ x :: xs ∧ ∀ y ∈ x :: xs, y ≤ xs.foldl max x := by
  induction xs generalizing x with
  | nil => simp
  | cons a xs ih =>
    obtain ⟨h1, h2⟩ := ih (max x a)
    rw [List.foldl_cons]
    constructor
    · rcases List.mem_cons.1 h1 with h | h
      · rw [h]; rcases max_choice x a with h | h <;> rw [h] <;> simp
      · simp [h]
    · intro y hy
      have h3 := h2 (max x a) (by simp)
      rcases List.mem_cons.1 hy with rfl | hy
      · exact (le_max_left _ _).trans h3
      · rcases List.mem_cons.1 hy with rfl | hy
        · exact (le_max_right _ _).trans h3
        · exact h2 y (by simp [hy])

theorem foldl_min_spec (x : ℝ) (xs : List ℝ) :
    xs.foldl min x ∈ x :: xs ∧ ∀ y ∈ x :: xs, xs.foldl min x ≤ y := by
  induction xs generalizing x with
  | nil => simp
  | cons a xs ih =>
    obtain ⟨h1, h2⟩ := ih (min x a)
    rw [List.foldl_cons]
    constructor
    · rcases List.mem_cons.1 h1 with h | h
      · rw [h]; rcases min_choice x a with h | h <;> rw [h] <;> simp
      · simp [h]
    · intro y hy
      have h3 := h2 (min x a) (by simp)
      rcases List.mem_cons.1 hy with rfl | hy
      · exact h3.trans (min_le_left _ _)
      · rcases List.mem_cons.1 hy with rfl | hy
        · exact h3.trans (min_le_right _ _)
        · exact h2 y (by simp [hy])

/-- the maximum is the member that bounds all others. -/
theorem amax_eq {f : List ℝ} {m : ℝ} (hm : m ∈ f) (h : ∀ x ∈ f, x ≤ m) : amax f = .ok m := by
  cases f with
  | nil => simp at hm
  | cons x xs =>
    obtain ⟨h1, h2⟩ := foldl_max_spec x xs
    simp only [amax, Except.ok.injEq]
    exact le_antisymm (h _ h1) (h2 _ hm)

theorem amin_eq {f : List ℝ} {m : ℝ} (hm : m ∈ f) (h : ∀ x ∈ f, m ≤ x) : amin f = .ok m := by
  cases f with
  | nil => simp at hm
  | cons x xs =>
    obtain ⟨h1, h2⟩ := foldl_min_spec x xs
    simp only [amin, Except.ok.injEq]
    exact le_antisymm (h2 _ hm) (h _ h1)

theorem amax_spec {f : List ℝ} {m : ℝ} (h : amax f = .ok m) : m ∈ f ∧ ∀ x ∈ f, x ≤ m := by
  cases f with
  | nil => simp [amax] at h
  | cons x xs =>
    simp only [amax, Except.ok.injEq] at h
    rw [← h]; exact foldl_max_spec x xs

theorem amin_spec {f : List ℝ} {m : ℝ} (h : amin f = .ok m) : m ∈ f ∧ ∀ x ∈ f, m ≤ x := by
  cases f with
  | nil => simp [amin] at h
  | cons x xs =>
    simp only [amin, Except.ok.injEq] at h
    rw [← h]; exact foldl_min_spec x xs

theorem exists_amax {f : List ℝ} (h : f ≠ []) : ∃ m, amax f = .ok m ∧ m ∈ f ∧ ∀ x ∈ f, x ≤ m := by
  cases f with
  | nil => exact absurd rfl h
  | cons x xs => exact ⟨_, rfl, foldl_max_spec x xs⟩

theorem exists_amin {f : List ℝ} (h : f ≠ []) : ∃ m, amin f = .ok m ∧ m ∈ f ∧ ∀ x ∈ f, m ≤ x := by
  cases f with
  | nil => exact absurd rfl h
  | cons x xs => exact ⟨_, rfl, foldl_min_spec x xs⟩

/-! ### first minimum -/

theorem argminFrom_spec (pre : List ℝ) (b : ℝ) (bi : ℕ) (xs : List ℝ) (hb : pre[bi]? = some b)
    (h1 : ∀ (j : ℕ) (y : ℝ), pre[j]? = some y → b ≤ y) (h2 : ∀ (j : ℕ) (y : ℝ), j < bi → pre[j]? = some y → b < y) :
    ∃ m, (pre ++ xs)[argminFrom b bi pre.length xs]? = some m ∧ (∀ (j : ℕ) (y : ℝ), (pre ++ xs)[j]? = some y → m ≤ y) ∧
      ∀ (j : ℕ) (y : ℝ), j < argminFrom b bi pre.length xs → (pre ++ xs)[j]? = some y → m < y := by
  induction xs generalizing pre b bi with
  | nil => exact ⟨b, by simpa [argminFrom] using hb, by simpa using h1, by simpa [argminFrom] using h2⟩
  | cons x xs ih =>
    have hlt : bi < pre.length := (List.getElem?_eq_some_iff.1 hb).1
    unfold argminFrom
    split
    · rename_i hx
      have := ih (pre ++ [x]) x pre.length (by simp) ?_ ?_
      · simpa using this
      · intro j y hj
        rcases lt_trichotomy j pre.length with h | h | h
        · rw [List.getElem?_append_left h] at hj
          exact hx.le.trans (h1 j y hj)
        · rw [h] at hj; simp at hj; exact hj.le
        · rw [List.getElem?_eq_none (by simp; omega)] at hj; simp at hj
      · intro j y hj hy
        rw [List.getElem?_append_left hj] at hy
        exact hx.trans_le (h1 j y hy)
    · rename_i hx
      push Not at hx
      have := ih (pre ++ [x]) b bi (by rw [List.getElem?_append_left hlt]; exact hb) ?_ ?_
      · simpa using this
      · intro j y hj
        rcases lt_trichotomy j pre.length with h | h | h
        · rw [List.getElem?_append_left h] at hj
          exact h1 j y hj
        · rw [h] at hj; simp at hj; rw [← hj]; exact hx
        · rw [List.getElem?_eq_none (by simp; omega)] at hj; simp at hj
      · intro j y hj hy
        rw [List.getElem?_append_left (by omega)] at hy
        exact h2 j y hj hy

theorem argmin_spec {xs : List ℝ} (h : xs ≠ []) :
    ∃ i m, argmin xs = .ok i ∧ xs[i]? = some m ∧ (∀ (j : ℕ) (y : ℝ), xs[j]? = some y → m ≤ y) ∧
      ∀ (j : ℕ) (y : ℝ), j < i → xs[j]? = some y → m < y := by
  cases xs with
  | nil => exact absurd rfl h
  | cons x xs =>
    obtain ⟨m, h1, h2, h3⟩ := argminFrom_spec [x] x 0 xs rfl
      (by intro j y hj; cases j with
          | zero => simp at hj; exact hj.le
          | succ j => simp at hj)
      (by intro j y hj; omega)
    exact ⟨_, m, rfl, h1, h2, h3⟩

/-! ### rows with a closing entry -/

/-- the rows of a field given by its values. -/
def rows {α : Type} {a b : ℕ} (F : Fin a → Fin b → α) : List (List α) := List.ofFn fun t => List.ofFn (F t)

/-- the same with the first value of each row repeated at the end. -/
def closedRows {α : Type} {a b : ℕ} (F : Fin a → Fin (b + 1) → α) : List (List α) :=
  List.ofFn fun t => List.ofFn (F t) ++ [F t 0]

theorem closeRow_ofFn {α : Type} {b : ℕ} (g : Fin (b + 1) → α) :
    closeRow (b + 1) (List.ofFn g) = .ok (List.ofFn g ++ [g 0]) := by
  rw [List.ofFn_succ]
  simp only [closeRow]
  rw [if_pos (by simp), List.take_of_length_le (by simp), List.drop_of_length_le (by simp)]

theorem mapM_ofFn_ok {α β : Type} {n : ℕ} (f : α → Except Err β) (g : Fin n → α) (h : Fin n → β)
    (hf : ∀ i, f (g i) = .ok (h i)) : (List.ofFn g).mapM f = .ok (List.ofFn h) := by
  induction n with
  | zero => rfl
  | succ n ih =>
    rw [List.ofFn_succ, List.ofFn_succ, List.mapM_cons, hf 0, ih _ (fun i => h i.succ) fun i => hf i.succ]
    rfl

theorem closeRows_rows {α : Type} {a b : ℕ} (F : Fin a → Fin (b + 1) → α) :
    closeRows (b + 1) (rows F) = .ok (closedRows F) :=
  mapM_ofFn_ok _ _ _ fun t => closeRow_ofFn (F t)

theorem zipWith_ofFn {α β γ : Type} {n : ℕ} (op : α → β → γ) (f : Fin n → α) (g : Fin n → β) :
    List.zipWith op (List.ofFn f) (List.ofFn g) = List.ofFn fun i => op (f i) (g i) := by
  apply List.ext_getElem
  · simp
  · intro i h1 h2; simp

theorem flatten_rows_length {α : Type} {a b : ℕ} (F : Fin a → Fin b → α) : (rows F).flatten.length = a * b := by
  simp [rows, List.length_flatten, List.map_ofFn, Function.comp_def]

theorem mem_flatten_rows {α : Type} {a b : ℕ} (F : Fin a → Fin b → α) (x : α) :
    x ∈ (rows F).flatten ↔ ∃ t p, F t p = x := by
  simp [rows, List.mem_flatten, List.mem_ofFn]

end Sleplet.Plot

namespace Sleplet.Plot

theorem unflatten_map {α β : Type} (g : α → β) (f : List (List α)) :
    unflatten (f.map List.length) (f.flatten.map g) = f.map fun r => r.map g := by
  induction f with
  | nil => rfl
  | cons r f ih =>
    simp only [List.map_cons, unflatten, List.flatten_cons, List.map_append]
    rw [List.take_left' (by simp), List.drop_left' (by simp), ih]

theorem mapM_id_map_some {α : Type} (l : List α) : (l.map some).mapM (id : Option α → Option α) = some l := by
  induction l with
  | nil => rfl
  | cons a l ih => simp only [List.map_cons, List.mapM_cons, ih, id]; rfl

/-- if every value is finite. -/
theorem mapM_id_eq_some {α : Type} {l : List (Option α)} {r : List α} (h : l.mapM (id : Option α → Option α) = some r) :
    l = r.map some := by
  induction l generalizing r with
  | nil => simp at h; subst h; rfl
  | cons a l ih =>
    rw [List.mapM_cons] at h
    cases a with
    | none => simp at h
    | some a =>
      cases h' : l.mapM (id : Option α → Option α) with
      | none => rw [h'] at h; simp at h
      | some r' =>
        rw [h'] at h
        simp at h
        rw [← h, ih h']; rfl

/-- the minimum is below the maximum unless all values are close to it. -/
theorem amin_lt_amax {f : List ℝ} {mx mn : ℝ} (h1 : amax f = .ok mx) (h2 : amin f = .ok mn)
    (hc : allclose f mx = false) : mn < mx := by
  obtain ⟨a1, a2⟩ := amax_spec h1
  obtain ⟨b1, b2⟩ := amin_spec h2
  by_contra hlt
  push Not at hlt
  have : allclose f mx = true := by
    unfold allclose
    rw [List.all_eq_true]
    intro x hx
    have : x = mx := le_antisymm (a2 x hx) (hlt.trans (b2 x hx))
    subst this
    rw [decide_eq_true_iff, sub_self, abs_zero]
    positivity
  rw [this] at hc; exact Bool.noConfusion hc

end Sleplet.Plot
