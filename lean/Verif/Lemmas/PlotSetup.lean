import Verif.Model.PlotSetup
import Verif.Lemmas.Plot

/-! The arrays of `_setup_plot`, row by row. -/
namespace Sleplet.Plot

open Integration

theorem mapM_id_ofFn {α : Type} {n : ℕ} (f : Fin n → Except Err α) (g : Fin n → α) (h : ∀ i, f i = .ok (g i)) :
    (List.ofFn f).mapM id = .ok (List.ofFn g) := mapM_ofFn_ok _ _ _ h

/-- a grid with one more value at the end of each row. -/
def withColumn {α : Type} {a b : ℕ} (G : Fin a → Fin b → α) (c : Fin a → α) : List (List α) :=
  List.ofFn fun t => List.ofFn (G t) ++ [c t]

theorem insertColumn_rows {α : Type} {a b : ℕ} (G : Fin a → Fin b → α) (c : Fin a → α) :
    insertColumn b (rows G) (List.ofFn c) = .ok (withColumn G c) := by
  unfold insertColumn
  rw [NumPy.broadcast_of_length_eq _ _ _ (by simp [rows])]
  simp only [rows, zipWith_ofFn, bind, Except.bind]
  apply mapM_id_ofFn
  intro t
  rw [if_pos (by simp), List.take_of_length_le (by simp), List.drop_of_length_le (by simp)]

theorem firstColumn_rows {α : Type} {a b : ℕ} (G : Fin a → Fin (b + 1) → α) :
    firstColumn (rows G) = .ok (List.ofFn fun t => G t 0) := by
  unfold firstColumn rows
  apply mapM_ofFn_ok
  intro t
  rw [List.ofFn_succ]
  rfl

theorem rows_map {α β : Type} {a b : ℕ} (G : Fin a → Fin b → α) (f : α → β) :
    ((rows G).map fun r => r.map f) = rows fun t p => f (G t p) := by
  simp [rows, List.map_ofFn, Function.comp_def]

theorem zipWith_withColumn {α β γ : Type} {a b : ℕ} (op : α → β → γ) (F : Fin a → Fin b → α) (c : Fin a → α) (G : Fin a → Fin b → β)
    (d : Fin a → β) : List.zipWith (fun r s => List.zipWith op r s) (withColumn F c) (withColumn G d) =
      withColumn (fun t p => op (F t p) (G t p)) (fun t => op (c t) (d t)) := by
  unfold withColumn
  rw [zipWith_ofFn]
  congr 1; funext t
  rw [List.zipWith_append (by simp), zipWith_ofFn]; rfl

/-- a grid angle. -/
noncomputable def ang (R j : ℕ) : ℝ := 2 * (j : ℝ) * Real.pi / (2 * (R : ℝ))

theorem gridThetas_rows {b : ℕ} (R : ℕ) (hb : 2 * R = b + 1) :
    gridThetas R = rows fun (t : Fin (R + 1)) (_ : Fin (b + 1)) => ang R t := by
  unfold gridThetas rows thetas
  rw [hb]
  apply List.ext_getElem
  · simp
  · intro i h1 h2
    rw [List.getElem_ofFn, List.getElem_map, List.getElem_map, List.getElem_range]
    exact (List.ofFn_const _ _).symm

theorem gridPhis_rows {b : ℕ} (R : ℕ) (hb : 2 * R = b + 1) :
    gridPhis R = rows fun (_ : Fin (R + 1)) (p : Fin (b + 1)) => ang R p := by
  unfold gridPhis rows phis
  rw [hb]
  apply List.ext_getElem
  · simp
  · intro i h1 h2
    rw [List.getElem_replicate, List.getElem_ofFn]
    apply List.ext_getElem
    · simp
    · intro j h1 h2
      rw [List.getElem_map, List.getElem_ofFn, List.getElem_range]; rfl

/-- the value drawn for a sample. -/
noncomputable def drawn (range : Option (ℝ × ℝ)) (x : ℝ) : Option ℝ :=
  match range with
  | none => some x
  | some q => clip q.1 q.2 x

/-- the radius drawn for a value. -/
noncomputable def radius (scaling : ℝ × ℝ) (vmin vmax : ℝ) (x : Option ℝ) : Option ℝ := do
  let x ← x
  let q ← fdiv vmin (vmax - vmin)
  return (x - q) * scaling.2 + scaling.1

theorem setupFull_ok {b : ℕ} (R : ℕ) (hb : 2 * R = b + 1) (F : Fin (R + 1) → Fin (b + 1) → ℝ) (par : Bool) (s : ℝ × ℝ)
    (range : Option (ℝ × ℝ)) (hr : ∀ q, range = some q → par = true → q.2 ≠ q.1) :
    ∃ mn mx : ℝ, (∃ t p, F t p = mn) ∧ (∃ t p, F t p = mx) ∧ (∀ t p, mn ≤ F t p ∧ F t p ≤ mx) ∧
      setupFull (rows F) R ⟨true, par, s, range.map fun q => [q.1, q.2]⟩ = .ok
        { positions := if par then withColumn
              (fun t p => (radius s ((range.map Prod.fst).getD mn) ((range.map Prod.snd).getD mx) (drawn range (F t p))).map fun r =>
                sphericalToCart r (ang R t) (ang R p))
              (fun t => (radius s ((range.map Prod.fst).getD mn) ((range.map Prod.snd).getD mx) (drawn range (F t 0))).map fun r =>
                sphericalToCart r (ang R t) (ang R 0))
            else withColumn (fun (t : Fin (R + 1)) (p : Fin (b + 1)) => some (s2ToCart (ang R t) (ang R p)))
              (fun (t : Fin (R + 1)) => some (s2ToCart (ang R t) (ang R 0)))
          fPlot := withColumn (fun t p => drawn range (F t p)) (fun t => some (F t 0))
          vmin := (range.map Prod.fst).getD mn
          vmax := (range.map Prod.snd).getD mx } := by
  have hlen := flatten_rows_length F
  have hne : (rows F).flatten ≠ [] := by
    intro h0; rw [h0] at hlen; simp at hlen
  obtain ⟨mx, m1, m2, m3⟩ := exists_amax hne
  obtain ⟨mn, n1, n2, n3⟩ := exists_amin hne
  refine ⟨mn, mx, (mem_flatten_rows F _).1 n2, (mem_flatten_rows F _).1 m2, ?_, ?_⟩
  · intro t p
    have : F t p ∈ (rows F).flatten := (mem_flatten_rows F _).2 ⟨t, p, rfl⟩
    exact ⟨n3 _ this, m3 _ this⟩
  have hc : colourRange (rows F) mn mx (range.map fun q => [q.1, q.2]) =
      .ok ((range.map Prod.fst).getD mn, (range.map Prod.snd).getD mx, rows fun t p => drawn range (F t p)) := by
    cases range with
    | none => simp only [Option.map_none, colourRange, rows_map]; rfl
    | some q => simp only [Option.map_some, colourRange, rows_map]; rfl
  unfold setupFull
  rw [gridThetas_rows R hb, gridPhis_rows R hb]
  rw [if_neg (by rw [hlen, flatten_rows_length]; simp)]
  have hcm : (List.ofFn fun t => F t 0).map some = List.ofFn fun t => some (F t 0) := by
    simp [List.map_ofFn, Function.comp_def]
  cases par with
  | false =>
    simp only [m1, n1, hc, hb, firstColumn_rows, insertColumn_rows, hcm, bind, Except.bind, pure, Except.pure, if_true,
      Bool.false_eq_true, if_false, zipWith_withColumn, Fin.val_zero]
  | true =>
    have hz : ((range.map fun q => [q.1, q.2]).isSome && decide ((range.map Prod.snd).getD mx - (range.map Prod.fst).getD mn = 0))
        = false := by
      cases range with
      | none => rfl
      | some q => simpa [sub_eq_zero] using hr q rfl rfl
    simp only [m1, n1, hc, hb, firstColumn_rows, insertColumn_rows, hcm, radii, hz, rows_map, bind, Except.bind, pure, Except.pure, if_true,
      Bool.false_eq_true, if_false, Fin.val_zero]
    unfold List.zip
    simp only [zipWith_withColumn]
    rfl

end Sleplet.Plot
