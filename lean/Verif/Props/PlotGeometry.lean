import Verif.Lemmas.PlotSetup
import Verif.Props.Plot
import Verif.Spec.Figure
import Mathlib.Analysis.SpecialFunctions.Trigonometric.Angle

/-! C96: where figures put the samples and how they colour them.  C97: the colour range and the parametric radius. -/
namespace Sleplet.Props

open Plot Spec

theorem grid_eq_rows {α : Type} {a b : ℕ} (F : ℕ → ℕ → α) : grid a b F = rows fun (t : Fin a) (p : Fin b) => F t p := by
  unfold grid rows
  apply List.ext_getElem
  · simp
  · intro i h1 h2
    rw [List.getElem_map, List.getElem_ofFn, List.getElem_range]
    apply List.ext_getElem
    · simp
    · intro j h1 h2
      rw [List.getElem_map, List.getElem_ofFn, List.getElem_range]

theorem entry_withColumn {α : Type} {a b : ℕ} (G : Fin a → Fin b → α) (c : Fin a → α) {t p : ℕ} (ht : t < a) :
    entry (withColumn G c) t p = if h : p < b then some (G ⟨t, ht⟩ ⟨p, h⟩) else if p = b then some (c ⟨t, ht⟩) else none := by
  unfold entry withColumn
  rw [List.getElem?_eq_getElem (by simpa using ht), List.getElem_ofFn, Option.bind_some]
  by_cases h : p < b
  · rw [dif_pos h, List.getElem?_append_left (by simpa using h), List.getElem?_ofFn, dif_pos h]
  · rw [dif_neg h, List.getElem?_append_right (by simpa using h)]
    by_cases h2 : p = b
    · subst h2; simp
    · rw [if_neg h2, List.getElem?_eq_none]
      simp only [List.length_ofFn, List.length_cons, List.length_nil]; omega

theorem withColumn_length {α : Type} {a b : ℕ} (G : Fin a → Fin b → α) (c : Fin a → α) :
    (withColumn G c).length = a ∧ ∀ r ∈ withColumn G c, r.length = b + 1 := by
  refine ⟨by simp [withColumn], ?_⟩
  intro r hr
  obtain ⟨t, rfl⟩ := List.mem_ofFn.1 hr
  simp

theorem ang_eq (R j : ℕ) : ang R j = Real.pi * j / R := by
  unfold ang
  rw [mul_assoc, mul_div_mul_left _ _ two_ne_zero, mul_comm]

theorem ang_full {R : ℕ} (hR : 0 < R) : Real.pi * ((2 * R : ℕ) : ℝ) / R = 2 * Real.pi := by
  have : (R : ℝ) ≠ 0 := by positivity
  push_cast; field_simp

/-- C96. A figure on the sphere puts the sample in row `t` and column `p` at colatitude `πt/R` and longitude `πp/R`, colours it
with the value of the field there, and repeats the first meridian, in position and colour, as the last; the range of values
it reports is attained. -/
theorem C96_sphere_figure {R : ℕ} (hR : 0 < R) (F : ℕ → ℕ → ℝ) :
    ∃ S, setupFull (grid (R + 1) (2 * R) F) R {} = .ok S ∧
      S.positions.length = R + 1 ∧ (∀ r ∈ S.positions, r.length = 2 * R + 1) ∧
      S.fPlot.length = R + 1 ∧ (∀ r ∈ S.fPlot, r.length = 2 * R + 1) ∧
      (∀ t ≤ R, ∀ p ≤ 2 * R, entry S.positions t p = some (some (unit (Real.pi * t / R) (Real.pi * p / R))) ∧
        entry S.fPlot t p = some (some (F t (p % (2 * R))))) ∧
      (∃ t ≤ R, ∃ p < 2 * R, F t p = S.vmin) ∧ (∃ t ≤ R, ∃ p < 2 * R, F t p = S.vmax) ∧
      (∀ t ≤ R, ∀ p < 2 * R, S.vmin ≤ F t p ∧ F t p ≤ S.vmax) ∧
      setupPlot (grid (R + 1) (2 * R) F) R = .ok ⟨S.fPlot.map fun r => r.map fun x => x.getD 0, S.vmin, S.vmax⟩ := by
  obtain ⟨b, hb⟩ : ∃ b, 2 * R = b + 1 := ⟨2 * R - 1, by omega⟩
  obtain ⟨mn, mx, h1, h2, h3, h4⟩ := setupFull_ok R hb (fun t p => F t p) false (0, 1 / 2) none (fun q h => by cases h)
  rw [show grid (R + 1) (2 * R) F = rows fun (t : Fin (R + 1)) (p : Fin (b + 1)) => F t p from by rw [hb, grid_eq_rows]]
  refine ⟨_, h4, ?_⟩
  dsimp only
  rw [if_neg Bool.false_ne_true]
  refine ⟨(withColumn_length _ _).1, ?_, (withColumn_length _ _).1, ?_, ?_, ?_, ?_, ?_, ?_⟩
  · rw [hb]; exact (withColumn_length _ _).2
  · rw [hb]; exact (withColumn_length _ _).2
  · intro t ht p hp
    rw [entry_withColumn _ _ (Nat.lt_succ_of_le ht), entry_withColumn _ _ (Nat.lt_succ_of_le ht)]
    by_cases h : p < b + 1
    · rw [dif_pos h, dif_pos h, Nat.mod_eq_of_lt (by omega)]
      exact ⟨by rw [ang_eq, ang_eq]; rfl, rfl⟩
    · have hpb : p = b + 1 := by omega
      rw [dif_neg h, if_pos hpb, dif_neg h, if_pos hpb]
      have h2R : p = 2 * R := by omega
      rw [h2R, Nat.mod_self, ang_full hR, ang_eq, ang_eq]
      refine ⟨?_, rfl⟩
      simp [s2ToCart, unit]
  · obtain ⟨t, p, h⟩ := h1
    exact ⟨t, Nat.le_of_lt_succ t.2, p, by rw [hb]; exact p.2, h⟩
  · obtain ⟨t, p, h⟩ := h2
    exact ⟨t, Nat.le_of_lt_succ t.2, p, by rw [hb]; exact p.2, h⟩
  · intro t ht p hp
    exact h3 ⟨t, Nat.lt_succ_of_le ht⟩ ⟨p, by omega⟩
  · obtain ⟨S, hS, c1, c2, c3, c4⟩ := C43_closing R hb (fun t p => F t p)
    rw [hS]
    obtain ⟨t2, p2, c2⟩ := c2; obtain ⟨t3, p3, c3⟩ := c3
    obtain ⟨t1, p1, h1⟩ := h1; obtain ⟨t0, p0, h2⟩ := h2
    have e1 : S.vmin = mn := le_antisymm (h1 ▸ (c4 t1 p1).1) (c2 ▸ (h3 t2 p2).1)
    have e2 : S.vmax = mx := le_antisymm (c3 ▸ (h3 t3 p3).2) (h2 ▸ (c4 t0 p0).2)
    obtain ⟨fp, vn, vx⟩ := S
    dsimp only at c1 e1 e2
    rw [c1, e1, e2]
    simp only [closedRows, withColumn, List.map_ofFn, Function.comp_def, drawn, List.map_append, Option.getD_some, Option.map_none,
      Option.getD_none, List.map_cons, List.map_nil]

example : ∃ S, setupFull (grid 3 4 fun t p => (t : ℝ) + 10 * p) 2 {} = .ok S ∧ entry S.fPlot 1 4 = some (some (1 + 10 * 0)) := by
  obtain ⟨S, h1, -, -, -, -, h2, -⟩ := C96_sphere_figure (R := 2) (by norm_num) fun t p => (t : ℝ) + 10 * p
  refine ⟨S, h1, ?_⟩
  rw [(h2 1 (by norm_num) 4 (by norm_num)).2]; norm_num

/-- C96. The drawn surface closes up and nowhere else touches itself: two grid positions are the same point exactly when they
are in the same row and in the same column (up to the repeated one) or both at the same pole. -/
theorem C96_surface_embedded {R : ℕ} (hR : 0 < R) {t p t' p' : ℕ} (ht : t ≤ R) (ht' : t' ≤ R) :
    unit (Real.pi * t / R) (Real.pi * p / R) = unit (Real.pi * t' / R) (Real.pi * p' / R) ↔
      t = t' ∧ (t = 0 ∨ t = R ∨ p % (2 * R) = p' % (2 * R)) := by
  have hR0 : (0 : ℝ) < R := by positivity
  have hpi := Real.pi_pos
  have mem : ∀ s : ℕ, s ≤ R → Real.pi * s / R ∈ Set.Icc 0 Real.pi := by
    intro s hs
    have : (s : ℝ) ≤ R := by exact_mod_cast hs
    constructor
    · positivity
    · rw [div_le_iff₀ hR0]; nlinarith
  have per : ∀ q q' : ℕ, (Real.cos (Real.pi * q / R) = Real.cos (Real.pi * q' / R) ∧
      Real.sin (Real.pi * q / R) = Real.sin (Real.pi * q' / R)) ↔ q % (2 * R) = q' % (2 * R) := by
    intro q q'
    have : (((Real.pi * q / R : ℝ)) : Real.Angle) = ((Real.pi * q' / R : ℝ) : Real.Angle) ↔ q % (2 * R) = q' % (2 * R) := by
      rw [Real.Angle.angle_eq_iff_two_pi_dvd_sub]
      constructor
      · rintro ⟨k, hk⟩
        have h1 : ((q : ℤ) : ℝ) - ((q' : ℤ) : ℝ) = ((2 * R * k : ℤ) : ℝ) := by
          push_cast
          field_simp at hk
          nlinarith [hk]
        have h2 : (q : ℤ) - q' = 2 * R * k := by exact_mod_cast h1
        have h3 : (q : ℤ) % ((2 * R : ℕ) : ℤ) = (q' : ℤ) % ((2 * R : ℕ) : ℤ) := by
          rw [Int.emod_eq_emod_iff_emod_sub_eq_zero, h2]
          push_cast
          exact Int.mul_emod_right _ _
        exact_mod_cast h3
      · intro h
        have e1 : (q : ℝ) = (q % (2 * R) : ℕ) + 2 * R * (q / (2 * R) : ℕ) := by exact_mod_cast (Nat.mod_add_div q (2 * R)).symm
        have e2 : (q' : ℝ) = (q' % (2 * R) : ℕ) + 2 * R * (q' / (2 * R) : ℕ) := by exact_mod_cast (Nat.mod_add_div q' (2 * R)).symm
        generalize q / (2 * R) = k at e1
        generalize q' / (2 * R) = k' at e2
        refine ⟨(k : ℤ) - k', ?_⟩
        rw [e1, e2, h]
        push_cast
        field_simp
        ring
    rw [← this]
    constructor
    · rintro ⟨h1, h2⟩
      exact Real.Angle.cos_sin_inj h1 h2
    · intro h
      have h1 := congrArg Real.Angle.cos h
      have h2 := congrArg Real.Angle.sin h
      simpa using ⟨h1, h2⟩
  constructor
  · intro h
    have h3 : Real.cos (Real.pi * t / R) = Real.cos (Real.pi * t' / R) := congrArg (fun v => v.2.2) h
    have hang := Real.injOn_cos (mem t ht) (mem t' ht') h3
    have htt : t = t' := by
      field_simp at hang
      exact_mod_cast hang
    refine ⟨htt, ?_⟩
    by_cases h0 : t = 0
    · exact Or.inl h0
    by_cases hRt : t = R
    · exact Or.inr (Or.inl hRt)
    right; right
    have hs : Real.sin (Real.pi * t / R) ≠ 0 := by
      apply ne_of_gt
      apply Real.sin_pos_of_pos_of_lt_pi
      · have : (0 : ℝ) < t := by exact_mod_cast Nat.pos_of_ne_zero h0
        positivity
      · have : (t : ℝ) < R := by exact_mod_cast lt_of_le_of_ne ht hRt
        rw [div_lt_iff₀ hR0]; nlinarith
    have h1 : Real.sin (Real.pi * t / R) * Real.cos (Real.pi * p / R) = Real.sin (Real.pi * t' / R) * Real.cos (Real.pi * p' / R) :=
      congrArg (fun v => v.1) h
    have h2 : Real.sin (Real.pi * t / R) * Real.sin (Real.pi * p / R) = Real.sin (Real.pi * t' / R) * Real.sin (Real.pi * p' / R) :=
      congrArg (fun v => v.2.1) h
    rw [← htt] at h1 h2
    exact (per p p').1 ⟨mul_left_cancel₀ hs h1, mul_left_cancel₀ hs h2⟩
  · rintro ⟨rfl, h | h | h⟩
    · subst h; simp [unit]
    · subst h
      have : Real.pi * (t : ℝ) / t = Real.pi := by field_simp
      simp [unit, this]
    · obtain ⟨h1, h2⟩ := (per p p').2 h
      simp only [unit, h1, h2]

example : unit (Real.pi * (1 : ℕ) / (2 : ℕ)) (Real.pi * (0 : ℕ) / (2 : ℕ)) = unit (Real.pi * (1 : ℕ) / (2 : ℕ)) (Real.pi * (4 : ℕ) / (2 : ℕ)) ∧
    unit (Real.pi * (1 : ℕ) / (2 : ℕ)) (Real.pi * (0 : ℕ) / (2 : ℕ)) ≠ unit (Real.pi * (1 : ℕ) / (2 : ℕ)) (Real.pi * (3 : ℕ) / (2 : ℕ)) :=
  ⟨(C96_surface_embedded (by norm_num) (by norm_num) (by norm_num)).2 (by norm_num),
    fun h => absurd ((C96_surface_embedded (by norm_num) (by norm_num) (by norm_num)).1 h) (by norm_num)⟩

/-- C96. A field of another size is refused, whatever the options. -/
theorem C96_wrong_size (R : ℕ) (f : List (List ℝ)) (a : SetupArgs) (h : f.flatten.length ≠ (R + 1) * (2 * R)) :
    setupFull f R a = .error .attributeError := by
  unfold setupFull
  have : (gridThetas R).flatten.length = (R + 1) * (2 * R) := by
    unfold gridThetas Integration.thetas
    simp [List.length_flatten, Function.comp_def]
  dsimp only
  rw [if_pos (by rw [this]; exact Ne.symm h)]

example : setupFull [[1, 2], [3, 4]] 2 {} = .error .attributeError := C96_wrong_size _ _ _ (by simp)

theorem firstColumn_ok {f : List (List ℝ)} (h : ∀ r ∈ f, r ≠ []) : ∃ c, firstColumn f = .ok c ∧ c.length = f.length := by
  induction f with
  | nil => exact ⟨[], rfl, rfl⟩
  | cons r f ih =>
    obtain ⟨c, h1, h2⟩ := ih fun r hr => h r (List.mem_cons_of_mem _ hr)
    rcases r with _ | ⟨x, xs⟩
    · exact absurd rfl (h _ List.mem_cons_self)
    · refine ⟨x :: c, ?_, by simp [h2]⟩
      unfold firstColumn at h1 ⊢
      rw [List.mapM_cons, h1]
      rfl

theorem insertColumn_short {α : Type} {n : ℕ} {f : List (List α)} {c : List α} (hne : f ≠ []) (hc : c.length = f.length)
    (h : ∀ r ∈ f, r.length < n) : insertColumn n f c = .error .indexError := by
  unfold insertColumn
  rcases f with _ | ⟨r, f⟩
  · exact absurd rfl hne
  · rcases c with _ | ⟨x, c⟩
    · simp at hc
    · have hr := h r List.mem_cons_self
      rw [NumPy.broadcast_of_length_eq _ _ _ hc.symm]
      simp only [bind, Except.bind, List.zipWith_cons_cons, List.mapM_cons, id, if_neg (by omega : ¬ n ≤ r.length)]

/-- C96. A field with the right number of samples in rows that are too short (a transposed one, say) is refused when the surface is
closed, parametric or not. -/
theorem C96_short_rows (R : ℕ) (hR : 0 < R) (f : List (List ℝ)) (a : SetupArgs) (ha : a.close = true) (hr : a.colourRange = none)
    (h : f.flatten.length = (R + 1) * (2 * R)) (hrow : ∀ r ∈ f, r ≠ [] ∧ r.length < 2 * R) :
    setupFull f R a = .error .indexError := by
  have hpos : 0 < (R + 1) * (2 * R) := by positivity
  have hne : f.flatten ≠ [] := by
    intro h0
    rw [h0] at h
    simp only [List.length_nil] at h
    omega
  have hf : f ≠ [] := by rintro rfl; exact hne rfl
  obtain ⟨mx, m1, -, -⟩ := exists_amax hne
  obtain ⟨mn, n1, -, -⟩ := exists_amin hne
  obtain ⟨c, c1, c2⟩ := firstColumn_ok fun r h => (hrow r h).1
  have hlen : (gridThetas R).flatten.length = (R + 1) * (2 * R) := by
    unfold gridThetas Integration.thetas
    simp [List.length_flatten, Function.comp_def]
  have hins : insertColumn (2 * R) (f.map fun r => r.map some) (c.map some) = .error .indexError := by
    refine insertColumn_short (by simpa using hf) (by simp [c2]) ?_
    intro r hm
    obtain ⟨q, hq, rfl⟩ := List.mem_map.1 hm
    simpa using (hrow q hq).2
  unfold setupFull
  dsimp only
  rw [if_neg (by rw [hlen, h]; simp)]
  cases hp : a.parametric <;>
    simp only [m1, n1, hr, ha, colourRange, radii, c1, hins, bind, Except.bind, if_true, Bool.false_eq_true, if_false, Option.isSome_none,
      Bool.false_and]

/-- the transposed field of resolution two, four rows of three samples. -/
example : setupFull [[0, 1, 2], [3, 4, 5], [6, 7, 8], [9, 10, 11]] 2 { parametric := true } = .error .indexError :=
  C96_short_rows 2 (by decide) _ _ rfl rfl rfl (by simp)

/-- C96. The colour scale.  A figure of raw values has a scale symmetric about zero whose three ticks are its ends and its middle;
without an amplitude it is the smallest one that has every value of the field on it, and with one it is the interval of that
amplitude.  A figure of normalised values has the scale from 0 to 1 with middle ½ and no forced ticks. -/
theorem C96_colour_scale (fmin fmax : ℝ) (h : fmin ≤ fmax) (amplitude : Option ℝ) :
    (let c := colourScale (createTickMark fmin fmax amplitude) false
     c.cmin = -c.cmax ∧ c.cmid = 0 ∧
      (∃ q, c.ticks = some q ∧ q.1 = c.cmin ∧ q.1 + q.2 = c.cmid ∧ q.1 + 2 * q.2 = c.cmax) ∧
      (amplitude = none → (∀ x, fmin ≤ x → x ≤ fmax → c.cmin ≤ x ∧ x ≤ c.cmax) ∧
        ∀ m, (∀ x, fmin ≤ x → x ≤ fmax → -m ≤ x ∧ x ≤ m) → c.cmax ≤ m) ∧
      ∀ a, amplitude = some a → c.cmax = a) ∧
    (let c := colourScale (createTickMark fmin fmax amplitude) true
     c.cmin = 0 ∧ c.cmid = 1 / 2 ∧ c.cmax = 1 ∧ c.ticks = none) := by
  refine ⟨⟨rfl, rfl, ⟨_, rfl, rfl, ?_, ?_⟩, ?_, ?_⟩, rfl, rfl, rfl, rfl⟩
  · simp [colourScale]
  · simp [colourScale]; ring
  · rintro rfl
    refine ⟨fun x h1 h2 => ?_, fun m hm => ?_⟩
    · simp only [colourScale, createTickMark, Bool.false_eq_true, if_false]
      have h3 := neg_abs_le fmin
      have h4 := le_abs_self fmax
      have h5 := le_max_left |fmin| |fmax|
      have h6 := le_max_right |fmin| |fmax|
      constructor <;> linarith
    · simp only [colourScale, createTickMark, Bool.false_eq_true, if_false]
      exact max_le (abs_le.2 (hm fmin le_rfl h)) (abs_le.2 (hm fmax h le_rfl))
  · rintro a rfl
    rfl

example : (colourScale (createTickMark (-3) 2 none) false).cmax = 3 := by
  simp [colourScale, createTickMark]; norm_num

/-- C96. A figure of a mesh shows its mirror image: distances are kept, orientation is reversed, nothing else is moved. -/
theorem C96_mesh_mirrored (u v w : ℝ × ℝ × ℝ) :
    distSq3 (drawnVertex u) (drawnVertex v) = distSq3 u v ∧
      det3 (drawnVertex u) (drawnVertex v) (drawnVertex w) = -det3 u v w ∧ drawnVertex (drawnVertex u) = u := by
  refine ⟨?_, ?_, rfl⟩
  · simp only [distSq3, drawnVertex]; ring
  · simp only [det3, drawnVertex]; ring

example : det3 (1, 0, 0) (0, 1, 0) (0, 0, 1) = 1 := by norm_num [det3]

/-- C96. The camera looks from the direction asked for, nearer by the factor of the zoom; a zoom of 0 raises. -/
theorem C96_camera (x y z zoom : ℝ) :
    (zoom ≠ 0 → ∃ e : ℝ × ℝ × ℝ, cameraEye x y z zoom = .ok e ∧ (zoom * e.1, zoom * e.2.1, zoom * e.2.2) = (x, y, z)) ∧
      (zoom = 0 → cameraEye x y z zoom = .error .zeroDivisionError) := by
  constructor
  · intro h
    refine ⟨_, if_neg h, ?_⟩
    simp only [mul_div_cancel₀ _ h]
  · intro h
    exact if_pos h

example : (cameraEye (-1) 1 1 2).toOption.isSome = true := by norm_num [cameraEye, Except.toOption]

theorem clip_eq {lo hi x : ℝ} (h : lo ≤ hi) (hu : sphereUnseen < lo) : clip lo hi x = some (max lo (min hi x)) := by
  have e : (if (if x < lo then lo else x) > hi then hi else if x < lo then lo else x) = max lo (min hi x) := by
    by_cases h1 : x < lo
    · rw [if_pos h1, if_neg (not_lt.2 h), min_eq_right (by linarith), max_eq_left h1.le]
    · rw [if_neg h1]
      by_cases h2 : x > hi
      · rw [if_pos h2, min_eq_left (le_of_lt h2), max_eq_right h]
      · rw [if_neg h2, min_eq_right (not_lt.1 h2), max_eq_right (not_lt.1 h1)]
  unfold clip
  dsimp only
  rw [e, if_neg]
  exact fun h0 => absurd (le_max_left lo (min hi x)) (by rw [h0]; exact not_le.2 hu)

/-- the setup with a colour range, entry by entry. -/
theorem setup_range {R : ℕ} (hR : 0 < R) (F : ℕ → ℕ → ℝ) (lo hi : ℝ) :
    ∃ S, setupFull (grid (R + 1) (2 * R) F) R { colourRange := some [lo, hi] } = .ok S ∧ S.vmin = lo ∧ S.vmax = hi ∧
      (∀ t ≤ R, ∀ p ≤ 2 * R, entry S.positions t p = some (some (unit (Real.pi * t / R) (Real.pi * p / R)))) ∧
      (∀ t ≤ R, ∀ p < 2 * R, entry S.fPlot t p = some (clip lo hi (F t p))) ∧
      ∀ t ≤ R, entry S.fPlot t (2 * R) = some (some (F t 0)) := by
  obtain ⟨b, hb⟩ : ∃ b, 2 * R = b + 1 := ⟨2 * R - 1, by omega⟩
  obtain ⟨mn, mx, -, -, -, h4⟩ := setupFull_ok R hb (fun t p => F t p) false (0, 1 / 2) (some (lo, hi)) (fun q _ h => by cases h)
  rw [show grid (R + 1) (2 * R) F = rows fun (t : Fin (R + 1)) (p : Fin (b + 1)) => F t p from by rw [hb, grid_eq_rows]]
  refine ⟨_, h4, rfl, rfl, ?_, ?_, ?_⟩
  · intro t ht p hp
    dsimp only
    rw [if_neg Bool.false_ne_true, entry_withColumn _ _ (Nat.lt_succ_of_le ht)]
    by_cases h : p < b + 1
    · rw [dif_pos h, ang_eq, ang_eq]; rfl
    · have hpb : p = b + 1 := by omega
      rw [dif_neg h, if_pos hpb]
      have h2R : p = 2 * R := by omega
      rw [h2R, ang_full hR, ang_eq, ang_eq]
      simp [s2ToCart, unit]
  · intro t ht p hp
    dsimp only
    rw [entry_withColumn _ _ (Nat.lt_succ_of_le ht), dif_pos (by omega)]
    rfl
  · intro t ht
    dsimp only
    rw [entry_withColumn _ _ (Nat.lt_succ_of_le ht), dif_neg (by omega), if_pos hb]
    rfl

/-- C97, the part that holds. With a colour range above the 'unseen' value every sample of the field keeps its place and shows its value
clipped to the range, the range is reported, and the closing meridian repeats the first where the first is within the range. -/
theorem C97_colour_range_partial {R : ℕ} (hR : 0 < R) (F : ℕ → ℕ → ℝ) {lo hi : ℝ} (h : lo ≤ hi) (hu : sphereUnseen < lo) :
    ∃ S, setupFull (grid (R + 1) (2 * R) F) R { colourRange := some [lo, hi] } = .ok S ∧ S.vmin = lo ∧ S.vmax = hi ∧
      (∀ t ≤ R, ∀ p ≤ 2 * R, entry S.positions t p = some (some (unit (Real.pi * t / R) (Real.pi * p / R)))) ∧
      (∀ t ≤ R, ∀ p < 2 * R, entry S.fPlot t p = some (some (max lo (min hi (F t p))))) ∧
      ∀ t ≤ R, (entry S.fPlot t (2 * R) = entry S.fPlot t 0 ↔ lo ≤ F t 0 ∧ F t 0 ≤ hi) := by
  obtain ⟨S, h1, h2, h3, h4, h5, h6⟩ := setup_range hR F lo hi
  refine ⟨S, h1, h2, h3, h4, fun t ht p hp => by rw [h5 t ht p hp, clip_eq h hu], fun t ht => ?_⟩
  rw [h6 t ht, h5 t ht 0 (by omega), clip_eq h hu, Option.some_inj, Option.some_inj]
  constructor
  · intro e
    rw [e]
    exact ⟨le_max_left _ _, max_le h (min_le_left _ _)⟩
  · rintro ⟨e1, e2⟩
    rw [min_eq_right e2, max_eq_right e1]

theorem sphereUnseen_lt_zero : sphereUnseen < 0 := by unfold sphereUnseen; norm_num

example : ∃ S, setupFull (grid 3 4 fun t p => (t : ℝ) + 10 * p) 2 { colourRange := some [0, 5] } = .ok S ∧
    entry S.fPlot 1 1 = some (some 5) := by
  obtain ⟨S, h1, -, -, -, h2, -⟩ := C97_colour_range_partial (R := 2) (by norm_num) (fun t p => (t : ℝ) + 10 * p) (lo := 0) (hi := 5)
    (by norm_num) sphereUnseen_lt_zero
  refine ⟨S, h1, ?_⟩
  rw [h2 1 (by norm_num) 1 (by norm_num)]; norm_num

/-- C97, violated: the closing meridian is not clipped, so that with a colour range the same points are coloured in two ways. -/
theorem C97_seam_violation {R : ℕ} (hR : 0 < R) :
    ∃ S, setupFull (grid (R + 1) (2 * R) fun _ _ => 7) R { colourRange := some [0, 1] } = .ok S ∧
      ∀ t ≤ R, entry S.positions t (2 * R) = entry S.positions t 0 ∧ entry S.fPlot t 0 = some (some 1) ∧
        entry S.fPlot t (2 * R) = some (some 7) := by
  obtain ⟨S, h1, -, -, h4, h5, h6⟩ := setup_range hR (fun _ _ => 7) 0 1
  refine ⟨S, h1, fun t ht => ⟨?_, ?_, h6 t ht⟩⟩
  · rw [h4 t ht _ le_rfl, h4 t ht 0 (by omega), ang_full hR]
    simp [unit]
  · rw [h5 t ht 0 (by omega), clip_eq (by norm_num) sphereUnseen_lt_zero]
    norm_num

example : ∃ S, setupFull (grid 3 4 fun _ _ => 7) 2 { colourRange := some [0, 1] } = .ok S ∧ entry S.fPlot 1 0 ≠ entry S.fPlot 1 4 := by
  obtain ⟨S, h1, h2⟩ := C97_seam_violation (R := 2) (by norm_num)
  refine ⟨S, h1, ?_⟩
  obtain ⟨-, e1, e2⟩ := h2 1 (by norm_num)
  rw [e1, e2]; norm_num

/-- C97, violated: the samples marked as unseen are raised to the lower end of the colour range before they are looked for, so that they are
coloured like the smallest value instead of being left out. -/
theorem C97_unseen_violation {R : ℕ} (hR : 0 < R) {lo hi : ℝ} (h : lo ≤ hi) (hu : sphereUnseen < lo) :
    ∃ S, setupFull (grid (R + 1) (2 * R) fun _ _ => sphereUnseen) R { colourRange := some [lo, hi] } = .ok S ∧
      ∀ t ≤ R, ∀ p < 2 * R, entry S.fPlot t p = some (some lo) := by
  obtain ⟨S, h1, -, -, -, h5, -⟩ := C97_colour_range_partial hR (fun _ _ => sphereUnseen) h hu
  refine ⟨S, h1, fun t ht p hp => ?_⟩
  rw [h5 t ht p hp, min_eq_right (by linarith), max_eq_left hu.le]

example : sphereUnseen < -1 ∧ (-1 : ℝ) ≤ 1 := by unfold sphereUnseen; norm_num

/-- C97. A parametric figure: each sample is drawn at its own angles, at the radius `(f - vmin / (vmax - vmin)) s₁ + s₀`; a constant field
gets no radius at all. -/
theorem C97_parametric {R : ℕ} (hR : 0 < R) (F : ℕ → ℕ → ℝ) (s0 s1 : ℝ) :
    ∃ S, setupFull (grid (R + 1) (2 * R) F) R { parametric := true, scaling := (s0, s1) } = .ok S ∧
      (∃ t ≤ R, ∃ p < 2 * R, F t p = S.vmin) ∧ (∃ t ≤ R, ∃ p < 2 * R, F t p = S.vmax) ∧
      (∀ t ≤ R, ∀ p < 2 * R, S.vmin ≤ F t p ∧ F t p ≤ S.vmax) ∧
      ∀ t ≤ R, ∀ p ≤ 2 * R, entry S.positions t p = some (if S.vmax = S.vmin then none else
        let r := (F t (p % (2 * R)) - S.vmin / (S.vmax - S.vmin)) * s1 + s0
        let u := unit (Real.pi * t / R) (Real.pi * p / R)
        some (r * u.1, r * u.2.1, r * u.2.2)) := by
  obtain ⟨b, hb⟩ : ∃ b, 2 * R = b + 1 := ⟨2 * R - 1, by omega⟩
  obtain ⟨mn, mx, h1, h2, h3, h4⟩ := setupFull_ok R hb (fun t p => F t p) true (s0, s1) none (fun q h => by cases h)
  rw [show grid (R + 1) (2 * R) F = rows fun (t : Fin (R + 1)) (p : Fin (b + 1)) => F t p from by rw [hb, grid_eq_rows]]
  refine ⟨_, h4, ?_, ?_, ?_, ?_⟩
  · obtain ⟨t, p, h⟩ := h1
    exact ⟨t, Nat.le_of_lt_succ t.2, p, by rw [hb]; exact p.2, h⟩
  · obtain ⟨t, p, h⟩ := h2
    exact ⟨t, Nat.le_of_lt_succ t.2, p, by rw [hb]; exact p.2, h⟩
  · intro t ht p hp
    exact h3 ⟨t, Nat.lt_succ_of_le ht⟩ ⟨p, by omega⟩
  · intro t ht p hp
    simp only [if_true, Option.map_none, Option.getD_none]
    rw [entry_withColumn _ _ (Nat.lt_succ_of_le ht)]
    have hrad : ∀ x : ℝ, radius (s0, s1) mn mx (drawn none x) = if mx = mn then none else some ((x - mn / (mx - mn)) * s1 + s0) := by
      intro x
      by_cases hz : mx = mn
      · simp [radius, drawn, fdiv, hz]
      · simp [radius, drawn, fdiv, hz, sub_eq_zero]
    by_cases h : p < b + 1
    · rw [dif_pos h, Nat.mod_eq_of_lt (by omega), hrad, ang_eq, ang_eq]
      by_cases hz : mx = mn
      · rw [if_pos hz, if_pos hz]; rfl
      · rw [if_neg hz, if_neg hz]
        simp only [Option.map_some, sphericalToCart, unit, mul_assoc]
    · have hpb : p = b + 1 := by omega
      have h2R : p = 2 * R := by omega
      rw [dif_neg h, if_pos hpb, h2R, Nat.mod_self, hrad, ang_full hR, ang_eq, ang_eq]
      by_cases hz : mx = mn
      · rw [if_pos hz, if_pos hz]; rfl
      · rw [if_neg hz, if_neg hz]
        simp [sphericalToCart, unit, mul_assoc]

example : ∃ S, setupFull (grid 3 4 fun _ _ => 5) 2 { parametric := true } = .ok S ∧ entry S.positions 1 1 = some none := by
  obtain ⟨S, h1, ⟨_, _, _, _, h2⟩, ⟨_, _, _, _, h3⟩, -, h5⟩ := C97_parametric (R := 2) (by norm_num) (fun _ _ => 5) 0 (1 / 2)
  refine ⟨S, h1, ?_⟩
  rw [h5 1 (by norm_num) 1 (by norm_num), if_pos (by rw [← h2, ← h3])]

/-- C97, violated: the radius is not that of the normalised value `(f - vmin) / (vmax - vmin)`; the two agree exactly where the value or the
scale is zero or the values span an interval of length 1. -/
theorem C97_parametric_violation {f vmin vmax s0 s1 : ℝ} (h : vmax ≠ vmin) :
    (f - vmin / (vmax - vmin)) * s1 + s0 = (f - vmin) / (vmax - vmin) * s1 + s0 ↔ s1 = 0 ∨ f = 0 ∨ vmax - vmin = 1 := by
  have h0 : vmax - vmin ≠ 0 := sub_ne_zero.2 h
  have e : ((f - vmin / (vmax - vmin)) * s1 + s0) - ((f - vmin) / (vmax - vmin) * s1 + s0) =
      s1 * (f * (vmax - vmin - 1)) / (vmax - vmin) := by field_simp; ring
  rw [← sub_eq_zero, e, div_eq_zero_iff, mul_eq_zero, mul_eq_zero, sub_eq_zero]
  constructor
  · rintro (h1 | h1)
    · exact h1
    · exact absurd h1 h0
  · exact Or.inl

example : (4 - 0 / (4 - 0)) * (1 / 2) + 0 ≠ ((4 : ℝ) - 0) / (4 - 0) * (1 / 2) + 0 := by
  rw [Ne, C97_parametric_violation (by norm_num)]; norm_num

/-- C97. Colour ranges that raise: a list of fewer than two numbers, and for a parametric figure one of equal numbers. -/
theorem C97_errors {R : ℕ} (hR : 0 < R) (F : ℕ → ℕ → ℝ) (par : Bool) (s : ℝ × ℝ) (c : ℝ) :
    setupFull (grid (R + 1) (2 * R) F) R { parametric := par, scaling := s, colourRange := some [] } = .error .indexError ∧
      setupFull (grid (R + 1) (2 * R) F) R { parametric := par, scaling := s, colourRange := some [c] } = .error .indexError ∧
      setupFull (grid (R + 1) (2 * R) F) R { parametric := true, scaling := s, colourRange := some [c, c] } = .error .zeroDivisionError := by
  obtain ⟨b, hb⟩ : ∃ b, 2 * R = b + 1 := ⟨2 * R - 1, by omega⟩
  rw [show grid (R + 1) (2 * R) F = rows fun (t : Fin (R + 1)) (p : Fin (b + 1)) => F t p from by rw [hb, grid_eq_rows]]
  have hlen := flatten_rows_length fun (t : Fin (R + 1)) (p : Fin (b + 1)) => F t p
  have hne : (rows fun (t : Fin (R + 1)) (p : Fin (b + 1)) => F t p).flatten ≠ [] := by
    intro h0; rw [h0] at hlen; simp at hlen
  obtain ⟨mx, m1, -, -⟩ := exists_amax hne
  obtain ⟨mn, n1, -, -⟩ := exists_amin hne
  unfold setupFull
  rw [gridThetas_rows R hb, gridPhis_rows R hb]
  have hn : ¬ ((rows fun (t : Fin (R + 1)) (_ : Fin (b + 1)) => ang R t).flatten.length ≠
      (rows fun (t : Fin (R + 1)) (p : Fin (b + 1)) => F t p).flatten.length) := by rw [hlen, flatten_rows_length]; simp
  simp only [if_neg hn, m1, n1, bind, Except.bind]
  refine ⟨rfl, rfl, ?_⟩
  simp [colourRange, radii, NumPy.item, bind, Except.bind, pure, Except.pure]

example : setupFull (grid 3 4 fun t _ => (t : ℝ)) 2 { colourRange := some [1] } = .error .indexError :=
  (C97_errors (R := 2) (by norm_num) (fun t _ => (t : ℝ)) false (0, 1 / 2) 1).2.1

end Sleplet.Props
