import Verif.Model.Denoising
import Verif.Model.Functions
import Verif.Model.MeshTransform
import Verif.Model.Plot

/-!
Lemmas for C120: running a program on rescaled input.
-/
namespace Sleplet.Units

open Complex NumPy

variable {α β γ α' β' γ' : Type}

theorem bind_map {m' : Except Err α'} {m : Except Err α} {a : α → α'} (h : m' = m.map a) {k' : α' → Except Err β'}
    {k : α → Except Err β} {b : β → β'} (hk : ∀ x, k' (a x) = (k x).map b) : (m' >>= k') = (m >>= k).map b := by
  subst h
  cases m with
  | error e => rfl
  | ok x => exact hk x

theorem bind_same {m : Except Err α} {k' : α → Except Err β'} {k : α → Except Err β} {b : β → β'}
    (hk : ∀ x, k' x = (k x).map b) : (m >>= k') = (m >>= k).map b := by
  cases m with
  | error e => rfl
  | ok x => exact hk x

theorem foldlM_map {X : Type} {step' : α' → X → Except Err α'} {step : α → X → Except Err α} {s : α → α'}
    (h : ∀ st x, step' (s st) x = (step st x).map s) (xs : List X) (st : α) :
    xs.foldlM step' (s st) = (xs.foldlM step st).map s := by
  induction xs generalizing st with
  | nil => rfl
  | cons x xs ih =>
    rw [List.foldlM_cons, List.foldlM_cons]
    exact bind_map (h st x) fun st => ih st

theorem mapM_map {f' : α' → Except Err β'} {f : α → Except Err β} {a : α → α'} {b : β → β'}
    (h : ∀ x, f' (a x) = (f x).map b) (xs : List α) : (xs.map a).mapM f' = (xs.mapM f).map (List.map b) := by
  induction xs with
  | nil => rfl
  | cons x xs ih =>
    rw [List.map_cons, List.mapM_cons, List.mapM_cons]
    exact bind_map (h x) fun y => bind_map ih fun ys => rfl

theorem mapM_same {f' : α → Except Err β'} {f : α → Except Err β} {b : β → β'} (h : ∀ x, f' x = (f x).map b) (xs : List α) :
    xs.mapM f' = (xs.mapM f).map (List.map b) := by
  have := mapM_map (a := id) (f' := f') (f := f) (b := b) h xs
  rwa [List.map_id] at this

theorem item_map (f : α → β) (xs : List α) (i : ℕ) : item (xs.map f) i = (item xs i).map f := by
  unfold item
  rw [List.getElem?_map]
  cases xs[i]? <;> rfl

theorem setItem_map (f : α → β) (xs : List α) (i : ℕ) (x : α) :
    setItem (xs.map f) i (f x) = (setItem xs i x).map (List.map f) := by
  unfold setItem
  rw [List.length_map]
  split
  · rw [← List.map_set]
    rfl
  · rfl

theorem broadcast_map {op' : α' → β' → γ'} {op : α → β → γ} {f : α → α'} {g : β → β'} {k : γ → γ'}
    (h : ∀ x y, op' (f x) (g y) = k (op x y)) (a : List α) (b : List β) :
    broadcast op' (a.map f) (b.map g) = (broadcast op a b).map (List.map k) := by
  unfold broadcast
  rw [List.length_map, List.length_map]
  split
  · change _ = Except.ok _
    rw [List.zipWith_map, List.map_zipWith]
    simp only [h]
  · match a, b with
    | [], [] => rfl
    | [], [y] => rfl
    | [], y :: z :: ys => rfl
    | [x], b => simp [Except.map, Function.comp_def, h]
    | x :: z :: xs, [] => rfl
    | x :: z :: xs, [y] => simp [Except.map, Function.comp_def, h]
    | x :: z :: xs, y :: y' :: ys => rfl

theorem broadcast_right {op' : α → β' → γ'} {op : α → β → γ} {g : β → β'} {k : γ → γ'}
    (h : ∀ x y, op' x (g y) = k (op x y)) (a : List α) (b : List β) :
    broadcast op' a (b.map g) = (broadcast op a b).map (List.map k) := by
  have := broadcast_map (f := id) (g := g) (op' := op') (op := op) (k := k) h a b
  rwa [List.map_id] at this

theorem broadcast_left {op' : α' → β → γ'} {op : α → β → γ} {f : α → α'} {k : γ → γ'}
    (h : ∀ x y, op' (f x) y = k (op x y)) (a : List α) (b : List β) :
    broadcast op' (a.map f) b = (broadcast op a b).map (List.map k) := by
  have := broadcast_map (f := f) (g := id) (op' := op') (op := op) (k := k) h a b
  rwa [List.map_id] at this

/-- the coefficients in other units. -/
noncomputable def times (c : ℝ) (xs : List ℂ) : List ℂ := xs.map fun z => (c : ℂ) * z

/-- the field in other units. -/
noncomputable def timesField {Pix : Type} (c : ℝ) (f : Pix → ℂ) : Pix → ℂ := fun x => (c : ℂ) * f x

/-- a table of coefficients in other units. -/
noncomputable def timesRows (c : ℝ) (a : Array2 ℂ) : Array2 ℂ := ⟨a.cols, a.rows.map (times c)⟩

@[simp] theorem length_times (c : ℝ) (xs : List ℂ) : (times c xs).length = xs.length := List.length_map _

theorem times_zeros (c : ℝ) (n : ℕ) : times c (List.replicate n 0) = List.replicate n 0 := by simp [times]

theorem sum_times (c : ℝ) (xs : List ℂ) : (times c xs).sum = c * xs.sum := by
  induction xs with
  | nil => simp [times]
  | cons x xs ih =>
    change (c : ℂ) * x + (times c xs).sum = _
    rw [ih, List.sum_cons, mul_add]

/-! ### noise -/

theorem signalPower_times (c : ℝ) (xs : List ℂ) : Noise.signalPower (times c xs) = c ^ 2 * Noise.signalPower xs := by
  induction xs with
  | nil => simp [times, Noise.signalPower]
  | cons x xs ih =>
    change ‖(c : ℂ) * x‖ ^ 2 + Noise.signalPower (times c xs) = c ^ 2 * (‖x‖ ^ 2 + Noise.signalPower xs)
    rw [ih, norm_mul, mul_pow, Complex.norm_real, Real.norm_eq_abs, sq_abs]
    ring

theorem computeSnr_times {c : ℝ} (hc : c ≠ 0) (xs ys : List ℂ) :
    Noise.computeSnr (times c xs) (times c ys) = Noise.computeSnr xs ys := by
  unfold Noise.computeSnr
  rw [signalPower_times, signalPower_times, mul_div_mul_left _ _ (pow_ne_zero 2 hc)]

theorem computeSigmaNoise_times {c : ℝ} (hc : 0 < c) (xs : List ℂ) (snr : ℝ) (d : Option ℕ) :
    Noise.computeSigmaNoise (times c xs) snr d = c * Noise.computeSigmaNoise xs snr d := by
  unfold Noise.computeSigmaNoise
  rw [signalPower_times, length_times]
  dsimp only
  rw [show (10 : ℝ) ^ (-snr / 10) * (c ^ 2 * Noise.signalPower xs) / ((d.getD xs.length : ℕ) : ℝ) =
    c ^ 2 * ((10 : ℝ) ^ (-snr / 10) * Noise.signalPower xs / ((d.getD xs.length : ℕ) : ℝ)) by ring,
    Real.sqrt_mul (sq_nonneg c), Real.sqrt_sq hc.le]

/-- a list under construction, in other units, and the generators. -/
noncomputable def timesState (c : ℝ) (st : List ℂ × Noise.World) : List ℂ × Noise.World := (times c st.1, st.2)

theorem orderBody_times (normals : ℕ → ℕ → ℝ) (rng : ℕ) (c sigma : ℝ) (ell : ℕ) (st : List ℂ × Noise.World) (m : ℕ) :
    Noise.orderBody normals rng (c * sigma) ell (timesState c st) m =
      (Noise.orderBody normals rng sigma ell st m).map (timesState c) := by
  unfold Noise.orderBody
  refine bind_same fun x => ?_
  obtain ⟨a, w⟩ := x
  refine bind_same fun y => ?_
  obtain ⟨b, w'⟩ := y
  dsimp only
  rw [show (((c * sigma : ℝ) : ℂ) / (Real.sqrt 2 : ℂ) * ((a : ℂ) + I * (b : ℂ))) =
    (c : ℂ) * ((sigma : ℂ) / (Real.sqrt 2 : ℂ) * ((a : ℂ) + I * (b : ℂ))) by push_cast; ring]
  refine bind_map (setItem_map _ _ _ _) fun nlm => ?_
  refine bind_map (item_map _ _ _) fun x => ?_
  rw [show (-1 : ℂ) ^ m * (starRingEnd ℂ) ((c : ℂ) * x) = (c : ℂ) * ((-1) ^ m * (starRingEnd ℂ) x) by
    rw [map_mul, Complex.conj_ofReal]; ring]
  refine bind_map (setItem_map _ _ _ _) fun nlm => ?_
  rfl

theorem degreeBody_times (normals : ℕ → ℕ → ℝ) (rng : ℕ) (c sigma : ℝ) (ell : ℕ) (st : List ℂ × Noise.World) :
    Noise.degreeBody normals rng (c * sigma) ell (timesState c st) =
      (Noise.degreeBody normals rng sigma ell st).map (timesState c) := by
  unfold Noise.degreeBody
  refine bind_same fun x => ?_
  obtain ⟨a, w⟩ := x
  dsimp only
  rw [show (((c * sigma : ℝ) : ℂ) * (a : ℂ)) = (c : ℂ) * ((sigma : ℂ) * (a : ℂ)) by push_cast; ring]
  refine bind_map (setItem_map _ _ _ _) fun nlm => ?_
  exact foldlM_map (s := timesState c) (orderBody_times normals rng c sigma ell) _ (nlm, w)

theorem createNoise_times (normals : ℕ → ℕ → ℝ) (L : ℕ) {c : ℝ} (hc : 0 < c) (signal : List ℂ) (snr : ℝ) (w : Noise.World) :
    Noise.createNoise normals L (times c signal) snr w = (Noise.createNoise normals L signal snr w).map (timesState c) := by
  unfold Noise.createNoise
  dsimp only
  rw [computeSigmaNoise_times hc]
  have := foldlM_map (s := timesState c)
    (step' := fun st ell => Noise.degreeBody normals (Noise.defaultRng Noise.randomSeed w).1
      (c * Noise.computeSigmaNoise signal snr none) ell st)
    (step := fun st ell => Noise.degreeBody normals (Noise.defaultRng Noise.randomSeed w).1
      (Noise.computeSigmaNoise signal snr none) ell st)
    (fun st ell => degreeBody_times normals _ c _ ell st) (List.range L)
    (List.replicate (L ^ 2) 0, (Noise.defaultRng Noise.randomSeed w).2)
  rw [← this]
  unfold timesState
  dsimp only
  rw [times_zeros]

/-- a list of real numbers under construction, in other units, and the generators. -/
noncomputable def timesReal (c : ℝ) (st : List ℝ × Noise.World) : List ℝ × Noise.World := (st.1.map (c * ·), st.2)

theorem createMeshNoise_times (normals : ℕ → ℕ → ℝ) {c : ℝ} (hc : 0 < c) (u : List ℂ) (snr : ℝ) (w : Noise.World) :
    Noise.createMeshNoise normals (times c u) snr w = (Noise.createMeshNoise normals u snr w).map (timesReal c) := by
  unfold Noise.createMeshNoise
  dsimp only
  rw [computeSigmaNoise_times hc, length_times]
  have := foldlM_map (s := timesReal c) (step' := Noise.meshBody normals (Noise.defaultRng Noise.randomSeed w).1
      (c * Noise.computeSigmaNoise u snr none)) (step := Noise.meshBody normals (Noise.defaultRng Noise.randomSeed w).1
      (Noise.computeSigmaNoise u snr none)) (fun st i => by
      unfold Noise.meshBody
      refine bind_same fun x => ?_
      obtain ⟨a, w⟩ := x
      dsimp only
      rw [mul_assoc]
      exact bind_map (setItem_map _ _ _ _) fun ni => rfl) (List.range u.length)
    (List.replicate u.length 0, (Noise.defaultRng Noise.randomSeed w).2)
  rw [← this]
  unfold timesReal
  simp

/-! ### thresholding -/

variable {Pix : Type}

theorem perform_times {c : ℝ} (hc : 0 < c) (f : Pix → ℂ) (s : Pix → ℝ) (n : ℤ) :
    Thresholding.performHardThresholding (timesField c f) (fun x => c * s x) n =
      timesField c (Thresholding.performHardThresholding f s n) := by
  funext x
  unfold Thresholding.performHardThresholding timesField
  rw [norm_mul, Complex.norm_real, Real.norm_of_nonneg hc.le, mul_left_comm]
  simp only [mul_lt_mul_iff_right₀ hc, mul_ite, mul_zero]

theorem assignRow_times (c : ℝ) (n : ℕ) (row : List ℂ) :
    Thresholding.assignRow n (times c row) = (Thresholding.assignRow n row).map (times c) := by
  unfold Thresholding.assignRow
  rw [length_times]
  split
  · rfl
  · match row with
    | [] => rfl
    | [x] => simp [times, Except.map]
    | _ :: _ :: _ => rfl

/-- the arrays of the process in other units. -/
noncomputable def timesHeap (c : ℝ) (h : Thresholding.Heap) : Thresholding.Heap := h.map (List.map (times c))

/-- Transforms between coefficients and fields that do not depend on the unit. -/
structure Homogeneous (c : ℝ) (inverse : List ℂ → Except Err (Pix → ℂ)) (forward : (Pix → ℂ) → Except Err (List ℂ)) : Prop where
  inverse : ∀ x, inverse (times c x) = (inverse x).map (timesField c)
  forward : ∀ f, forward (timesField c f) = (forward f).map (times c)

variable {inverse : List ℂ → Except Err (Pix → ℂ)} {forward : (Pix → ℂ) → Except Err (List ℂ)}

theorem body_times {c : ℝ} (hc : 0 < c) (T : Homogeneous c inverse forward) (sigma : List (Pix → ℝ)) (n : ℤ) (off r : ℕ)
    (h : Thresholding.Heap) (j : ℕ) :
    Thresholding.body inverse forward (sigma.map fun s x => c * s x) n off r (timesHeap c h) j =
      (Thresholding.body inverse forward sigma n off r h j).map (timesHeap c) := by
  unfold Thresholding.body
  refine bind_map (item_map _ _ _) fun arr => ?_
  refine bind_map (item_map _ _ _) fun co => ?_
  refine bind_map (T.inverse _) fun f => ?_
  refine bind_map (item_map _ _ _) fun s => ?_
  rw [perform_times hc]
  refine bind_map (T.forward _) fun out => ?_
  rw [length_times]
  refine bind_map (assignRow_times _ _ _) fun row => ?_
  change Except.ok _ = Except.ok _
  unfold timesHeap
  rw [← List.map_set, ← List.map_set]

theorem loop_times {c : ℝ} (hc : 0 < c) (T : Homogeneous c inverse forward) (sigma : List (Pix → ℝ)) (n : ℤ) (off r : ℕ)
    (js : List ℕ) (h : Thresholding.Heap) :
    Thresholding.loop inverse forward (sigma.map fun s x => c * s x) n off r js (timesHeap c h) =
      ((Thresholding.loop inverse forward sigma n off r js h).1,
        timesHeap c (Thresholding.loop inverse forward sigma n off r js h).2) := by
  induction js generalizing h with
  | nil => rfl
  | cons j js ih =>
    unfold Thresholding.loop
    rw [body_times hc T]
    cases Thresholding.body inverse forward sigma n off r h j with
    | error e => rfl
    | ok h' => exact ih h'

theorem harmonic_times {c : ℝ} (hc : 0 < c) (T : Homogeneous c inverse forward) (sigma : List (Pix → ℝ)) (n : ℤ) (r : ℕ)
    (h : Thresholding.Heap) :
    Thresholding.harmonic inverse forward (sigma.map fun s x => c * s x) n r (timesHeap c h) =
      ((Thresholding.harmonic inverse forward sigma n r h).1,
        timesHeap c (Thresholding.harmonic inverse forward sigma n r h).2) := by
  unfold Thresholding.harmonic
  rw [show item (timesHeap c h) r = (item h r).map (List.map (times c)) from item_map _ _ _]
  cases item h r with
  | error e => rfl
  | ok arr =>
    dsimp only [Except.map]
    rw [← List.map_drop, List.length_map]
    exact loop_times hc T sigma n 1 r _ h

theorem slepian_times {c : ℝ} (hc : 0 < c) (T : Homogeneous c inverse forward) (sigma : List (Pix → ℝ)) (n : ℤ) (r : ℕ)
    (h : Thresholding.Heap) :
    Thresholding.slepian inverse forward (sigma.map fun s x => c * s x) n r (timesHeap c h) =
      ((Thresholding.slepian inverse forward sigma n r h).1,
        timesHeap c (Thresholding.slepian inverse forward sigma n r h).2) := by
  unfold Thresholding.slepian
  rw [show item (timesHeap c h) r = (item h r).map (List.map (times c)) from item_map _ _ _]
  cases item h r with
  | error e => rfl
  | ok arr =>
    dsimp only [Except.map]
    rw [List.length_map]
    exact loop_times hc T sigma n 0 r _ h

/-! ### wavelets -/

theorem upTo_map (f : α → β) (xs : List α) (n : Option ℤ) : upTo (xs.map f) n = (upTo xs n).map f := by
  unfold upTo
  cases n with
  | none => rfl
  | some n =>
    dsimp only
    split
    · rw [List.map_take]
    · rw [List.map_take, List.length_map]

theorem broadcast2_right {op' : α → β' → γ'} {op : α → β → γ} {g : β → β'} {k : γ → γ'}
    (h : ∀ x y, op' x (g y) = k (op x y)) (a : Array2 α) (b : Array2 β) :
    broadcast2 op' a ⟨b.cols, b.rows.map (List.map g)⟩ =
      (broadcast2 op a b).map fun r => ⟨r.cols, r.rows.map (List.map k)⟩ := by
  unfold broadcast2
  refine bind_same fun n => ?_
  refine bind_map (a := List.map (Except.map (List.map k))) (broadcast_right (broadcast_right h) _ _) fun rs => ?_
  refine bind_map (a := List.map (List.map k)) (mapM_map (f' := id) (f := id) (a := Except.map (List.map k))
    (fun x => rfl) rs) fun rows => ?_
  rfl

theorem sift2_times (c : ℝ) (f g : Array2 ℂ) (n : Option ℤ) :
    Wavelets.sift2 f (timesRows c g) n = (Wavelets.sift2 f g n).map (timesRows c) := by
  unfold Wavelets.sift2 Array2.colsUpTo timesRows
  dsimp only
  have hrows : ((g.rows.map (times c)).map fun r => r.map (starRingEnd ℂ)).map (fun r => upTo r n) =
      ((g.rows.map fun r => r.map (starRingEnd ℂ)).map fun r => upTo r n).map (List.map fun z => (c : ℂ) * z) := by
    simp only [List.map_map]
    refine List.map_congr_left fun r _ => ?_
    simp [Function.comp_def, times, ← upTo_map]
  rw [hrows]
  exact broadcast2_right (op' := fun x y : ℂ => x * y) (op := fun x y : ℂ => x * y) (g := fun z : ℂ => (c : ℂ) * z)
    (k := fun z : ℂ => (c : ℂ) * z) (fun x y => mul_left_comm _ _ _) _
    ⟨_, (g.rows.map fun r => r.map (starRingEnd ℂ)).map fun r => upTo r n⟩

theorem findNonZero_times {c : ℝ} (hc : c ≠ 0) (w : Array2 ℂ) :
    Wavelets.findNonZero (timesRows c w) = timesRows c (Wavelets.findNonZero w) := by
  unfold Wavelets.findNonZero timesRows
  dsimp only
  rw [List.filter_map]
  congr 2
  refine List.filter_congr fun r _ => ?_
  simp [times, Function.comp_def, hc]

theorem newaxis_times (c : ℝ) (g : List ℂ) : Wavelets.newaxis (times c g) = timesRows c (Wavelets.newaxis g) := by
  unfold Wavelets.newaxis timesRows
  simp

theorem slepianForward_times {c : ℝ} (hc : c ≠ 0) (fp : List ℂ) (wavelets : Array2 ℂ) (shannon : ℤ) :
    Wavelets.slepianForward (times c fp) wavelets shannon =
      (Wavelets.slepianForward fp wavelets shannon).map (timesRows c) := by
  unfold Wavelets.slepianForward
  rw [newaxis_times]
  exact bind_map (sift2_times c _ _ _) fun w => by rw [findNonZero_times hc]; rfl

theorem sumRows_times (c : ℝ) (a : Array2 ℂ) : (timesRows c a).sumRows = times c a.sumRows := by
  unfold Array2.sumRows timesRows times
  rw [List.map_map]
  refine List.map_congr_left fun p _ => ?_
  dsimp only [Function.comp_apply]
  rw [List.map_map, ← List.sum_map_mul_left]
  congr 1
  refine List.map_congr_left fun r _ => ?_
  dsimp only [Function.comp_apply]
  rw [List.getD_eq_getElem?_getD, List.getD_eq_getElem?_getD, List.getElem?_map]
  cases r[p]? <;> simp

theorem slepianInverse_times (c : ℝ) (w wavelets : Array2 ℂ) (shannon : ℤ) :
    Wavelets.slepianInverse (timesRows c w) wavelets shannon = (Wavelets.slepianInverse w wavelets shannon).map (times c) := by
  unfold Wavelets.slepianInverse
  rw [show (timesRows c w).rows.length = w.rows.length by simp [timesRows]]
  exact bind_map (sift2_times c _ _ _) fun r => by rw [sumRows_times]; rfl

theorem forwardRow_times (L : ℕ) (c : ℝ) (flm psi : List ℂ) :
    Wavelets.forwardRow L (times c flm) psi = (Wavelets.forwardRow L flm psi).map (times c) := by
  unfold Wavelets.forwardRow
  nth_rewrite 1 [← times_zeros c psi.length]
  refine foldlM_map (fun st ell => ?_) _ _
  refine bind_same fun x => ?_
  refine foldlM_map (fun st m => ?_) _ _
  refine bind_map (item_map _ _ _) fun f => ?_
  rw [mul_left_comm]
  exact setItem_map _ _ _ _

theorem axisymForward_times (L : ℕ) (c : ℝ) (flm : List ℂ) (wavelets : List (List ℂ)) :
    Wavelets.axisymForward L (times c flm) wavelets = (Wavelets.axisymForward L flm wavelets).map (List.map (times c)) :=
  mapM_same (fun psi => forwardRow_times L c flm psi) wavelets

theorem axisymInverse_times (L : ℕ) (c : ℝ) (w wavelets : List (List ℂ)) :
    Wavelets.axisymInverse L (w.map (times c)) wavelets = (Wavelets.axisymInverse L w wavelets).map (times c) := by
  unfold Wavelets.axisymInverse
  nth_rewrite 1 [← times_zeros c (L ^ 2)]
  refine foldlM_map (fun st ell => ?_) _ _
  refine bind_same fun col => ?_
  refine foldlM_map (fun st m => ?_) _ _
  refine bind_map (a := List.map fun z => (c : ℂ) * z) (mapM_map (f' := fun r => item r (elm2ind ell m))
    (f := fun r => item r (elm2ind ell m)) (a := times c) (fun r => item_map _ _ _) w) fun co => ?_
  refine bind_map (a := List.map fun z => (c : ℂ) * z) (broadcast_left (fun x y => mul_assoc _ _ _) _ _) fun p => ?_
  have : (List.map (fun z => (c : ℂ) * z) p).sum = (c : ℂ) * p.sum := sum_times c p
  rw [this]
  exact setItem_map _ _ _ _

theorem sub_times (c : ℝ) (a b : List ℂ) :
    broadcast (· - ·) (times c a) (times c b) = (broadcast (· - ·) a b).map (times c) :=
  broadcast_map (fun _ _ => (mul_sub _ _ _).symm) a b

theorem add_times (c : ℝ) (a b : List ℂ) :
    broadcast (· + ·) (times c a) (times c b) = (broadcast (· + ·) a b).map (times c) :=
  broadcast_map (fun _ _ => (mul_add _ _ _).symm) a b

end Sleplet.Units
