import Verif.Lemmas.Rotation
import Verif.Props.ConcentrationGrid
import Verif.Props.Convolution
import Verif.Props.Earth
import Verif.Props.Script

/-!
C89: rotation of coefficients as the rotation of the sphere.
-/
namespace Sleplet.Props

open Complex NumPy Functions Spec Wavelets Gaunt

variable {L : ℕ}

/-! ### the rotation of coefficients is unitary within every degree -/

theorem rotates_list {rotate : ℕ → List ℂ → ℝ → ℝ → ℝ → List ℂ} (hr : RotatesFields rotate) (alpha beta gamma : ℝ) :
    ∃ U : Unitaries, ∀ (L : ℕ) (c : List ℂ), c.length = L ^ 2 → rotate L c alpha beta gamma = rotList U L c := by
  obtain ⟨U, hU⟩ := exists_unitaries (euler alpha beta gamma) (euler (-gamma) (-beta) (-alpha)) (dot_euler _ _ _) (dot_euler _ _ _)
    (euler_redo _ _ _)
  exact ⟨U, fun L c hc => moved_unique (dot_euler _ _ _) (euler_redo alpha beta gamma) (hr L c _ _ _ hc).1 (rotList_length _ _ _)
    (hr L c _ _ _ hc).2 (hU L c)⟩

theorem rotates_unique {rotate : ℕ → List ℂ → ℝ → ℝ → ℝ → List ℂ} (hr : RotatesFields rotate) {c d : List ℂ} {alpha beta gamma : ℝ}
    (hc : c.length = L ^ 2) (hd : d.length = L ^ 2) (h : IsMoved (euler alpha beta gamma) (synthesis L c) (synthesis L d)) :
    rotate L c alpha beta gamma = d :=
  moved_unique (dot_euler _ _ _) (euler_redo alpha beta gamma) (hr L c _ _ _ hc).1 hd (hr L c _ _ _ hc).2 h

/-- C89. What `ssht.rotate_flms` is assumed to do can be done for all coefficients and all angles, and in only one way. -/
theorem C89_exists_unique : (∃ rotate, RotatesFields rotate) ∧ ∀ rotate rotate', RotatesFields rotate → RotatesFields rotate' →
    ∀ (L : ℕ) (c : List ℂ) (alpha beta gamma : ℝ), c.length = L ^ 2 → rotate L c alpha beta gamma = rotate' L c alpha beta gamma := by
  constructor
  · have h : ∀ alpha beta gamma : ℝ, ∃ U : Unitaries, ∀ (L : ℕ) (c : List ℂ),
        IsMoved (euler alpha beta gamma) (synthesis L c) (synthesis L (rotList U L c)) := fun alpha beta gamma =>
      exists_unitaries (euler alpha beta gamma) (euler (-gamma) (-beta) (-alpha)) (dot_euler _ _ _) (dot_euler _ _ _) (euler_redo _ _ _)
    choose U hU using h
    exact ⟨fun L c alpha beta gamma => rotList (U alpha beta gamma) L c, fun L c alpha beta gamma _ =>
      ⟨rotList_length _ _ _, hU alpha beta gamma L c⟩⟩
  · intro rotate rotate' h h' L c alpha beta gamma hc
    exact rotates_unique h hc (h' L c _ _ _ hc).1 (h' L c _ _ _ hc).2

theorem inner_degrees (c d : List ℂ) : ∑ i : Fin (L ^ 2), c.getD i 0 * (starRingEnd ℂ) (d.getD i 0) =
    ∑ l ∈ Finset.range L, inner ℂ (degreePart c l) (degreePart d l) := by
  have h := sum_pairs_getD L c fun l m => (starRingEnd ℂ) (d.getD (elm2ind l m) 0)
  rw [Finset.sum_congr rfl (fun i (_ : i ∈ Finset.univ) => by rw [elm2ind_ind2elm (i : ℕ)]) ] at h
  rw [← h]
  refine Finset.sum_congr rfl fun l _ => ?_
  rw [sum_orders, PiLp.inner_apply]
  refine Finset.sum_congr rfl fun k _ => ?_
  have hk : |((k : ℕ) : ℤ) - l| ≤ l := by have := k.2; rw [abs_le]; omega
  have h1 : ((l : ℤ) ^ 2 + l + ((k : ℕ) - l)).toNat = l ^ 2 + (k : ℕ) := by
    have : (l : ℤ) ^ 2 = ((l ^ 2 : ℕ) : ℤ) := by push_cast; ring
    omega
  rw [← index_eq hk, h1]
  simp only [degreePart, RCLike.inner_apply, conj_conj]
  ring

/-- C89. Rotation keeps the inner product of any two fields, hence the energy, and it keeps the energy within every degree. -/
theorem C89_isometry (rotate : ℕ → List ℂ → ℝ → ℝ → ℝ → List ℂ) (hr : RotatesFields rotate) (c d : List ℂ) (hc : c.length = L ^ 2)
    (hd : d.length = L ^ 2) (alpha beta gamma : ℝ) :
    sphereInner (synthesis L (rotate L c alpha beta gamma)) (synthesis L (rotate L d alpha beta gamma)) =
      sphereInner (synthesis L c) (synthesis L d) ∧
    ∀ l < L, ∑ m ∈ Finset.Icc (-(l : ℤ)) l, ‖(rotate L c alpha beta gamma).getD ((l : ℤ) ^ 2 + l + m).toNat 0‖ ^ 2 =
      ∑ m ∈ Finset.Icc (-(l : ℤ)) l, ‖c.getD ((l : ℤ) ^ 2 + l + m).toNat 0‖ ^ 2 := by
  obtain ⟨U, hU⟩ := rotates_list hr alpha beta gamma
  rw [hU L c hc, hU L d hd]
  constructor
  · rw [inner_synthesis, inner_synthesis, inner_degrees, inner_degrees]
    refine Finset.sum_congr rfl fun l hl => ?_
    rw [Finset.mem_range] at hl
    rw [degreePart_rotList U hl, degreePart_rotList U hl, LinearIsometryEquiv.inner_map_map]
  · intro l hl
    have key : ∀ e : List ℂ, ∑ m ∈ Finset.Icc (-(l : ℤ)) l, ‖e.getD ((l : ℤ) ^ 2 + l + m).toNat 0‖ ^ 2 = ‖degreePart e l‖ ^ 2 := by
      intro e
      rw [sum_orders, EuclideanSpace.norm_sq_eq]
      refine Finset.sum_congr rfl fun k _ => ?_
      have h1 : ((l : ℤ) ^ 2 + l + ((k : ℕ) - l)).toNat = l ^ 2 + (k : ℕ) := by
        have : (l : ℤ) ^ 2 = ((l ^ 2 : ℕ) : ℤ) := by push_cast; ring
        omega
      rw [h1]
      simp only [degreePart, RCLike.norm_conj]
    rw [key, key, degreePart_rotList U hl, LinearIsometryEquiv.norm_map]

theorem elm2ind_degree {l : ℕ} {m : ℤ} (hm : |m| ≤ l) : ∃ k : Fin (2 * l + 1), elm2ind l m = l ^ 2 + k := by
  have := index_eq hm
  rw [abs_le] at hm
  refine ⟨⟨(m + l).toNat, by omega⟩, ?_⟩
  have h2 : (l : ℤ) ^ 2 = ((l ^ 2 : ℕ) : ℤ) := by push_cast; ring
  dsimp only
  omega

theorem degree_elm2ind {l : ℕ} (k : Fin (2 * l + 1)) : ∃ m : ℤ, |m| ≤ l ∧ elm2ind l m = l ^ 2 + k := by
  have hk : |((k : ℕ) : ℤ) - l| ≤ l := by have := k.2; rw [abs_le]; omega
  refine ⟨_, hk, ?_⟩
  rw [← index_eq hk]
  have : (l : ℤ) ^ 2 = ((l ^ 2 : ℕ) : ℤ) := by push_cast; ring
  omega

/-- operators that multiply the degrees commute with rotations. -/
theorem rotates_scale {rotate : ℕ → List ℂ → ℝ → ℝ → ℝ → List ℂ} (hr : RotatesFields rotate) {c d : List ℂ} (hc : c.length = L ^ 2)
    (hd : d.length = L ^ 2) (k : ℕ → ℂ) (h : ∀ (l : ℕ) (m : ℤ), l < L → |m| ≤ l → d.getD (elm2ind l m) 0 = k l * c.getD (elm2ind l m) 0)
    (alpha beta gamma : ℝ) (l : ℕ) (m : ℤ) (hl : l < L) (hm : |m| ≤ l) :
    (rotate L d alpha beta gamma).getD (elm2ind l m) 0 = k l * (rotate L c alpha beta gamma).getD (elm2ind l m) 0 := by
  obtain ⟨U, hU⟩ := rotates_list hr alpha beta gamma
  rw [hU L c hc, hU L d hd]
  obtain ⟨p, hp⟩ := elm2ind_degree hm
  have hdp : degreePart d l = (starRingEnd ℂ) (k l) • degreePart c l := by
    ext q
    obtain ⟨m', hm', hq⟩ := degree_elm2ind q
    simp only [degreePart, PiLp.smul_apply, smul_eq_mul]
    rw [← hq, h l m' hl hm', map_mul]
  rw [hp, rotList_getD U hl, rotList_getD U hl, hdp, map_smul, PiLp.smul_apply, smul_eq_mul, map_mul, conj_conj]

/-- C89. Smoothing commutes with rotation. -/
theorem C89_smoothing (rotate : ℕ → List ℂ → ℝ → ℝ → ℝ → List ℂ) (hr : RotatesFields rotate) (smooth : List ℂ → ℕ → ℝ → List ℂ)
    (hs : GaussianSmoothing smooth) (c : List ℂ) (hc : c.length = L ^ 2) (factor : ℤ) (alpha beta gamma : ℝ) :
    Noise.applyGaussianSmoothing smooth (rotate L c alpha beta gamma) L factor =
      (Noise.applyGaussianSmoothing smooth c L factor).map fun s => rotate L s alpha beta gamma := by
  unfold Noise.applyGaussianSmoothing
  split
  · rfl
  · have h1 := hs c L (Real.pi / ((factor : ℝ) * (L : ℝ))) hc
    have hrl := (hr L c alpha beta gamma hc).1
    have h2 := hs _ L (Real.pi / ((factor : ℝ) * (L : ℝ))) hrl
    rw [Except.map]
    congr 1
    refine ext_of_pairs h2.1 (hr L _ alpha beta gamma h1.1).1 fun l m hl hm => ?_
    rw [h2.2 l m hl hm, rotates_scale hr hc h1.1 (fun l => (Real.exp (-((l : ℝ) ^ 2 * (Real.pi / ((factor : ℝ) * (L : ℝ))) ^ 2)) : ℂ))
      (fun l m hl hm => h1.2 l m hl hm) alpha beta gamma l m hl hm]

/-- C89. The axisymmetric wavelet coefficients of a rotated function are those of the function, rotated. -/
theorem C89_wavelets (rotate : ℕ → List ℂ → ℝ → ℝ → ℝ → List ℂ) (hr : RotatesFields rotate) (c : List ℂ) (hc : c.length = L ^ 2)
    (wavelets : List (List ℂ)) (hw : ∀ r ∈ wavelets, r.length = L ^ 2) (alpha beta gamma : ℝ) :
    ∃ w, axisymForward L c wavelets = .ok w ∧ axisymForward L (rotate L c alpha beta gamma) wavelets =
      .ok (w.map fun r => rotate L r alpha beta gamma) := by
  classical
  have hrl := (hr L c alpha beta gamma hc).1
  have hW := fun (r : List ℂ) (h : r ∈ wavelets) => forwardRow_ok L c r hc (hw r h)
  let W : List ℂ → List ℂ := fun r => if h : r ∈ wavelets then (hW r h).choose else []
  have hWs : ∀ r ∈ wavelets, forwardRow L c r = .ok (W r) ∧ (W r).length = L ^ 2 ∧
      ∀ (l : ℕ) (m : ℤ), l < L → |m| ≤ l → (W r).getD (elm2ind l m) 0 =
        (Real.sqrt (4 * Real.pi / (2 * (l : ℝ) + 1)) : ℂ) * (starRingEnd ℂ) (r.getD (elm2ind l 0) 0) * c.getD (elm2ind l m) 0 := by
    intro r h
    simp only [W, dif_pos h]
    exact (hW r h).choose_spec
  refine ⟨wavelets.map W, mapM_eq_ok _ _ _ fun r h => (hWs r h).1, ?_⟩
  rw [List.map_map]
  refine mapM_eq_ok _ _ _ fun r h => ?_
  obtain ⟨w', h1, h2, h3⟩ := forwardRow_ok L (rotate L c alpha beta gamma) r hrl (hw r h)
  rw [h1]
  congr 1
  refine ext_of_pairs h2 (hr L _ alpha beta gamma (hWs r h).2.1).1 fun l m hl hm => ?_
  rw [h3 l m hl hm]
  dsimp only [Function.comp]
  rw [rotates_scale hr hc (hWs r h).2.1 (fun l => (Real.sqrt (4 * Real.pi / (2 * (l : ℝ) + 1)) : ℂ) * (starRingEnd ℂ) (r.getD (elm2ind l 0) 0))
      (fun l m hl hm => (hWs r h).2.2 l m hl hm) alpha beta gamma l m hl hm]

private theorem rot_sum (U : Unitaries) {l : ℕ} (hl : l < L) (kappa : List ℂ → ℂ) (p : Fin (2 * l + 1)) : ∀ wc ws : List (List ℂ),
    (starRingEnd ℂ) (U l ((List.zipWith (fun c x => (starRingEnd ℂ) (kappa x) • degreePart c l) wc ws).sum) p) =
      (List.zipWith (fun c x => (rotList U L c).getD (l ^ 2 + p) 0 * kappa x) wc ws).sum := by
  intro wc
  induction wc with
  | nil => intro ws; simp
  | cons c wc ih =>
    intro ws
    rcases ws with _ | ⟨x, ws⟩
    · simp
    · simp only [List.zipWith_cons_cons, List.sum_cons, map_add, map_smul, PiLp.add_apply, PiLp.smul_apply, smul_eq_mul, map_mul, conj_conj]
      rw [ih ws, rotList_getD U hl]
      ring

private theorem degreePart_sum {l : ℕ} (kappa : List ℂ → ℂ) (p : Fin (2 * l + 1)) : ∀ wc ws : List (List ℂ),
    (List.zipWith (fun c x => (starRingEnd ℂ) (kappa x) • degreePart c l) wc ws).sum p =
      (starRingEnd ℂ) (List.zipWith (fun c x => c.getD (l ^ 2 + p) 0 * kappa x) wc ws).sum := by
  intro wc
  induction wc with
  | nil => intro ws; simp
  | cons c wc ih =>
    intro ws
    rcases ws with _ | ⟨x, ws⟩
    · simp
    · simp only [List.zipWith_cons_cons, List.sum_cons, map_add, PiLp.add_apply, PiLp.smul_apply, smul_eq_mul, map_mul, ih ws]
      simp only [degreePart]
      ring

/-- C89. Synthesis from rotated wavelet coefficients gives the rotated function. -/
theorem C89_wavelet_synthesis (rotate : ℕ → List ℂ → ℝ → ℝ → ℝ → List ℂ) (hr : RotatesFields rotate) (wavCoeffs wavelets : List (List ℂ))
    (hlen : wavCoeffs.length = wavelets.length) (hc : ∀ r ∈ wavCoeffs, r.length = L ^ 2) (hw : ∀ r ∈ wavelets, r.length = L ^ 2)
    (alpha beta gamma : ℝ) :
    ∃ flm, axisymInverse L wavCoeffs wavelets = .ok flm ∧
      axisymInverse L (wavCoeffs.map fun r => rotate L r alpha beta gamma) wavelets = .ok (rotate L flm alpha beta gamma) := by
  obtain ⟨U, hU⟩ := rotates_list hr alpha beta gamma
  obtain ⟨flm, h1, h2, h3⟩ := axisymInverse_ok L wavCoeffs wavelets hlen hc hw
  obtain ⟨flm', h1', h2', h3'⟩ := axisymInverse_ok L (wavCoeffs.map fun r => rotate L r alpha beta gamma) wavelets (by simp [hlen])
    (by
      intro r h
      obtain ⟨c, hm, rfl⟩ := List.mem_map.1 h
      exact (hr L c alpha beta gamma (hc c hm)).1) hw
  refine ⟨flm, h1, ?_⟩
  rw [h1']
  congr 1
  refine ext_of_pairs h2' (hr L flm alpha beta gamma h2).1 fun l m hl hm => ?_
  set kappa : List ℂ → ℂ := fun x => (Real.sqrt (4 * Real.pi / (2 * (l : ℝ) + 1)) : ℂ) * x.getD (elm2ind l 0) 0 with hk
  have hmap : (wavCoeffs.map fun r => rotate L r alpha beta gamma) = wavCoeffs.map fun r => rotList U L r :=
    List.map_congr_left fun r h => hU L r (hc r h)
  obtain ⟨p, hp⟩ := elm2ind_degree hm
  have hpart : degreePart flm l = (List.zipWith (fun c x => (starRingEnd ℂ) (kappa x) • degreePart c l) wavCoeffs wavelets).sum := by
    ext q
    obtain ⟨m', hm', hq⟩ := degree_elm2ind q
    rw [degreePart_sum]
    simp only [degreePart]
    rw [← hq, h3 l m' hl hm']
  rw [h3' l m hl hm, hU L flm h2, hp, rotList_getD U hl, hpart, rot_sum U hl kappa p, hmap, List.zipWith_map_left]

/-- Non-vacuity: one band of wavelet coefficients that are not zero, and a wavelet that passes all degrees. -/
example : ∃ rotate : ℕ → List ℂ → ℝ → ℝ → ℝ → List ℂ, RotatesFields rotate ∧
    ∃ flm, axisymInverse 2 [[1, 2, 3, 4]] [[1, 0, 1, 0]] = .ok flm ∧
      axisymInverse 2 [rotate 2 [1, 2, 3, 4] 1 2 3] [[1, 0, 1, 0]] = .ok (rotate 2 flm 1 2 3) := by
  obtain ⟨rotate, hr⟩ := C89_exists_unique.1
  exact ⟨rotate, hr, C89_wavelet_synthesis rotate hr [[1, 2, 3, 4]] [[1, 0, 1, 0]] rfl (by simp) (by simp) 1 2 3⟩

/-! ### particular angles -/

/-- C89. Turning by no angle changes nothing; a rotation is undone by the negative angles in the opposite order; further turns
about the axis of the poles add up. -/
theorem C89_group (rotate : ℕ → List ℂ → ℝ → ℝ → ℝ → List ℂ) (hr : RotatesFields rotate) (c : List ℂ) (hc : c.length = L ^ 2)
    (alpha beta gamma delta : ℝ) :
    rotate L c 0 0 0 = c ∧ rotate L (rotate L c alpha beta gamma) (-gamma) (-beta) (-alpha) = c ∧
    rotate L (rotate L c alpha beta gamma) delta 0 0 = rotate L c (delta + alpha) beta gamma ∧
    rotate L (rotate L c delta 0 0) alpha beta gamma = rotate L c alpha beta (gamma + delta) := by
  have h1 := hr L c alpha beta gamma hc
  have hcomp : ∀ (a b g a' b' g' : ℝ), IsMoved (fun v => euler a' b' g' (euler a b g v)) (synthesis L c)
      (synthesis L (rotate L (rotate L c a b g) a' b' g')) := by
    intro a b g a' b' g' th hth ph th' hth' ph' h
    have h1 := hr L c a b g hc
    have h2 := hr L _ a' b' g' h1.1
    obtain ⟨t, ht, p, hp⟩ := exists_point (v := euler a b g (point th ph)) (by rw [dot_euler, dot_point_self])
    rw [h2.2 t ht p th' hth' ph' (by rw [hp]; exact h), h1.2 th hth ph t ht p hp]
  have hlen : ∀ (a b g a' b' g' : ℝ), (rotate L (rotate L c a b g) a' b' g').length = L ^ 2 := fun a b g a' b' g' =>
    (hr L _ a' b' g' (hr L c a b g hc).1).1
  have hid : ∀ d : List ℂ, d.length = L ^ 2 → IsMoved (fun v => v) (synthesis L c) (synthesis L d) → d = c := by
    intro d hd h
    refine synthesis_injective hd hc fun th hth ph => h th hth ph th hth ph rfl
  refine ⟨?_, ?_, ?_, ?_⟩
  · refine hid _ (hr L c 0 0 0 hc).1 ?_
    have := (hr L c 0 0 0 hc).2
    have he : euler 0 0 0 = fun v => v := by
      funext v; unfold euler; rw [rotZ_zero, rotY_zero, rotZ_zero]
    rwa [he] at this
  · refine hid _ (hlen _ _ _ _ _ _) ?_
    have := hcomp alpha beta gamma (-gamma) (-beta) (-alpha)
    simp only [euler_undo] at this
    exact this
  · symm
    refine rotates_unique hr hc (hlen _ _ _ _ _ _) ?_
    have := hcomp alpha beta gamma delta 0 0
    have he : (fun v => euler delta 0 0 (euler alpha beta gamma v)) = euler (delta + alpha) beta gamma := by
      funext v; unfold euler; rw [rotZ_zero, rotY_zero, rotZ_add]
    rwa [he] at this
  · symm
    refine rotates_unique hr hc (hlen _ _ _ _ _ _) ?_
    have := hcomp delta 0 0 alpha beta gamma
    have he : (fun v => euler alpha beta gamma (euler delta 0 0 v)) = euler alpha beta (gamma + delta) := by
      funext v; unfold euler; rw [rotZ_zero, rotY_zero, rotZ_add]
    rwa [he] at this

theorem point_rotZ (a th ph : ℝ) : rotZ a (point th ph) = point th (ph + a) := by
  unfold rotZ point
  rw [Real.cos_add, Real.sin_add]
  ext <;> dsimp only <;> ring

theorem synthesis_point (c : List ℂ) {th th' : ℝ} (h : th ∈ Set.Icc 0 Real.pi) (h' : th' ∈ Set.Icc 0 Real.pi) {ph ph' : ℝ}
    (hp : point th ph = point th' ph') : synthesis L c th ph = synthesis L c th' ph' := by
  rw [synthesis_degrees, synthesis_degrees]
  refine Finset.sum_congr rfl fun l _ => ?_
  congr 1
  rw [← sub_eq_zero, ← inner_self_eq_zero (𝕜 := ℂ), inner_sub_left, inner_sub_right, inner_sub_right, inner_values l h h,
    inner_values l h h', inner_values l h' h, inner_values l h' h', hp]
  ring

/-- C89. A turn about the axis of the poles multiplies the coefficient of order `m` by `e^{-im(α+γ)}`. -/
theorem C89_turn (rotate : ℕ → List ℂ → ℝ → ℝ → ℝ → List ℂ) (hr : RotatesFields rotate) (c : List ℂ) (hc : c.length = L ^ 2)
    (alpha gamma : ℝ) (l : ℕ) (m : ℤ) (hl : l < L) (hm : |m| ≤ l) :
    (rotate L c alpha 0 gamma).getD ((l : ℤ) ^ 2 + l + m).toNat 0 =
      exp (-(I * m * (alpha + gamma))) * c.getD ((l : ℤ) ^ 2 + l + m).toNat 0 := by
  let d : List ℂ := (List.range (L ^ 2)).map fun i => exp (-(I * (ind2elm i).2 * (alpha + gamma))) * c.getD i 0
  have hdl : d.length = L ^ 2 := by simp [d]
  have hdv : ∀ i < L ^ 2, d.getD i 0 = exp (-(I * (ind2elm i).2 * (alpha + gamma))) * c.getD i 0 := by
    intro i hi
    simp [d, List.getD_eq_getElem?_getD, hi]
  have hd : rotate L c alpha 0 gamma = d := by
    refine rotates_unique hr hc hdl ?_
    intro th hth ph th' hth' ph' h
    have he : euler alpha 0 gamma (point th ph) = point th (ph + (gamma + alpha)) := by
      unfold euler; rw [rotY_zero, point_rotZ, point_rotZ, add_assoc]
    rw [he] at h
    rw [synthesis_point d hth' hth h, synthesis_eq, synthesis_eq]
    refine Finset.sum_congr rfl fun i _ => ?_
    rw [hdv i i.2, harm, harm, sphHarm_eq, sphHarm_eq]
    have : I * ((ind2elm i).2 : ℂ) * ((ph + (gamma + alpha) : ℝ) : ℂ) =
        I * (ind2elm i).2 * ph + I * (ind2elm i).2 * (alpha + gamma) := by push_cast; ring
    rw [this, exp_add, exp_neg]
    have hne := exp_ne_zero (I * ((ind2elm i).2 : ℂ) * (alpha + gamma))
    field_simp
  have hi : elm2ind l m < L ^ 2 := (elm2ind_lt_sq hm L).2 hl
  rw [hd, index_eq hm, hdv _ hi, ind2elm_elm2ind hm]

/-! ### axisymmetric functions -/

theorem axisymmetric_moved {c : List ℂ} (hc : Axisymmetric L c) (alpha beta gamma : ℝ) :
    IsMoved (euler alpha beta gamma) (synthesis L c) (centredAt (synthesis L c) beta alpha) := by
  intro th hth ph th' hth' ph' h
  have hn : euler alpha beta gamma (0, 0, 1) = point beta alpha := by
    unfold euler rotZ rotY point
    ext <;> simp <;> ring
  have ha : angle beta alpha th' ph' = th := by
    unfold angle
    rw [← dot_point, h, ← hn, dot_euler]
    have : dot (0, 0, 1) (point th ph) = Real.cos th := by unfold dot point; simp
    rw [this, Real.arccos_cos hth.1 hth.2]
  unfold centredAt
  rw [ha, synthesis_eq, synthesis_eq]
  refine Finset.sum_congr rfl fun i _ => ?_
  by_cases h0 : (ind2elm i).2 = 0
  · rw [harm, harm, sphHarm_eq, sphHarm_eq, h0]
    simp
  · have := hc.zero (ind2elm i).1 (ind2elm i).2 (ind2elm_fst_lt i.2) (ind2elm_abs_le i) h0
    rw [elm2ind_ind2elm] at this
    rw [this, zero_mul, zero_mul]

/-- C89. An axisymmetric function rotated by `(α, β, γ)` is the same function centred at the point with colatitude `β` and
longitude `α`; the angle `γ` does not matter. -/
theorem C89_axisymmetric (rotate : ℕ → List ℂ → ℝ → ℝ → ℝ → List ℂ) (hr : RotatesFields rotate) (c : List ℂ) (hc : Axisymmetric L c)
    (alpha beta gamma : ℝ) :
    (∀ th ∈ Set.Icc 0 Real.pi, ∀ ph, synthesis L (rotate L c alpha beta gamma) th ph = centredAt (synthesis L c) beta alpha th ph) ∧
    ∀ gamma', rotate L c alpha beta gamma' = rotate L c alpha beta gamma := by
  have key : ∀ gamma, ∀ th ∈ Set.Icc 0 Real.pi, ∀ ph,
      synthesis L (rotate L c alpha beta gamma) th ph = centredAt (synthesis L c) beta alpha th ph := by
    intro gamma th hth ph
    obtain ⟨t, ht, p, hp⟩ := exists_point (v := euler (-gamma) (-beta) (-alpha) (point th ph)) (by rw [dot_euler, dot_point_self])
    have he : point th ph = euler alpha beta gamma (point t p) := by rw [hp, euler_redo]
    rw [(hr L c alpha beta gamma hc.1).2 t ht p th hth ph he, axisymmetric_moved hc alpha beta gamma t ht p th hth ph he]
  refine ⟨key gamma, fun gamma' => ?_⟩
  refine synthesis_injective (hr L c _ _ _ hc.1).1 (hr L c _ _ _ hc.1).1 fun th hth ph => ?_
  rw [key gamma th hth ph, key gamma' th hth ph]

/-- C89. For the Dirac delta, rotation and translation give the same coefficients. -/
theorem C89_dirac_delta (S : Masks.Sphere) (hr : RotatesFields S.rotate) (ylm : ℝ → ℝ → List ℂ) (hy : CreatesHarmonics L ylm)
    (o : Functions.Obj) (hn : contains "dirac_delta" o.name = true) (hL : o.L = L) (ho : diracDelta L = .ok o.coefficients) {beta : ℝ}
    (hb : beta ∈ Set.Icc 0 Real.pi) (alpha gamma : ℝ) :
    ∃ t, (Script.harmonic S ylm o).rotate alpha beta gamma = .ok t ∧
      Functions.translate o ((Script.harmonic S ylm o).helper alpha beta) none = (.ok t, o.reality) := by
  obtain ⟨d, t, hd, ht, htl, -, hc, -⟩ := C86_dirac_delta ylm hy o hn hb alpha
  obtain ⟨d', hd', hdl, hdv, -⟩ := C55_dirac_delta L
  obtain rfl : d = o.coefficients := by rw [hd] at ho; exact Except.ok.inj ho
  obtain rfl : o.coefficients = d' := by rw [hd] at hd'; exact Except.ok.inj hd'
  refine ⟨t, ?_, ht⟩
  simp only [Script.harmonic, hL]
  congr 1
  have hax : Axisymmetric L o.coefficients := ⟨hdl, fun l m h1 h2 h3 => by rw [index_eq h2, hdv l m h1 h2, if_neg h3]⟩
  refine synthesis_injective (hr L _ _ _ _ hdl).1 htl fun th hth ph => ?_
  rw [(C89_axisymmetric S.rotate hr _ hax alpha beta gamma).1 th hth ph, hc th hth ph]

/-! ### real signals and the views of the Earth -/

theorem sum_neg_orders (l : ℕ) (F : ℤ → ℂ) : ∑ m ∈ Finset.Icc (-(l : ℤ)) l, F (-m) = ∑ m ∈ Finset.Icc (-(l : ℤ)) l, F m := by
  refine Finset.sum_bij (fun m _ => -m) ?_ ?_ ?_ ?_
  · intro m hm; rw [Finset.mem_Icc] at *; omega
  · intro a _ b _ h; omega
  · intro m hm; rw [Finset.mem_Icc] at hm; exact ⟨-m, by rw [Finset.mem_Icc]; omega, by omega⟩
  · intro m _; rfl

/-- the coefficients of the conjugate of a field. -/
theorem conj_synthesis (c : List ℂ) (th ph : ℝ) : (starRingEnd ℂ) (synthesis L c th ph) =
    synthesis L ((List.range (L ^ 2)).map fun i => (-1) ^ (ind2elm i).2 * (starRingEnd ℂ) (c.getD (elm2ind (ind2elm i).1 (-(ind2elm i).2)) 0))
      th ph := by
  unfold synthesis
  rw [map_sum]
  refine Finset.sum_congr rfl fun l hl => ?_
  rw [Finset.mem_range] at hl
  rw [map_sum, ← sum_neg_orders l]
  refine Finset.sum_congr rfl fun m hm => ?_
  rw [Finset.mem_Icc, ← abs_le] at hm
  have hm' : |-m| ≤ (l : ℤ) := by rwa [abs_neg]
  have hi : elm2ind l m < L ^ 2 := (elm2ind_lt_sq hm L).2 hl
  rw [index_eq hm, index_eq hm', map_mul, sphHarm_neg hm]
  have h1 : ((List.range (L ^ 2)).map fun i => (-1 : ℂ) ^ (ind2elm i).2 *
      (starRingEnd ℂ) (c.getD (elm2ind (ind2elm i).1 (-(ind2elm i).2)) 0)).getD (elm2ind l m) 0 =
      (-1 : ℂ) ^ m * (starRingEnd ℂ) (c.getD (elm2ind l (-m)) 0) := by
    rw [List.getD_eq_getElem _ _ (by simpa using hi)]
    rw [List.getElem_map, List.getElem_range, ind2elm_elm2ind hm]
  rw [h1, map_mul, conj_conj, map_zpow₀, map_neg, map_one]
  ring

/-- the coefficients are those of a real field iff the field is real. -/
theorem realSignal_iff {c : List ℂ} (hc : c.length = L ^ 2) :
    RealSignal L c ↔ ∀ th ∈ Set.Icc 0 Real.pi, ∀ ph, (synthesis L c th ph).im = 0 := by
  have hl : ((List.range (L ^ 2)).map fun i => (-1 : ℂ) ^ (ind2elm i).2 *
      (starRingEnd ℂ) (c.getD (elm2ind (ind2elm i).1 (-(ind2elm i).2)) 0)).length = L ^ 2 := by simp
  have hv : ∀ (l : ℕ) (m : ℤ), l < L → |m| ≤ l → ((List.range (L ^ 2)).map fun i => (-1 : ℂ) ^ (ind2elm i).2 *
      (starRingEnd ℂ) (c.getD (elm2ind (ind2elm i).1 (-(ind2elm i).2)) 0)).getD (elm2ind l m) 0 =
      (-1 : ℂ) ^ m * (starRingEnd ℂ) (c.getD (elm2ind l (-m)) 0) := by
    intro l m hl hm
    have hi : elm2ind l m < L ^ 2 := (elm2ind_lt_sq hm L).2 hl
    rw [List.getD_eq_getElem _ _ (by simpa using hi)]
    rw [List.getElem_map, List.getElem_range, ind2elm_elm2ind hm]
  constructor
  · rintro ⟨-, h⟩ th _ ph
    rw [← Complex.conj_eq_iff_im, conj_synthesis]
    congr 1
    refine ext_of_pairs hl hc fun l m h1 h2 => ?_
    rw [hv l m h1 h2]
    have := h l (-m) h1 (by rwa [abs_neg])
    rw [neg_neg] at this
    rw [this, zpow_neg]
    rcases Int.even_or_odd m with he | ho
    · rw [he.neg_one_zpow]; simp
    · rw [ho.neg_one_zpow]; simp
  · intro h
    refine ⟨hc, fun l m h1 h2 => ?_⟩
    have he := synthesis_injective hl hc fun th hth ph => by
      rw [← conj_synthesis]; exact Complex.conj_eq_iff_im.2 (h th hth ph)
    have hm' : |-m| ≤ (l : ℤ) := by rwa [abs_neg]
    have := hv l (-m) h1 hm'
    rw [he, neg_neg, zpow_neg] at this
    rw [this]
    rcases Int.even_or_odd m with h | h
    · rw [h.neg_one_zpow]; simp
    · rw [h.neg_one_zpow]; norm_num

/-- C89. Coefficients satisfy the condition of real signals iff their field is real, and a real signal stays one when rotated. -/
theorem C89_real (rotate : ℕ → List ℂ → ℝ → ℝ → ℝ → List ℂ) (hr : RotatesFields rotate) (c : List ℂ) (hc : c.length = L ^ 2)
    (alpha beta gamma : ℝ) :
    (RealSignal L c ↔ ∀ th ∈ Set.Icc 0 Real.pi, ∀ ph, (synthesis L c th ph).im = 0) ∧
    (RealSignal L c ↔ RealSignal L (rotate L c alpha beta gamma)) := by
  refine ⟨realSignal_iff hc, ?_⟩
  have h1 := hr L c alpha beta gamma hc
  rw [realSignal_iff hc, realSignal_iff h1.1]
  constructor
  · intro h th hth ph
    obtain ⟨t, ht, p, hp⟩ := exists_point (v := euler (-gamma) (-beta) (-alpha) (point th ph)) (by rw [dot_euler, dot_point_self])
    rw [h1.2 t ht p th hth ph (by rw [hp, euler_redo])]
    exact h t ht p
  · intro h th hth ph
    obtain ⟨t, ht, p, hp⟩ := exists_point (v := euler alpha beta gamma (point th ph)) (by rw [dot_euler, dot_point_self])
    rw [← h1.2 th hth ph t ht p hp]
    exact h t ht p

theorem euler_centre (alpha beta gamma ph : ℝ) : euler alpha beta gamma (point beta (Real.pi - gamma)) = point 0 ph := by
  have h1 : rotZ gamma (point beta (Real.pi - gamma)) = point beta Real.pi := by rw [point_rotZ, sub_add_cancel]
  have h2 : rotY beta (point beta Real.pi) = (0, 0, 1) := by
    unfold rotY point
    rw [Real.cos_pi, Real.sin_pi]
    ext
    · dsimp only; ring
    · dsimp only; ring
    · dsimp only; linear_combination Real.sin_sq_add_cos_sq beta
  unfold euler
  rw [h1, h2]
  unfold rotZ point
  simp

theorem point_add_two_pi (th ph : ℝ) : point th (ph + 2 * Real.pi) = point th ph := by
  unfold point
  rw [Real.cos_add_two_pi, Real.sin_add_two_pi]

theorem angle_centre {alpha beta gamma th ph th' ph' : ℝ} (hth' : th' ∈ Set.Icc 0 Real.pi)
    (h : point th' ph' = euler alpha beta gamma (point th ph)) : angle beta (Real.pi - gamma) th ph = th' := by
  unfold angle
  rw [← dot_point, ← dot_euler alpha beta gamma, ← h, euler_centre alpha beta gamma 0, dot_point]
  simp [Real.arccos_cos hth'.1 hth'.2]

theorem angle_add_two_pi (th ph th' ph' : ℝ) : angle th (ph + 2 * Real.pi) th' ph' = angle th ph th' ph' := by
  unfold angle
  rw [← dot_point, ← dot_point, point_add_two_pi]

private theorem deg (x : ℝ) : Py.deg2rad x = x * Real.pi / 180 := by
  unfold Py.deg2rad
  ring

/-- C89. The north pole of the Earth turned to Africa shows the point with colatitude 87° and longitude 199°, and that of the
Earth turned to South America the point with colatitude 108° and longitude 117°. -/
theorem C89_views (S : Masks.Sphere) (hr : RotatesFields S.rotate) (c : List ℂ) (hc : c.length = L ^ 2) (ph : ℝ) :
    synthesis L (Masks.rotateToAfrica S L c) 0 ph = synthesis L c (87 * Real.pi / 180) (199 * Real.pi / 180) ∧
    synthesis L (Masks.rotateToSouthAmerica S L c) 0 ph = synthesis L c (108 * Real.pi / 180) (117 * Real.pi / 180) := by
  have hp := Real.pi_pos
  have h0 : (0 : ℝ) ∈ Set.Icc 0 Real.pi := ⟨le_refl _, hp.le⟩
  have h87 : 87 * Real.pi / 180 ∈ Set.Icc 0 Real.pi := by rw [Set.mem_Icc]; constructor <;> linarith
  have h108 : 108 * Real.pi / 180 ∈ Set.Icc 0 Real.pi := by rw [Set.mem_Icc]; constructor <;> linarith
  constructor
  · unfold Masks.rotateToAfrica
    rw [deg, deg, deg]
    refine (hr L c _ _ _ hc).2 _ h87 _ 0 h0 ph ?_
    rw [show 199 * Real.pi / 180 = (Real.pi - 341 * Real.pi / 180) + 2 * Real.pi by ring, point_add_two_pi, euler_centre]
  · unfold Masks.rotateToSouthAmerica
    rw [deg, deg, deg]
    refine (hr L c _ _ _ hc).2 _ h108 _ 0 h0 ph ?_
    rw [show 117 * Real.pi / 180 = Real.pi - 63 * Real.pi / 180 by ring, euler_centre]

/-- What is assumed of `ssht.inverse` with `Reality=True` and `ssht.sample_positions`: at the samples, the values of the field. -/
def SamplesFields (S : Masks.Sphere) : Prop := ∀ (L : ℕ) (c : List ℂ), RealSignal L c → ∀ i < (S.shape L).1, ∀ j < (S.shape L).2,
  S.theta L i j ∈ Set.Icc 0 Real.pi ∧ S.inverseReal L c i j = (synthesis L c (S.theta L i j) (S.phi L i j)).re

/-- A mask of a turned Earth: every sample stands for a point of the Earth, and it is in the mask iff that point is within the
given angle of the given centre and not below sea level. -/
def IsLand (S : Masks.Sphere) (L : ℕ) (c : List ℂ) (R : Vec → Vec) (th0 ph0 size : ℝ) (m : Masks.Mask) : Prop :=
  m.shape = S.shape L ∧ ∀ i < (S.shape L).1, ∀ j < (S.shape L).2, ∃ th ∈ Set.Icc 0 Real.pi, ∃ ph,
    point (S.theta L i j) (S.phi L i j) = R (point th ph) ∧
    (m.val i j = true ↔ angle th0 ph0 th ph ≤ size ∧ 0 ≤ (synthesis L c th ph).re)

theorem land_of {S : Masks.Sphere} (hr : RotatesFields S.rotate) (hs : SamplesFields S) {c : List ℂ} (hc : RealSignal L c)
    (alpha beta gamma size : ℝ) (m : Masks.Mask) (hm : m.shape = S.shape L)
    (hv : ∀ i j, m.val i j = true ↔ S.theta L i j ≤ size ∧ 0 ≤ S.inverseReal L (S.rotate L c alpha beta gamma) i j) :
    IsLand S L c (euler alpha beta gamma) beta (Real.pi - gamma) size m := by
  have h1 := hr L c alpha beta gamma hc.1
  have hreal := ((C89_real S.rotate hr c hc.1 alpha beta gamma).2).1 hc
  refine ⟨hm, fun i hi j hj => ?_⟩
  obtain ⟨ht, hx⟩ := hs L _ hreal i hi j hj
  obtain ⟨t, htt, p, hp⟩ := exists_point (v := euler (-gamma) (-beta) (-alpha) (point (S.theta L i j) (S.phi L i j)))
    (by rw [dot_euler, dot_point_self])
  have he : point (S.theta L i j) (S.phi L i j) = euler alpha beta gamma (point t p) := by rw [hp, euler_redo]
  refine ⟨t, htt, p, he, ?_⟩
  rw [hv, hx, h1.2 t htt p _ ht _ he, angle_centre ht he]

/-- C89. The masks of the continents: a sample is in the mask of Africa iff the point of the Earth it stands for is within 41° of
the point with colatitude 87° and longitude 199° and is not below sea level; for South America, within 40° of the point with
colatitude 108° and longitude 117°. -/
theorem C89_continents (S : Masks.Sphere) (hr : RotatesFields S.rotate) (hs : SamplesFields S) (c : List ℂ) (hc : RealSignal L c) :
    IsLand S L c (euler (44 * Real.pi / 180) (87 * Real.pi / 180) (341 * Real.pi / 180)) (87 * Real.pi / 180) (199 * Real.pi / 180)
      (41 * Real.pi / 180) (Masks.africaMask S L c) ∧
    IsLand S L c (euler (54 * Real.pi / 180) (108 * Real.pi / 180) (63 * Real.pi / 180)) (108 * Real.pi / 180) (117 * Real.pi / 180)
      (40 * Real.pi / 180) (Masks.southAmericaMask S L c) := by
  constructor
  · have h := land_of hr hs hc (44 * Real.pi / 180) (87 * Real.pi / 180) (341 * Real.pi / 180) (41 * Real.pi / 180)
      (Masks.africaMask S L c) rfl (fun i j => by
        simp only [Masks.africaMask, Masks.rotateToAfrica, Bool.and_eq_true, decide_eq_true_eq, deg, ge_iff_le])
    refine ⟨h.1, fun i hi j hj => ?_⟩
    obtain ⟨t, ht, p, he, hm⟩ := h.2 i hi j hj
    refine ⟨t, ht, p, he, ?_⟩
    rw [show 199 * Real.pi / 180 = (Real.pi - 341 * Real.pi / 180) + 2 * Real.pi by ring, angle_add_two_pi]
    exact hm
  · have h := land_of hr hs hc (54 * Real.pi / 180) (108 * Real.pi / 180) (63 * Real.pi / 180) (40 * Real.pi / 180)
      (Masks.southAmericaMask S L c) rfl (fun i j => by
        simp only [Masks.southAmericaMask, Masks.rotateToSouthAmerica, Bool.and_eq_true, decide_eq_true_eq, deg, ge_iff_le])
    rw [show 117 * Real.pi / 180 = Real.pi - 63 * Real.pi / 180 by ring]
    exact h

/-- Non-vacuity: a sphere as assumed, with two samples at every bandlimit, and a real signal that is not constant. -/
example : ∃ (S : Masks.Sphere) (c : List ℂ), RotatesFields S.rotate ∧ SamplesFields S ∧ RealSignal 2 c ∧ c.length = 2 ^ 2 ∧
    Axisymmetric 2 c ∧ S.shape 2 = (2, 1) ∧ synthesis 2 c 0 0 ≠ synthesis 2 c Real.pi 0 := by
  obtain ⟨rotate, hrot⟩ := C89_exists_unique.1
  refine ⟨{ shape := fun _ => (2, 1), theta := fun _ i _ => if i = 0 then 0 else 1, phi := fun _ _ _ => 0,
            inverseReal := fun L c i _ => (synthesis L c (if i = 0 then 0 else 1) 0).re, forward := fun _ _ _ _ => [],
            rotate := rotate, smooth := fun f _ _ => f, earthFile := [] }, [1, 0, 1, 0], hrot, ?_, ?_, rfl, ?_, rfl, ?_⟩
  · intro L c _ i _ j _
    refine ⟨?_, rfl⟩
    dsimp only
    have := Real.pi_gt_three
    split <;> rw [Set.mem_Icc] <;> constructor <;> linarith
  · refine ⟨rfl, fun l m hl hm => ?_⟩
    rw [abs_le] at hm
    interval_cases l
    · obtain rfl : m = 0 := by omega
      simp [elm2ind]
    · have : m = -1 ∨ m = 0 ∨ m = 1 := by omega
      rcases this with rfl | rfl | rfl <;> simp [elm2ind]
  · refine ⟨rfl, fun l m hl hm h0 => ?_⟩
    rw [abs_le] at hm
    interval_cases l
    · omega
    · have : m = -1 ∨ m = 1 := by omega
      rcases this with rfl | rfl <;> simp
  · have h1 : Finset.Icc (-1 : ℤ) 1 = {-1, 0, 1} := by decide
    have e : ∀ th, synthesis 2 [1, 0, 1, 0] th 0 = sphHarm 0 0 th 0 + sphHarm 1 0 th 0 := by
      intro th
      simp [synthesis, Finset.sum_range_succ, h1]
    rw [e, e, sphHarm_zonal, sphHarm_zonal, sphHarm_zonal, sphHarm_zonal, legendre_eq, legendre_eq, legendre_eq, legendre_eq]
    simp [Finset.sum_range_succ]
    intro h
    have h3 : (0 : ℝ) < Real.sqrt ((2 + 1) / (4 * Real.pi)) := Real.sqrt_pos.2 (by positivity)
    generalize Real.sqrt ((2 + 1) / (4 * Real.pi)) = a at h h3
    rw [show ((-1 : ℂ) - 1) / 2 = -1 by norm_num, mul_neg, mul_one] at h
    have h4 : a = -a := by exact_mod_cast h
    linarith

end Sleplet.Props
