import Verif.Lemmas.Vanishing
import Verif.Props.BestConcentrated

/-!
C111: the eigenvalues of related regions.
-/
namespace Sleplet.Props

open Complex Sleplet.Spec Sleplet.Gaunt Sleplet.RealMat Sleplet.Eigen Sleplet.LatLon

/-- `e` are eigenvalues that the solution for a polar cap or gap gives, for some workers, solver and sorting within their contracts. -/
def PolarEigenvalues (L : ℕ) (gap : Bool) (t : ℝ) (e : List ℝ) : Prop :=
  ∃ (plm : List ℝ) (M : ℤ → ℕ → ℕ → ℝ) (sol : ℤ → OrderSolution) (v : List (List ℂ)) (o : List ℤ),
    plm.length = (2 * L) ^ 2 ∧ (∀ n < 2 * L, plm.getD (elm2ind n 0) 0 = (sphHarm n 0 t 0).re) ∧
    (∀ m : ℤ, m.natAbs < L → ∃ ncpu we, 1 ≤ ncpu ∧ CreatesOrder L gap plm m ncpu we (.ok (M m))) ∧
    (∀ m : ℤ, m.natAbs < L → IsEighOrder (L - m.natAbs) (M m) (sol m)) ∧ SolvesAll L sol (.ok (e, v, o))

/-- likewise for a region limited in latitude and longitude. -/
def LatLonEigenvalues (L : ℕ) (B : Bounds) (e : List ℝ) : Prop :=
  ∃ (n : ℕ) (dl : Table) (we : ℕ → Option Err) (K : Mat) (w : Fin (n + 1) → ℂ) (V : Fin (n + 1) → Fin (n + 1) → ℂ)
    (ev : Fin (n + 1) → ℝ) (S : Fin (n + 1) → Fin (n + 1) → ℂ), n + 1 = L ^ 2 ∧ IsWigner L dl ∧ CreatesK L B dl we (.ok K) ∧
    IsEigh (fun r c : Fin (n + 1) => K r c) w V ∧ CleansLatLon w V ev S ∧ e = List.ofFn ev

/-- likewise for a region given by a mask. -/
def MaskEigenvalues (L : ℕ) (m : Integration.Grid (2 * L) → Bool) (e : List ℝ) : Prop :=
  ∃ (n : ℕ) (P : Arb.Params (Integration.Grid (2 * L))) (ncpu : ℕ) (we : ℕ → Option Err) (M : ℕ → ℕ → ℂ) (w : Fin (n + 1) → ℂ)
    (V : Fin (n + 1) → Fin (n + 1) → ℂ) (ev : Fin (n + 1) → ℝ) (S : Fin (n + 1) → Fin (n + 1) → ℂ), n + 1 = L ^ 2 ∧ OnGrid L m P ∧
    1 ≤ ncpu ∧ Arb.CreatesD P ncpu we (.ok M) ∧ IsEigh (fun r c : Fin (n + 1) => M r c) w V ∧ CleansArbitrary w V ev S ∧ e = List.ofFn ev

/-- the eigenvalues are the numbers of the concentration problem with the energy `R` in the region. -/
def Numbers (L : ℕ) (R : (ℝ → ℝ → ℂ) → ℝ) (e : List ℝ) : Prop :=
  e.length = L ^ 2 ∧ ∃ s : Fin (L ^ 2) → ℝ → ℝ → ℂ, BestConcentrated (bandlimited L) sphereInner R s (fun p => e.getD p 0)

theorem numbers_ofFn {N L : ℕ} (hN : N = L ^ 2) {R : (ℝ → ℝ → ℂ) → ℝ} {s : Fin N → ℝ → ℝ → ℂ} {ev : Fin N → ℝ}
    (h : BestConcentrated (bandlimited L) sphereInner R s ev) : Numbers L R (List.ofFn ev) := by
  subst hN
  refine ⟨List.length_ofFn, s, ?_⟩
  have : (fun p : Fin (L ^ 2) => (List.ofFn ev).getD p 0) = ev := by
    funext p
    simp only [List.getD_eq_getElem?_getD, List.getElem?_ofFn, p.2, dif_pos, Option.getD_some]
  rw [this]
  exact h

theorem polar_numbers {L : ℕ} {gap : Bool} {t : ℝ} (h0 : 0 ≤ t) (h1 : t ≤ Real.pi) {e : List ℝ}
    (h : PolarEigenvalues L gap t e) : Numbers L (capEnergy gap t) e := by
  obtain ⟨plm, M, sol, v, o, a, b, c, d, s⟩ := h
  obtain ⟨e', v', o', he, hl, -, hb⟩ := C88_polar L gap t h0 h1 plm a b M c sol d _ s
  injection he with he
  obtain ⟨rfl, rfl, rfl⟩ : e = e' ∧ v = v' ∧ o = o' := by simpa using he
  refine ⟨hl, fun p => synthesis L (v.getD p []), ?_⟩
  have : (fun f => (capIntegral gap t fun th ph => f th ph * (starRingEnd ℂ) (f th ph)).re) = capEnergy gap t := by
    funext f
    rw [cap_self, ofReal_re]
  rw [← this]
  exact hb

theorem lat_lon_numbers {L : ℕ} {B : Bounds} (hB0 : B.tmin ∈ Set.Icc 0 Real.pi) (hB1 : B.tmax ∈ Set.Icc 0 Real.pi) {e : List ℝ}
    (h : LatLonEigenvalues L B e) : Numbers L (surfaceEnergy B.tmin B.tmax B.pmin B.pmax) e := by
  obtain ⟨n, dl, we, K, w, V, ev, S, hn, a, b, c, d, rfl⟩ := h
  exact numbers_ofFn hn (C88_lat_lon L n hn B dl a hB0 hB1 we K b w V c ev S d)

theorem mask_numbers {L : ℕ} {m : Integration.Grid (2 * L) → Bool} {e : List ℝ} (h : MaskEigenvalues L m e) :
    Numbers L (fun f => ∑ x with m x, ‖f (Integration.theta x) (Integration.phi x)‖ ^ 2 * Integration.weight (2 * L) x) e := by
  obtain ⟨n, P, ncpu, we, M, w, V, ev, S, hn, a, b, c, d, f, rfl⟩ := h
  exact numbers_ofFn hn (C88_arbitrary L n hn m P a ncpu b we M c w V d ev S f)

theorem numbers_le {L L' : ℕ} (hL : L ≤ L') {R R' : (ℝ → ℝ → ℂ) → ℝ} {e e' : List ℝ} (h : Numbers L R e) (h' : Numbers L' R' e')
    (T : (ℝ → ℝ → ℂ) →ₗ[ℂ] (ℝ → ℝ → ℂ))
    (hT : ∀ f ∈ bandlimited L, T f ∈ bandlimited L ∧ (sphereInner (T f) (T f)).re = (sphereInner f f).re ∧ R f ≤ R' (T f))
    (k : ℕ) (hk : k < L ^ 2) : e.getD k 0 ≤ e'.getD k 0 := by
  obtain ⟨-, s, h⟩ := h
  obtain ⟨-, s', h'⟩ := h'
  exact compare_numbers h h' (linearOn_bandlimited L) (linearOn_bandlimited L') T
    (fun f hf => ⟨bandlimited_mono hL (hT f hf).1, (hT f hf).2⟩) k hk (hk.trans_le (Nat.pow_le_pow_left hL 2))

theorem numbers_le_id {L L' : ℕ} (hL : L ≤ L') {R R' : (ℝ → ℝ → ℂ) → ℝ} {e e' : List ℝ} (h : Numbers L R e)
    (h' : Numbers L' R' e') (hR : ∀ f ∈ bandlimited L, R f ≤ R' f) (k : ℕ) (hk : k < L ^ 2) : e.getD k 0 ≤ e'.getD k 0 :=
  numbers_le hL h h' LinearMap.id (fun f hf => ⟨hf, rfl, hR f hf⟩) k hk

theorem numbers_eq {L : ℕ} {R R' : (ℝ → ℝ → ℂ) → ℝ} {e e' : List ℝ} (h : Numbers L R e) (h' : Numbers L R' e')
    (hle : ∀ k < L ^ 2, e.getD k 0 ≤ e'.getD k 0) (hge : ∀ k < L ^ 2, e'.getD k 0 ≤ e.getD k 0) : e = e' := by
  refine List.ext_getElem (h.1.trans h'.1.symm) fun k h1 h2 => ?_
  have := le_antisymm (hle k (h.1 ▸ h1)) (hge k (h.1 ▸ h1))
  simpa [List.getD_eq_getElem?_getD, List.getElem?_eq_getElem h1, List.getElem?_eq_getElem h2] using this

theorem numbers_complement {L : ℕ} {R R' : (ℝ → ℝ → ℂ) → ℝ} {e e' : List ℝ} (h : Numbers L R e) (h' : Numbers L R' e')
    (hR : ∀ f ∈ bandlimited L, R f + R' f = (sphereInner f f).re) (j k : ℕ) (hjk : j + k + 1 = L ^ 2) :
    e.getD j 0 + e'.getD k 0 = 1 := by
  obtain ⟨-, s, h⟩ := h
  obtain ⟨-, s', h'⟩ := h'
  have := complement_numbers h h' (linearOn_bandlimited L) hR ⟨j, by omega⟩
  rw [Fin.val_rev] at this
  simpa [show L ^ 2 - (j + 1) = k by omega] using this

theorem numbers_lt {L L' : ℕ} (hL : L ≤ L') {R R' : (ℝ → ℝ → ℂ) → ℝ} {e e' : List ℝ} (h : Numbers L R e) (h' : Numbers L' R' e')
    (hR : ∀ f ∈ bandlimited L, 0 < (sphereInner f f).re → R f < R' f) (k : ℕ) (hk : k < L ^ 2) : e.getD k 0 < e'.getD k 0 := by
  obtain ⟨-, s, h⟩ := h
  obtain ⟨-, s', h'⟩ := h'
  exact compare_numbers_lt h h' (linearOn_bandlimited L) (linearOn_bandlimited L') LinearMap.id
    (fun f hf => ⟨bandlimited_mono hL hf, rfl⟩) hR k hk (hk.trans_le (Nat.pow_le_pow_left hL 2))

theorem numbers_bounds {L : ℕ} {R : (ℝ → ℝ → ℂ) → ℝ} {e : List ℝ} (h : Numbers L R e) (k : ℕ) (hk : k < L ^ 2) :
    ∃ f ∈ bandlimited L, (sphereInner f f).re = 1 ∧ R f = e.getD k 0 := by
  obtain ⟨-, s, h⟩ := h
  refine ⟨s ⟨k, hk⟩, h.mem _, ?_, h.attained ⟨k, hk⟩⟩
  rw [h.orthonormal, if_pos rfl, one_re]

/-- C111.  A region within another, at the same or a smaller bandlimit, has no greater eigenvalue of any rank. -/
theorem C111_lat_lon_nested (L L' : ℕ) (hL : L ≤ L') (B B' : Bounds) (h0 : 0 ≤ B'.tmin) (h1 : B'.tmin ≤ B.tmin) (h2 : B.tmin ≤ B.tmax)
    (h3 : B.tmax ≤ B'.tmax) (h4 : B'.tmax ≤ Real.pi) (h5 : B'.pmin ≤ B.pmin) (h6 : B.pmin ≤ B.pmax) (h7 : B.pmax ≤ B'.pmax)
    (e e' : List ℝ) (he : LatLonEigenvalues L B e) (he' : LatLonEigenvalues L' B' e') (k : ℕ) (hk : k < L ^ 2) :
    e.getD k 0 ≤ e'.getD k 0 :=
  numbers_le_id hL (lat_lon_numbers ⟨by linarith, by linarith⟩ ⟨by linarith, by linarith⟩ he)
    (lat_lon_numbers ⟨by linarith, by linarith⟩ ⟨by linarith, by linarith⟩ he')
    (fun _ hf => surfaceEnergy_le h0 h1 h2 h3 h4 h6 h5 h7 (continuous_bandlimited hf)) k hk

/-- C111.  If the greater region has an interior and the regions differ, the eigenvalues of the greater one are greater. -/
theorem C111_lat_lon_strict (L L' : ℕ) (hL : L ≤ L') (B B' : Bounds) (h0 : 0 ≤ B'.tmin) (h1 : B'.tmin ≤ B.tmin) (h2 : B.tmin ≤ B.tmax)
    (h3 : B.tmax ≤ B'.tmax) (h4 : B'.tmax ≤ Real.pi) (h5 : B'.pmin ≤ B.pmin) (h6 : B.pmin ≤ B.pmax) (h7 : B.pmax ≤ B'.pmax)
    (ht : B'.tmin < B'.tmax) (hp : B'.pmin < B'.pmax)
    (hne : B ≠ B') (e e' : List ℝ) (he : LatLonEigenvalues L B e) (he' : LatLonEigenvalues L' B' e') (k : ℕ) (hk : k < L ^ 2) :
    e.getD k 0 < e'.getD k 0 := by
  refine numbers_lt hL (lat_lon_numbers ⟨by linarith, by linarith⟩ ⟨by linarith, by linarith⟩ he)
    (lat_lon_numbers ⟨by linarith, by linarith⟩ ⟨by linarith, by linarith⟩ he')
    (fun f hf hpos => surfaceEnergy_lt hf hpos h0 h1 h2 h3 h4 h6 h5 h7 ht hp ?_) k hk
  by_contra hcon
  push Not at hcon
  apply hne
  obtain ⟨a, b, c, d⟩ := B
  obtain ⟨a', b', c', d'⟩ := B'
  simp only at *
  rw [show a = a' by linarith [hcon.1], show b = b' by linarith [hcon.2.1], show c = c' by linarith [hcon.2.2.1], show d = d' by linarith [hcon.2.2.2]]

/-- C111.  A region with an interior has no eigenvalue zero, and one that is not the whole sphere none that is one. -/
theorem C111_lat_lon_between (L : ℕ) (B : Bounds) (h0 : 0 ≤ B.tmin) (h1 : B.tmin < B.tmax) (h2 : B.tmax ≤ Real.pi) (h3 : B.pmin < B.pmax)
    (e : List ℝ) (he : LatLonEigenvalues L B e) (k : ℕ) (hk : k < L ^ 2) :
    0 < e.getD k 0 ∧
    (B.pmax ≤ B.pmin + 2 * Real.pi → (0 < B.tmin ∨ B.tmax < Real.pi ∨ B.pmax < B.pmin + 2 * Real.pi) → e.getD k 0 < 1) := by
  obtain ⟨f, hf, h4, h5⟩ := numbers_bounds (lat_lon_numbers ⟨by linarith, by linarith⟩ ⟨by linarith, by linarith⟩ he) k hk
  have hpos : 0 < (sphereInner f f).re := by rw [h4]; norm_num
  rw [← h5]
  refine ⟨surfaceEnergy_pos hf hpos h0 h1 h2 h3, fun h6 h7 => ?_⟩
  have := Real.pi_pos
  rw [← h4, sphereInner_self, ← surfaceEnergy_round hf 0 Real.pi B.pmin]
  refine surfaceEnergy_lt hf hpos le_rfl h0 h1.le h2 le_rfl h3.le le_rfl h6 Real.pi_pos (by linarith) ?_
  rcases h7 with h | h | h
  · exact Or.inl h
  · exact Or.inr (Or.inl h)
  · exact Or.inr (Or.inr (Or.inr h))

/-- C111.  The same for polar caps and gaps; a gap has no smaller eigenvalues than the cap of the same angle. -/
theorem C111_polar_nested (L L' : ℕ) (hL : L ≤ L') (gap gap' : Bool) (hgap : gap = true → gap' = true) (t t' : ℝ) (h0 : 0 ≤ t)
    (h1 : t ≤ t') (h2 : t' ≤ Real.pi) (e e' : List ℝ) (he : PolarEigenvalues L gap t e) (he' : PolarEigenvalues L' gap' t' e')
    (k : ℕ) (hk : k < L ^ 2) : e.getD k 0 ≤ e'.getD k 0 := by
  have hpi : 0 ≤ 2 * Real.pi := by have := Real.pi_pos; linarith
  refine numbers_le_id hL (polar_numbers h0 (h1.trans h2) he) (polar_numbers (h0.trans h1) h2 he') (fun f hf => ?_) k hk
  have hc := continuous_bandlimited hf
  have a := surfaceEnergy_le le_rfl le_rfl h0 h1 h2 hpi le_rfl le_rfl hc
  have b := surfaceEnergy_le (t2 := Real.pi - t') (t3 := Real.pi) (t0 := Real.pi - t) (t1 := Real.pi) (by linarith) (by linarith)
    (by linarith) le_rfl le_rfl hpi le_rfl le_rfl hc
  have c := surfaceEnergy_nonneg (t0 := Real.pi - t') (t1 := Real.pi) (by linarith) (by linarith) le_rfl hpi f
  unfold capEnergy
  cases gap <;> cases gap' <;> simp_all <;> linarith

/-- C111.  The eigenvalues of polar caps and gaps grow with the angle, -/
theorem C111_polar_strict (L L' : ℕ) (hL : L ≤ L') (gap : Bool) (t t' : ℝ) (h0 : 0 ≤ t) (h1 : t < t') (h2 : t' ≤ Real.pi)
    (e e' : List ℝ) (he : PolarEigenvalues L gap t e) (he' : PolarEigenvalues L' gap t' e')
    (k : ℕ) (hk : k < L ^ 2) : e.getD k 0 < e'.getD k 0 := by
  have hpi : 0 < 2 * Real.pi := by have := Real.pi_pos; linarith
  refine numbers_lt hL (polar_numbers h0 (h1.le.trans h2) he) (polar_numbers (h0.trans h1.le) h2 he') (fun f hf hpos => ?_) k hk
  have a := surfaceEnergy_lt hf hpos le_rfl le_rfl h0 h1.le h2 hpi.le le_rfl le_rfl (by linarith) hpi (Or.inr (Or.inl h1))
  have b := surfaceEnergy_le (t2 := Real.pi - t') (t3 := Real.pi) (t0 := Real.pi - t) (t1 := Real.pi) (by linarith) (by linarith)
    (by linarith) le_rfl le_rfl hpi.le le_rfl le_rfl (continuous_bandlimited hf)
  unfold capEnergy
  cases gap <;> simp <;> linarith

/-- and are between zero and one. -/
theorem C111_polar_between (L : ℕ) (gap : Bool) (t : ℝ) (h0 : 0 < t) (h1 : t ≤ Real.pi) (e : List ℝ) (he : PolarEigenvalues L gap t e)
    (k : ℕ) (hk : k < L ^ 2) :
    0 < e.getD k 0 ∧ ((if gap then t < Real.pi / 2 else t < Real.pi) → e.getD k 0 < 1) := by
  obtain ⟨f, hf, h4, h5⟩ := numbers_bounds (polar_numbers h0.le h1 he) k hk
  have hpos : 0 < (sphereInner f f).re := by rw [h4]; norm_num
  have hpi : 0 < 2 * Real.pi := by have := Real.pi_pos; linarith
  have hc := continuous_bandlimited hf
  have a := surfaceEnergy_pos hf hpos le_rfl h0 h1 hpi
  have b := surfaceEnergy_nonneg (t0 := Real.pi - t) (t1 := Real.pi) (by linarith) (by linarith) le_rfl hpi.le f
  rw [← h5]
  unfold capEnergy
  refine ⟨by cases gap <;> simp <;> linarith, fun h => ?_⟩
  rw [← h4, sphereInner_self]
  have c := surfaceEnergy_add hc 0 t Real.pi 0 (2 * Real.pi)
  cases gap
  · simp only [Bool.false_eq_true, if_false] at h ⊢
    have d := surfaceEnergy_pos hf hpos h0.le h le_rfl hpi
    linarith
  · simp only [if_true] at h ⊢
    have d := surfaceEnergy_pos hf hpos (t0 := t) (t1 := Real.pi - t) h0.le (by linarith) (by linarith) hpi
    have g := surfaceEnergy_add hc t (Real.pi - t) Real.pi 0 (2 * Real.pi)
    linarith

/-- C111.  A polar cap has the eigenvalues of the region limited to its colatitudes and all longitudes, counted from anywhere. -/
theorem C111_cap_as_lat_lon (L : ℕ) (t : ℝ) (h0 : 0 ≤ t) (h1 : t ≤ Real.pi) (B : Bounds) (hB0 : B.tmin = 0) (hB1 : B.tmax = t)
    (hB2 : B.pmax = B.pmin + 2 * Real.pi) (e e' : List ℝ) (he : PolarEigenvalues L false t e) (he' : LatLonEigenvalues L B e') : e = e' := by
  have n1 := polar_numbers h0 h1 he
  have n2 := lat_lon_numbers (by rw [hB0]; exact ⟨le_rfl, Real.pi_pos.le⟩) (by rw [hB1]; exact ⟨h0, h1⟩) he'
  have hR : ∀ f ∈ bandlimited L, capEnergy false t f = surfaceEnergy B.tmin B.tmax B.pmin B.pmax f := by
    intro f hf
    rw [hB0, hB1, hB2, surfaceEnergy_round hf]
    simp [capEnergy]
  exact numbers_eq n1 n2 (numbers_le_id le_rfl n1 n2 fun f hf => (hR f hf).le) (numbers_le_id le_rfl n2 n1 fun f hf => (hR f hf).ge)

/-- C111.  The eigenvalues of a polar cap or gap and of the rest of the sphere, the colatitudes between its edges at all longitudes,
add up to one in opposite order. -/
theorem C111_polar_complement (L : ℕ) (gap : Bool) (t : ℝ) (h0 : 0 ≤ t) (h1 : t ≤ Real.pi) (hgap : gap = true → t ≤ Real.pi / 2)
    (B : Bounds) (hB0 : B.tmin = t) (hB1 : B.tmax = if gap then Real.pi - t else Real.pi) (hB2 : B.pmax = B.pmin + 2 * Real.pi)
    (e e' : List ℝ) (he : PolarEigenvalues L gap t e) (he' : LatLonEigenvalues L B e') (j k : ℕ) (hjk : j + k + 1 = L ^ 2) :
    e.getD j 0 + e'.getD k 0 = 1 := by
  have hpi := Real.pi_pos
  have n1 := polar_numbers h0 h1 he
  have n2 := lat_lon_numbers (by rw [hB0]; exact ⟨h0, h1⟩)
    (by rw [hB1]; cases gap <;> simp <;> [exact hpi.le; exact ⟨h1, h0⟩]) he'
  refine numbers_complement n1 n2 (fun f hf => ?_) j k hjk
  have hc := continuous_bandlimited hf
  rw [sphereInner_self, hB0, hB1, hB2, surfaceEnergy_round hf]
  have a := surfaceEnergy_add hc 0 t Real.pi 0 (2 * Real.pi)
  have b := surfaceEnergy_add hc t (Real.pi - t) Real.pi 0 (2 * Real.pi)
  unfold capEnergy
  cases gap
  · simpa using a
  · simp only [if_true]
    linarith

/-- C111.  Reflecting a region in the equator keeps its eigenvalues. -/
theorem C111_mirror (L : ℕ) (B B' : Bounds) (hB0 : B.tmin ∈ Set.Icc 0 Real.pi) (hB1 : B.tmax ∈ Set.Icc 0 Real.pi)
    (h0 : B'.tmin = Real.pi - B.tmax) (h1 : B'.tmax = Real.pi - B.tmin) (h2 : B'.pmin = B.pmin) (h3 : B'.pmax = B.pmax)
    (e e' : List ℝ) (he : LatLonEigenvalues L B e) (he' : LatLonEigenvalues L B' e') : e = e' := by
  have n1 := lat_lon_numbers hB0 hB1 he
  have n2 := lat_lon_numbers (by rw [h0]; exact ⟨by linarith [hB1.2], by linarith [hB1.1]⟩)
    (by rw [h1]; exact ⟨by linarith [hB0.2], by linarith [hB0.1]⟩) he'
  refine numbers_eq n1 n2 (numbers_le le_rfl n1 n2 mirror fun f hf => ?_) (numbers_le le_rfl n2 n1 mirror fun f hf => ?_)
  · refine ⟨(mirror_spec f hf).1, (mirror_spec f hf).2, ?_⟩
    rw [surfaceEnergy_mirror, h0, h1, h2, h3]
    simp
  · refine ⟨(mirror_spec f hf).1, (mirror_spec f hf).2, ?_⟩
    rw [surfaceEnergy_mirror, h0, h1, h2, h3]

/-- C111.  Turning a region about the axis keeps its eigenvalues. -/
theorem C111_turn (L : ℕ) (B B' : Bounds) (δ : ℝ) (hB0 : B.tmin ∈ Set.Icc 0 Real.pi) (hB1 : B.tmax ∈ Set.Icc 0 Real.pi)
    (h0 : B'.tmin = B.tmin) (h1 : B'.tmax = B.tmax) (h2 : B'.pmin = B.pmin + δ) (h3 : B'.pmax = B.pmax + δ)
    (e e' : List ℝ) (he : LatLonEigenvalues L B e) (he' : LatLonEigenvalues L B' e') : e = e' := by
  have n1 := lat_lon_numbers hB0 hB1 he
  have n2 := lat_lon_numbers (by rw [h0]; exact hB0) (by rw [h1]; exact hB1) he'
  refine numbers_eq n1 n2 (numbers_le le_rfl n1 n2 (turn (-δ)) fun f hf => ?_) (numbers_le le_rfl n2 n1 (turn δ) fun f hf => ?_)
  · refine ⟨(turn_spec _ f hf).1, (turn_spec _ f hf).2, ?_⟩
    rw [surfaceEnergy_turn, h0, h1, h2, h3]
    simp
  · refine ⟨(turn_spec _ f hf).1, (turn_spec _ f hf).2, ?_⟩
    rw [surfaceEnergy_turn, h0, h1, h2, h3]

/-- C111.  The eigenvalues of the lune between two meridians and of the rest of the sphere add up to one in opposite order. -/
theorem C111_lune_complement (L : ℕ) (B B' : Bounds) (h0 : B.tmin = 0) (h1 : B.tmax = Real.pi) (h2 : B'.tmin = 0) (h3 : B'.tmax = Real.pi)
    (h4 : B'.pmin = B.pmax) (h5 : B'.pmax = B.pmin + 2 * Real.pi)
    (e e' : List ℝ) (he : LatLonEigenvalues L B e) (he' : LatLonEigenvalues L B' e') (j k : ℕ) (hjk : j + k + 1 = L ^ 2) :
    e.getD j 0 + e'.getD k 0 = 1 := by
  have hpi := Real.pi_pos.le
  have n1 := lat_lon_numbers (by rw [h0]; exact ⟨le_rfl, hpi⟩) (by rw [h1]; exact ⟨hpi, le_rfl⟩) he
  have n2 := lat_lon_numbers (by rw [h2]; exact ⟨le_rfl, hpi⟩) (by rw [h3]; exact ⟨hpi, le_rfl⟩) he'
  refine numbers_complement n1 n2 (fun f hf => ?_) j k hjk
  rw [sphereInner_self, h0, h1, h2, h3, h4, h5, surfaceEnergy_add_longitude _ _ _ _ _ (continuous_bandlimited hf), surfaceEnergy_round hf]

/-- C111.  A mask of more pixels has no smaller eigenvalues. -/
theorem C111_masks_nested (L : ℕ) (m m' : Integration.Grid (2 * L) → Bool) (hm : ∀ x, m x = true → m' x = true)
    (e e' : List ℝ) (he : MaskEigenvalues L m e) (he' : MaskEigenvalues L m' e') (k : ℕ) (hk : k < L ^ 2) : e.getD k 0 ≤ e'.getD k 0 := by
  refine numbers_le_id le_rfl (mask_numbers he) (mask_numbers he') (fun f _ => ?_) k hk
  have hL : 1 ≤ 2 * L := by
    rcases Nat.eq_zero_or_pos L with rfl | h
    · simp at hk
    · omega
  refine Finset.sum_le_sum_of_subset_of_nonneg (fun x hx => ?_) fun x _ _ => mul_nonneg (by positivity) (Integration.weight_nonneg hL x)
  simp only [Finset.mem_filter, Finset.mem_univ, true_and] at hx ⊢
  exact hm x hx

/-- C111.  The eigenvalues do not depend on the workers, the solver or the sorting: any two solutions give the same list. -/
theorem C111_determined (L : ℕ) :
    (∀ (gap : Bool) (t : ℝ), 0 ≤ t → t ≤ Real.pi → ∀ e e' : List ℝ, PolarEigenvalues L gap t e → PolarEigenvalues L gap t e' → e = e') ∧
    (∀ B : Bounds, B.tmin ∈ Set.Icc 0 Real.pi → B.tmax ∈ Set.Icc 0 Real.pi →
      ∀ e e' : List ℝ, LatLonEigenvalues L B e → LatLonEigenvalues L B e' → e = e') ∧
    (∀ (m : Integration.Grid (2 * L) → Bool) (e e' : List ℝ), MaskEigenvalues L m e → MaskEigenvalues L m e' → e = e') := by
  have key : ∀ (R : (ℝ → ℝ → ℂ) → ℝ) (e e' : List ℝ), Numbers L R e → Numbers L R e' → e = e' := fun R e e' h h' =>
    numbers_eq h h' (numbers_le_id le_rfl h h' fun _ _ => le_rfl) (numbers_le_id le_rfl h' h fun _ _ => le_rfl)
  exact ⟨fun gap t h0 h1 e e' h h' => key _ e e' (polar_numbers h0 h1 h) (polar_numbers h0 h1 h'),
    fun B h0 h1 e e' h h' => key _ e e' (lat_lon_numbers h0 h1 h) (lat_lon_numbers h0 h1 h'),
    fun m e e' h h' => key _ e e' (mask_numbers h) (mask_numbers h')⟩

/-- there are solutions for all regions limited in latitude and longitude, and for all polar caps and gaps. -/
theorem C111_runs_exist (L : ℕ) (hL : 1 ≤ L) :
    (∀ (gap : Bool) (t : ℝ), 0 ≤ t → t ≤ Real.pi → ∃ e, PolarEigenvalues L gap t e) ∧
    (∀ B : Bounds, B.tmin ∈ Set.Icc 0 Real.pi → B.tmax ∈ Set.Icc 0 Real.pi → ∃ e, LatLonEigenvalues L B e) := by
  constructor
  · intro gap t h0 h1
    obtain ⟨plm, M, sol, r, a, b, c, d, s⟩ := C50_polar_runs_exist L gap t
    obtain ⟨e, v, o, rfl, -⟩ := C88_polar L gap t h0 h1 plm a b M c sol d r s
    exact ⟨e, plm, M, sol, v, o, a, b, c, d, s⟩
  · intro B hB0 hB1
    have hpos : 0 < L ^ 2 := by positivity
    obtain ⟨we, K, h⟩ := C49_run_exists L hL B (wignerTable L) (k := 2) (fun t => if t = 0 then List.range L else [])
      (by
        unfold Distributes
        rw [show List.finRange 2 = [0, 1] from rfl]
        simp)
    obtain ⟨-, K', h1, h2⟩ := C49_matrix_of_spherical_harmonics L hL B _ (isWigner_wignerTable L) hB0 hB1 we _ h
    injection h1 with h1
    subst h1
    have hK : ∀ a b : Fin (L ^ 2 - 1 + 1), (starRingEnd ℂ) (K a b) = K b a := by
      intro a b
      have key : ∀ a b : Fin (L ^ 2 - 1 + 1), K a b = surface B.tmin B.tmax B.pmin B.pmax fun th ph =>
          sphHarm (ind2elm a).1 (ind2elm a).2 th ph * (starRingEnd ℂ) (sphHarm (ind2elm b).1 (ind2elm b).2 th ph) := by
        intro a b
        have := h2 (ind2elm a).1 (ind2elm b).1 (ind2elm a).2 (ind2elm b).2 (ind2elm_fst_lt (by omega))
          (ind2elm_fst_lt (by omega)) (ind2elm_abs_le _) (ind2elm_abs_le _)
        rw [elm2ind_ind2elm, elm2ind_ind2elm] at this
        exact this
      rw [key, key, conj_surface]
    obtain ⟨w, V, hE⟩ := exists_eigh (fun r c : Fin (L ^ 2 - 1 + 1) => K r c) hK
    exact ⟨_, L ^ 2 - 1, _, we, K, w, V, _, _, by omega, isWigner_wignerTable L, h, hE,
      ⟨Tuple.sort (fun k => (w k).re), Tuple.monotone_sort _, rfl⟩, rfl⟩

/-- C111.  The eigenvalues of the caps of the angles `t` and `π - t` add up to one in opposite order. -/
theorem C111_caps_complement (L : ℕ) (t : ℝ) (h0 : 0 ≤ t) (h1 : t ≤ Real.pi) (e e' : List ℝ) (he : PolarEigenvalues L false t e)
    (he' : PolarEigenvalues L false (Real.pi - t) e') (j k : ℕ) (hjk : j + k + 1 = L ^ 2) : e.getD j 0 + e'.getD k 0 = 1 := by
  have hL : 1 ≤ L := by
    rcases Nat.eq_zero_or_pos L with rfl | h
    · simp at hjk
    · exact h
  have hpi := Real.pi_pos.le
  have ht : Real.pi - t ∈ Set.Icc 0 Real.pi := ⟨by linarith, by linarith⟩
  obtain ⟨a, ha⟩ := (C111_runs_exist L hL).2 ⟨0, Real.pi - t, 0, 0 + 2 * Real.pi⟩ ⟨le_rfl, hpi⟩ ht
  obtain ⟨b, hb⟩ := (C111_runs_exist L hL).2 ⟨t, Real.pi, 0, 0 + 2 * Real.pi⟩ ⟨h0, h1⟩ ⟨hpi, le_rfl⟩
  obtain rfl := C111_cap_as_lat_lon L (Real.pi - t) ht.1 ht.2 _ rfl rfl rfl e' a he' ha
  obtain rfl := C111_mirror L ⟨0, Real.pi - t, 0, 0 + 2 * Real.pi⟩ ⟨t, Real.pi, 0, 0 + 2 * Real.pi⟩ ⟨le_rfl, hpi⟩ ht (by simp) (by simp) rfl rfl e' b ha hb
  exact C111_polar_complement L false t h0 h1 (by simp) ⟨t, Real.pi, 0, 0 + 2 * Real.pi⟩ rfl (by simp) rfl e e' he hb j k hjk

theorem linearOn_mesh {Vert : Type} [Fintype Vert] {K : ℕ} (φ : Fin K → Vert → ℝ) :
    LinearOn (𝕜 := ℝ) {f : Vert → ℝ | ∃ c : Fin K → ℝ, f = fun v => ∑ i, c i * φ i v} (fun f g => ∑ v, f v * g v) where
  mem := by
    intro m a u hu
    choose b hb using hu
    refine ⟨fun i => ∑ j, a j * b j i, ?_⟩
    funext v
    simp only [Finset.sum_apply, Pi.smul_apply, smul_eq_mul, Finset.sum_mul]
    rw [Finset.sum_comm]
    refine Finset.sum_congr rfl fun j _ => ?_
    rw [hb j, Finset.mul_sum]
    exact Finset.sum_congr rfl fun i _ => by ring
  lin := by
    intro m a u g _ _
    simp only [Finset.sum_apply, Pi.smul_apply, smul_eq_mul, Finset.sum_mul, Finset.mul_sum]
    rw [Finset.sum_comm]
    exact Finset.sum_congr rfl fun j _ => Finset.sum_congr rfl fun v _ => by ring

/-- C111.  On a mesh, with the same basis functions: a region of more vertices has no smaller eigenvalues; the eigenvalues of a region
and of the other vertices add up to one in opposite order. -/
theorem C111_mesh {Vert : Type} [Fintype Vert] {K : ℕ} (ms ms' : MeshT.MeshSlepian Vert) (φ : Fin K → Vert → ℝ) (e e' : Fin K → ℝ)
    (S S' : Fin K → Fin K → ℝ) (rows rows' : ℕ) (h : BuiltMesh ms φ e S rows) (h' : BuiltMesh ms' φ e' S' rows') :
    ((∀ v, ms.region v = true → ms'.region v = true) → ∀ k, e k ≤ e' k) ∧
    ((∀ v, ms'.region v = !ms.region v) → ∀ k, e k + e' k.rev = 1) := by
  constructor
  · intro hr k
    refine compare_numbers (C88_mesh ms φ e S rows h) (C88_mesh ms' φ e' S' rows' h') (linearOn_mesh φ) (linearOn_mesh φ) LinearMap.id
      (fun f hf => ⟨hf, rfl, ?_⟩) k k.2 k.2
    refine Finset.sum_le_sum_of_subset_of_nonneg (fun v hv => ?_) fun v _ _ => sq_nonneg _
    simp only [Finset.mem_filter, Finset.mem_univ, true_and] at hv ⊢
    exact hr v hv
  · intro hr k
    refine complement_numbers (C88_mesh ms φ e S rows h) (C88_mesh ms' φ e' S' rows' h') (linearOn_mesh φ) (fun f _ => ?_) k
    have : ∑ v with ms'.region v = true, f v ^ 2 = ∑ v with ¬ ms.region v = true, f v ^ 2 := by
      congr 1
      ext v
      simp [hr v]
    rw [this, Finset.sum_filter_add_sum_filter_not]
    show ∑ v, f v ^ 2 = ∑ v, f v * f v
    exact Finset.sum_congr rfl fun v _ => sq _

/-- the hypotheses are met: solutions for a quarter and a half of a belt, for a cap and the rest of the sphere. -/
example : ∃ e e' a b : List ℝ, LatLonEigenvalues 3 ⟨1, 2, 0, Real.pi / 2⟩ e ∧ LatLonEigenvalues 5 ⟨1, 2, 0, Real.pi⟩ e' ∧
    (∀ k < 9, e.getD k 0 ≤ e'.getD k 0) ∧ PolarEigenvalues 3 true 1 a ∧ LatLonEigenvalues 3 ⟨1, Real.pi - 1, -1, -1 + 2 * Real.pi⟩ b ∧
    a.getD 0 0 + b.getD 8 0 = 1 := by
  have hpi := Real.pi_gt_three
  have hpi2 : Real.pi - 1 ∈ Set.Icc 0 Real.pi := ⟨by linarith, by linarith⟩
  have h12 : (1 : ℝ) ∈ Set.Icc 0 Real.pi ∧ (2 : ℝ) ∈ Set.Icc 0 Real.pi := ⟨⟨by linarith, by linarith⟩, ⟨by linarith, by linarith⟩⟩
  obtain ⟨e, he⟩ := (C111_runs_exist 3 (by norm_num)).2 ⟨1, 2, 0, Real.pi / 2⟩ h12.1 h12.2
  obtain ⟨e', he'⟩ := (C111_runs_exist 5 (by norm_num)).2 ⟨1, 2, 0, Real.pi⟩ h12.1 h12.2
  obtain ⟨a, ha⟩ := (C111_runs_exist 3 (by norm_num)).1 true 1 (by linarith) (by linarith)
  obtain ⟨b, hb⟩ := (C111_runs_exist 3 (by norm_num)).2 ⟨1, Real.pi - 1, -1, -1 + 2 * Real.pi⟩ h12.1 hpi2
  refine ⟨e, e', a, b, he, he', fun k hk => ?_, ha, hb, ?_⟩
  · exact C111_lat_lon_nested 3 5 (by norm_num) ⟨1, 2, 0, Real.pi / 2⟩ ⟨1, 2, 0, Real.pi⟩ (by norm_num) le_rfl (by norm_num) le_rfl h12.2.2 le_rfl (by positivity)
      (by show Real.pi / 2 ≤ Real.pi; linarith) e e' he he' k (by omega)
  · exact C111_polar_complement 3 true 1 (by norm_num) (by linarith) (fun _ => by linarith) _ rfl rfl rfl a b ha hb 0 8 (by norm_num)

end Sleplet.Props
