import Verif.Props.FirstDecides
import Verif.Props.MovedRegions
import Verif.Props.SharedNames

/-!
C143: reconstructions with the functions of another region.  The cache files of a cap or of a region limited in latitude and longitude do
not tell all angles apart (C11), so an object may hold the functions of another region.  `P` is the signal rebuilt with the functions the
object holds, `P'` with those of its own region.
-/
namespace Sleplet.Props

open Complex Sleplet.Spec Sleplet.Gaunt Sleplet.RealMat Sleplet.Eigen Sleplet.LatLon Sleplet.Region Sleplet.Cache

private theorem round_range {x : ℝ} {n : ℕ} (h0 : 0 ≤ x) (h1 : x ≤ n) : 0 ≤ Py.round x ∧ (Py.round x).toNat ≤ n := by
  have a := Py.round_le_add_half x
  have b := Py.sub_half_le_round x
  have c : (-1 : ℝ) < Py.round x := by linarith
  have d : (Py.round x : ℝ) < n + 1 := by linarith
  have c : (-1 : ℤ) < Py.round x := by exact_mod_cast c
  have d : Py.round x < (n : ℤ) + 1 := by exact_mod_cast d
  omega

private theorem rows_at_hand {V u : List (List ℂ)} {N : ℕ} (hN : N ≤ V.length) (hu : u = V ∨ u = V.take N) :
    N ≤ u.length ∧ ∀ p < N, u.getD p [] = V.getD p [] := by
  rcases hu with rfl | rfl
  · exact ⟨hN, fun _ _ => rfl⟩
  · refine ⟨by rw [List.length_take]; omega, fun p hp => ?_⟩
    simp only [List.getD_eq_getElem?_getD, List.getElem?_take]
    rw [if_pos hp]

private theorem widen {L : ℕ} {R R' : Shape L} {e : List ℝ} {v : List (List ℂ)} (hR : R.Valid) (h : R.Gives e v) {d D : ℝ} (hD : d ≤ D)
    (hd : ∀ f ∈ bandlimited L, |R'.energy f - R.energy f| ≤ d * (sphereInner f f).re) :
    ∀ f ∈ bandlimited L, |R'.energy f - R.energy f| ≤ D * (sphereInner f f).re := by
  intro f hf
  refine (hd f hf).trans (mul_le_mul_of_nonneg_right hD ?_)
  have he := (Shape.best hR h).energy f hf
  change (sphereInner f f).re = _ at he
  rw [he]
  exact Finset.sum_nonneg fun _ _ => sq_nonneg _

/-- two caps, or gaps, with the same files: their energies are close, and the rows saved for the first begin with as many of its functions as
the second asks for. -/
private theorem polar_pair (env : Env) (L : ℕ) (gap : Bool) (t t' : ℝ) (h0 : 0 < t) (h0' : 0 < t') (h1 : t < Real.pi) (h1' : t' < Real.pi)
    (r r' : Obj) (hr : (Region.Slepian.polarCap L t gap).createRegion = .ok r) (hr' : (Region.Slepian.polarCap L t' gap).createRegion = .ok r')
    (hloc : env.location (.polarCap L t gap) r = env.location (.polarCap L t' gap) r')
    (hsolve : (Shape.polar gap t : Shape L).Gives (env.solve (.polarCap L t gap)).1 (env.solve (.polarCap L t gap)).2.1)
    (N : ℤ) (hNd : N = env.shannon (.polarCap L t' gap)) (d : ℝ) (hd : d = (if gap then 2 else 1) * min 1 (L ^ 2 * Real.pi / 360)) :
    (∀ f ∈ bandlimited L, |(Shape.polar gap t' : Shape L).energy f - (Shape.polar gap t : Shape L).energy f| ≤ d * (sphereInner f f).re) ∧
    0 ≤ N ∧ N.toNat ≤ L ^ 2 ∧ N.toNat ≤ (savedRows env (.polarCap L t gap)).length ∧
    ∀ p < N.toNat, (savedRows env (.polarCap L t gap)).getD p [] = (env.solve (.polarCap L t gap)).2.1.getD p [] := by
  obtain ⟨hN, b1, b2⟩ := shared_polar env L gap t t' h1.ne h1'.ne r r' hr hr' hloc
  rw [← hNd] at hN
  have hNr : 0 ≤ N ∧ N.toNat ≤ L ^ 2 := by
    have hc := Real.cos_le_one t'
    have hc' := Real.neg_one_le_cos t'
    have hx : 2 * Real.pi * (1 - Real.cos t') * (L : ℝ) ^ 2 / (4 * Real.pi) = L ^ 2 * ((1 - Real.cos t') / 2) := by
      have := Real.pi_ne_zero
      field_simp
      ring
    rw [hNd]
    change 0 ≤ Py.round (2 * Real.pi * (1 - Real.cos t') * (L : ℝ) ^ 2 / (4 * Real.pi)) ∧
      (Py.round (2 * Real.pi * (1 - Real.cos t') * (L : ℝ) ^ 2 / (4 * Real.pi))).toNat ≤ L ^ 2
    rw [hx]
    refine round_range (mul_nonneg (by positivity) (by linarith)) ?_
    push_cast
    exact mul_le_of_le_one_right (by positivity) (by linarith)
  have hV : (Shape.polar gap t : Shape L).Valid := ⟨h0.le, h1.le⟩
  have hdd : (if gap then 2 else 1) * ((L : ℝ) ^ 2 / 2 * |Real.cos t - Real.cos t'|) ≤ d := by
    have : d = min (if gap then 2 else 1) ((if gap then 2 else 1) * (L ^ 2 * Real.pi / 360)) := by
      rw [hd, mul_min_of_nonneg _ _ (by split_ifs <;> norm_num), mul_one]
    rw [this]
    exact le_min b1 b2
  obtain ⟨q1, q2⟩ := rows_at_hand (V := (env.solve (.polarCap L t gap)).2.1) (u := savedRows env (.polarCap L t gap)) (N := N.toNat)
    (hNr.2.trans_eq (Shape.rows hV hsolve).symm) (by
      by_cases hL : L > 16
      · right
        have : savedRows env (.polarCap L t gap) = slice (env.solve (.polarCap L t gap)).2.1 (env.shannon (.polarCap L t gap)) := if_pos hL
        rw [this, hN, slice, if_pos hNr.1]
      · left
        exact if_neg hL)
  exact ⟨widen hV hsolve hdd fun f hf => moved_cap hf gap ⟨h0.le, h1.le⟩ ⟨h0'.le, h1'.le⟩, hNr.1, hNr.2, q1, q2⟩

/-- C143, polar caps and gaps: after any constructions in a directory that has no files at first, of which the one of the angle `t` was the
first to save under the name. -/
theorem C143_polar (env : Env) (L : ℕ) (gap : Bool) (t t' : ℝ) (h0 : 0 < t) (h0' : 0 < t') (h1 : t < Real.pi) (h1' : t' < Real.pi)
    (r r' : Obj) (hr : (Region.Slepian.polarCap L t gap).createRegion = .ok r) (hr' : (Region.Slepian.polarCap L t' gap).createRegion = .ok r')
    (hloc : env.location (.polarCap L t gap) r = env.location (.polarCap L t' gap) r')
    (hsolve : ∀ u, 0 < u → u < Real.pi →
      (Shape.polar gap u : Shape L).Gives (env.solve (.polarCap L u gap)).1 (env.solve (.polarCap L u gap)).2.1)
    (before after : List Job) (hbefore : ∀ j ∈ before, ¬ SavesAs env (env.location (.polarCap L t' gap) r') j)
    (fs : FS) (h2 : ∀ n, fs.registry n = none) (h3 : ∀ n, fs.user n = none)
    {Pix : Type} [Fintype Pix] (point : Pix → ℝ × ℝ) (synth : (Fin (L ^ 2) → ℂ) → Pix → ℂ)
    (hY : ∀ c x, synth c x = synthesis L (List.ofFn c) (point x).1 (point x).2) (weight : Pix → ℝ) (flm : Fin (L ^ 2) → ℂ) :
    let f := synthesis L (List.ofFn flm)
    let N := env.shannon (.polarCap L t' gap)
    let own := asObject L N (env.solve (.polarCap L t' gap)).1 (env.solve (.polarCap L t' gap)).2.1
    let d : ℝ := (if gap then 2 else 1) * min 1 (L ^ 2 * Real.pi / 360)
    ∃ w v o, (runAlone (runAll env fs (before ++ ⟨.polarCap L t gap, none⟩ :: after)) (construct env ⟨.polarCap L t' gap, none⟩)).1 =
        .ok ⟨.evals w, .evecs v, o⟩ ∧
    ∃ cs cs' P P', P ∈ bandlimited L ∧ P' ∈ bandlimited L ∧
      Transform.slepianForward (asObject L N w v) synth weight { flm := some flm } none = .ok cs ∧
      Transform.slepianInverse (asObject L N w v) synth cs = .ok (fun x => P (point x).1 (point x).2) ∧
      Transform.slepianForward own synth weight { flm := some flm } none = .ok cs' ∧
      Transform.slepianInverse own synth cs' = .ok (fun x => P' (point x).1 (point x).2) ∧
      (∀ g : ℝ, 0 ≤ g → (∀ p < N.toNat, ∀ q, N.toNat ≤ q → q < L ^ 2 → g ≤ w.getD p 0 - w.getD q 0) →
        g * (sphereInner (P - P') (P - P')).re ≤ 2 * N * d * (sphereInner f f).re) ∧
      (∀ g : ℝ, d ≤ g → (∀ p < N.toNat, ∀ q, N.toNat ≤ q → q < L ^ 2 → g ≤ w.getD p 0 - w.getD q 0) →
        (g - d) ^ 2 * (sphereInner (P - P') (P - P')).re ≤ N * d ^ 2 * (sphereInner f f).re) := by
  intro f N own d
  obtain ⟨o, ho, -⟩ := C144_first_decides env before after ⟨.polarCap L t gap, none⟩ (.polarCap L t' gap) (env.location (.polarCap L t' gap) r')
    ⟨by simp only [Slepian.validate, h0'.ne', if_false], r', hr', rfl⟩ hbefore
    ⟨⟨by simp only [Slepian.validate, h0.ne', if_false], r, hr, hloc⟩, fun _ => rfl⟩ (fun _ _ _ _ => trivial) (fun _ => trivial) fs h2 h3
  refine ⟨_, _, _, ho, ?_⟩
  obtain ⟨hd, hN0, hN, q1, q2⟩ := polar_pair env L gap t t' h0 h0' h1 h1' r r' hr hr' hloc (hsolve t h0 h1) N rfl d rfl
  have hcast : ((N.toNat : ℕ) : ℤ) = N := Int.toNat_of_nonneg hN0
  have hcast' : ((N.toNat : ℕ) : ℝ) = (N : ℝ) := by exact_mod_cast congrArg (Int.cast : ℤ → ℝ) hcast
  have hV : (Shape.polar gap t : Shape L).Valid := ⟨h0.le, h1.le⟩
  have hV' : (Shape.polar gap t' : Shape L).Valid := ⟨h0'.le, h1'.le⟩
  obtain ⟨cs, cs', P, P', a1, a2, a3, a4, a5, a6, -, a7, a8, -⟩ := moved_rows hV hV' (hsolve t h0 h1) (hsolve t' h0' h1') d hd N.toNat hN
    _ _ _ q1 q2 _ (hN.trans_eq (Shape.rows hV' (hsolve t' h0' h1')).symm) (fun _ _ => rfl) point synth hY weight flm
  rw [hcast] at a3 a4 a5 a6
  rw [hcast'] at a7 a8
  exact ⟨cs, cs', P, P', a1, a2, a3, a4, a5, a6, a7, a8⟩

/-- C143, regions limited in latitude and longitude: the same. -/
theorem C143_lat_lon (env : Env) (L : ℕ) (B B' : Bounds) (h1 : B.tmin ≤ B.tmax) (h2 : B.pmin ≤ B.pmax)
    (h1' : B'.tmin ≤ B'.tmax) (h2' : B'.pmin ≤ B'.pmax) (hp : ¬ (B.pmin = 0 ∧ B.pmax = 2 * Real.pi ∧ B.tmin = 0))
    (hp' : ¬ (B'.pmin = 0 ∧ B'.pmax = 2 * Real.pi ∧ B'.tmin = 0)) (r r' : Obj) (s s' : Region.Slepian)
    (hs : s = .limitLatLon L B.tmin B.tmax B.pmin B.pmax) (hs' : s' = .limitLatLon L B'.tmin B'.tmax B'.pmin B'.pmax)
    (hr : s.createRegion = .ok r) (hr' : s'.createRegion = .ok r') (hloc : env.location s r = env.location s' r')
    (hsolve : (Shape.latLon B : Shape L).Gives (env.solve s).1 (env.solve s).2.1)
    (hsolve' : (Shape.latLon B' : Shape L).Gives (env.solve s').1 (env.solve s').2.1)
    (before after : List Job) (hbefore : ∀ j ∈ before, ¬ SavesAs env (env.location s' r') j)
    (hafter : ∀ j ∈ after, NamedAs env (env.location s' r') j → ¬ IsPolar j.s)
    (fs : FS) (g1 : ∀ n, fs.registry n = none) (g2 : ∀ n, fs.user n = none)
    {Pix : Type} [Fintype Pix] (point : Pix → ℝ × ℝ) (synth : (Fin (L ^ 2) → ℂ) → Pix → ℂ)
    (hY : ∀ c x, synth c x = synthesis L (List.ofFn c) (point x).1 (point x).2) (weight : Pix → ℝ) (flm : Fin (L ^ 2) → ℂ) :
    let f := synthesis L (List.ofFn flm)
    let N := env.shannon s'
    let own := asObject L N (env.solve s').1 (env.solve s').2.1
    let d : ℝ := L ^ 2 * (Real.pi + 1) / 180
    ∃ w v o, (runAlone (runAll env fs (before ++ ⟨s, none⟩ :: after)) (construct env ⟨s', none⟩)).1 = .ok ⟨.evals w, .evecs v, o⟩ ∧
    ∃ cs cs' P P', P ∈ bandlimited L ∧ P' ∈ bandlimited L ∧
      Transform.slepianForward (asObject L N w v) synth weight { flm := some flm } none = .ok cs ∧
      Transform.slepianInverse (asObject L N w v) synth cs = .ok (fun x => P (point x).1 (point x).2) ∧
      Transform.slepianForward own synth weight { flm := some flm } none = .ok cs' ∧
      Transform.slepianInverse own synth cs' = .ok (fun x => P' (point x).1 (point x).2) ∧
      (∀ g : ℝ, 0 ≤ g → (∀ p < N.toNat, ∀ q, N.toNat ≤ q → q < L ^ 2 → g ≤ w.getD p 0 - w.getD q 0) →
        g * (sphereInner (P - P') (P - P')).re ≤ 2 * N * d * (sphereInner f f).re) ∧
      (∀ g : ℝ, d ≤ g → (∀ p < N.toNat, ∀ q, N.toNat ≤ q → q < L ^ 2 → g ≤ w.getD p 0 - w.getD q 0) →
        (g - d) ^ 2 * (sphereInner (P - P') (P - P')).re ≤ N * d ^ 2 * (sphereInner f f).re) := by
  intro f N own d
  have hpi := Real.pi_pos
  have hnp : ¬ IsPolar s' := by subst hs'; exact id
  obtain ⟨o, ho, -⟩ := C144_first_decides env before after ⟨s, none⟩ s' (env.location s' r') ⟨by subst hs'; rfl, r', hr', rfl⟩ hbefore
    ⟨⟨by subst hs; rfl, r, hr, hloc⟩, fun _ => rfl⟩ (fun j hj hn h => absurd h (hafter j hj hn)) (fun h => absurd h hnp) fs g1 g2
  refine ⟨_, _, _, ho, ?_⟩
  obtain ⟨hx, -, hN⟩ := C12_location_parses _ _ _ _ _ _ hloc
  have hN : env.shannon s = N := hN
  have hx : r.nameEnding = r'.nameEnding := by subst hs hs'; exact hx
  rw [latLon_name hp (hs ▸ hr), latLon_name hp' (hs' ▸ hr')] at hx
  obtain ⟨⟨k1, k2, k3, k4⟩, -, -⟩ := mk_ok_args (by subst hs; exact hr)
  obtain ⟨⟨k1', k2', k3', k4'⟩, -, -⟩ := mk_ok_args (by subst hs'; exact hr')
  dsimp only at k1 k2 k3 k4 k1' k2' k3' k4'
  obtain ⟨d1, d2, d3, d4⟩ := latLon_ending_inj (degree_nonneg k4.1) (degree_nonneg k2.1) (degree_nonneg k4'.1) (degree_nonneg k2'.1) hx
  have hNr : 0 ≤ N ∧ N.toNat ≤ L ^ 2 := by
    have c1 : Real.cos B'.tmax ≤ Real.cos B'.tmin := Real.cos_le_cos_of_nonneg_of_le_pi k4'.1 k3'.2 h1'
    have c2 := Real.cos_le_one B'.tmin
    have c3 := Real.neg_one_le_cos B'.tmax
    have hx : N = Py.round ((B'.pmax - B'.pmin) * (Real.cos B'.tmin - Real.cos B'.tmax) * (L : ℝ) ^ 2 / (4 * Real.pi)) := by
      change env.shannon s' = _
      subst hs'
      rfl
    have c4 : 0 ≤ (B'.pmax - B'.pmin) * (Real.cos B'.tmin - Real.cos B'.tmax) := mul_nonneg (by linarith) (by linarith)
    have c5 : (B'.pmax - B'.pmin) * (Real.cos B'.tmin - Real.cos B'.tmax) ≤ 4 * Real.pi := by
      calc _ ≤ 2 * Real.pi * 2 := mul_le_mul (by linarith [k1'.2, k2'.1]) (by linarith) (by linarith) (by linarith)
        _ = _ := by ring
    rw [hx]
    refine round_range (by positivity) ?_
    rw [div_le_iff₀ (by linarith)]
    push_cast
    rw [mul_comm ((L : ℝ) ^ 2)]
    exact mul_le_mul_of_nonneg_right c5 (by positivity)
  have hcast : ((N.toNat : ℕ) : ℤ) = N := Int.toNat_of_nonneg hNr.1
  have hcast' : ((N.toNat : ℕ) : ℝ) = (N : ℝ) := by exact_mod_cast congrArg (Int.cast : ℤ → ℝ) hcast
  have hb0 : B.tmin ∈ Set.Icc 0 Real.pi := ⟨k4.1, h1.trans k3.2⟩
  have hb1 : B.tmax ∈ Set.Icc 0 Real.pi := ⟨k4.1.trans h1, k3.2⟩
  have hb0' : B'.tmin ∈ Set.Icc 0 Real.pi := ⟨k4'.1, h1'.trans k3'.2⟩
  have hb1' : B'.tmax ∈ Set.Icc 0 Real.pi := ⟨k4'.1.trans h1', k3'.2⟩
  have hV : (Shape.latLon B : Shape L).Valid := ⟨hb0, hb1⟩
  have hV' : (Shape.latLon B' : Shape L).Valid := ⟨hb0', hb1'⟩
  have hdd : (L : ℝ) ^ 2 / (4 * Real.pi) * swept B B' ≤ d := by
    have e1 := (Real.abs_cos_sub_cos_le B.tmin B'.tmin).trans (degree_close d1)
    have e2 := (Real.abs_cos_sub_cos_le B.tmax B'.tmax).trans (degree_close d2)
    have e3 := degree_close d3
    have e4 := degree_close d4
    have e5 : |B.pmax - B.pmin| ≤ 2 * Real.pi := by rw [abs_of_nonneg (by linarith)]; linarith [k1.2, k2.1]
    have e6 : |Real.cos B'.tmin - Real.cos B'.tmax| ≤ 2 := by
      rw [abs_le]
      constructor <;> linarith [Real.cos_le_one B'.tmin, Real.neg_one_le_cos B'.tmax, Real.neg_one_le_cos B'.tmin, Real.cos_le_one B'.tmax]
    have e7 : swept B B' ≤ (Real.pi / 180 + Real.pi / 180) * (2 * Real.pi) + (Real.pi / 180 + Real.pi / 180) * 2 := by
      unfold swept
      exact add_le_add (mul_le_mul (add_le_add e1 e2) e5 (abs_nonneg _) (by positivity))
        (mul_le_mul (add_le_add e3 e4) e6 (abs_nonneg _) (by positivity))
    calc _ ≤ (L : ℝ) ^ 2 / (4 * Real.pi) * ((Real.pi / 180 + Real.pi / 180) * (2 * Real.pi) + (Real.pi / 180 + Real.pi / 180) * 2) :=
          mul_le_mul_of_nonneg_left e7 (by positivity)
      _ = L ^ 2 * (Real.pi + 1) / 180 := by field_simp; ring
  obtain ⟨q1, q2⟩ := rows_at_hand (V := (env.solve s).2.1) (u := savedRows env s) (N := N.toNat)
    (hNr.2.trans_eq (Shape.rows hV hsolve).symm) (by
      right
      have : savedRows env s = slice (env.solve s).2.1 (env.shannon s) := by subst hs; rfl
      rw [this, hN, slice, if_pos hNr.1])
  obtain ⟨cs, cs', P, P', a1, a2, a3, a4, a5, a6, -, a7, a8, -⟩ := moved_rows hV hV' hsolve hsolve' d
    (widen hV hsolve hdd fun f hf => moved_box hf B B' hb0 hb1 hb0' hb1') N.toNat hNr.2
    _ _ _ q1 q2 _ (hNr.2.trans_eq (Shape.rows hV' hsolve').symm) (fun _ _ => rfl) point synth hY weight flm
  rw [hcast] at a3 a4 a5 a6
  rw [hcast'] at a7 a8
  exact ⟨cs, cs', P, P', a1, a2, a3, a4, a5, a6, a7, a8⟩

/-- the hypotheses are met with one function kept: for the angles one and 1.001, both 57 degrees, at bandlimit two, when a single order was
constructed before. -/
example : ∃ (env : Env) (r r' : Obj), (Region.Slepian.polarCap 2 1 false).createRegion = .ok r ∧
    (Region.Slepian.polarCap 2 (1 + 1 / 1000) false).createRegion = .ok r' ∧
    env.location (.polarCap 2 1 false) r = env.location (.polarCap 2 (1 + 1 / 1000) false) r' ∧
    env.shannon (.polarCap 2 (1 + 1 / 1000) false) = 1 ∧
    (∀ u, 0 < u → u < Real.pi →
      (Shape.polar false u : Shape 2).Gives (env.solve (.polarCap 2 u false)).1 (env.solve (.polarCap 2 u false)).2.1) ∧
    ∀ j ∈ [(⟨.polarCap 2 1 false, some 0⟩ : Job)], ¬ SavesAs env (env.location (.polarCap 2 (1 + 1 / 1000) false) r') j := by
  obtain ⟨env, -, h1, -⟩ := exists_solver fun _ _ _ => false
  obtain ⟨r, r', hr, hr', hloc, hn⟩ := two_caps env
  refine ⟨env, r, r', hr, hr', hloc, hn, fun u h0 h2 => ?_, fun j hj h => ?_⟩
  · obtain ⟨plm, M, sol, a, b, c, d, s⟩ := h1 2 u false (by norm_num) h0.le h2.le
    exact ⟨plm, M, sol, _, a, b, c, d, s⟩
  · rw [List.mem_singleton.1 hj] at h
    exact absurd (h.2 trivial) (by simp)

/-- the hypotheses are met with one function kept: for two boxes that reach the equator and end at the longitudes three and 3.001, both 172
degrees, at bandlimit two; the lists of other constructions may be empty. -/
example : ∃ (env : Env) (r r' : Obj), (Region.Slepian.limitLatLon 2 0 (Real.pi / 2) 0 3).createRegion = .ok r ∧
    (Region.Slepian.limitLatLon 2 0 (Real.pi / 2) 0 (3 + 1 / 1000)).createRegion = .ok r' ∧
    env.location (.limitLatLon 2 0 (Real.pi / 2) 0 3) r = env.location (.limitLatLon 2 0 (Real.pi / 2) 0 (3 + 1 / 1000)) r' ∧
    env.shannon (.limitLatLon 2 0 (Real.pi / 2) 0 (3 + 1 / 1000)) = 1 ∧
    ∀ u, (Shape.latLon ⟨0, Real.pi / 2, 0, u⟩ : Shape 2).Gives (env.solve (.limitLatLon 2 0 (Real.pi / 2) 0 u)).1
      (env.solve (.limitLatLon 2 0 (Real.pi / 2) 0 u)).2.1 := by
  have hpi := Real.pi_gt_three
  obtain ⟨env, -, -, h1, -⟩ := exists_solver fun _ _ _ => false
  obtain ⟨r, r', hr, hr', hloc, hn⟩ := two_boxes env
  refine ⟨env, r, r', hr, hr', hloc, hn, fun u => ?_⟩
  obtain ⟨n, dl, we, K, w, V, ev, S, q1, q2, q3, q4, q5, q6, q7⟩ := h1 2 0 (Real.pi / 2) 0 u (by norm_num) ⟨le_rfl, by linarith⟩
      ⟨by linarith, by linarith⟩
  exact ⟨n, dl, we, K, w, V, ev, S, q1, q2, q3, q4, q5, q6, q7⟩

/-- C145, caps and gaps: in every history in which all that share a cap's name are caps, what the object holds is close to the cap's own
solution, also when eigenvalues and functions come from two others. -/
theorem C145_polar (env : Env) (L : ℕ) (gap : Bool) (t : ℝ) (h0 : 0 < t) (h1 : t < Real.pi) (r : Obj)
    (hr : (Region.Slepian.polarCap L t gap).createRegion = .ok r) (A : Region.Slepian → Prop)
    (hcaps : ∀ s', Shares env A (env.location (.polarCap L t gap) r) s' → ∃ u, 0 < u ∧ u < Real.pi ∧ s' = .polarCap L u gap)
    (hsolve : ∀ u, 0 < u → u < Real.pi →
      (Shape.polar gap u : Shape L).Gives (env.solve (.polarCap L u gap)).1 (env.solve (.polarCap L u gap)).2.1)
    (st st' : State) (hst : Start env A st) (hreach : Relation.ReflTransGen (Cache.Step env (fun j => A j.s) fun _ => True) st st') (res : Result)
    (hj : ((⟨.polarCap L t gap, none⟩ : Job), .running (.done (.ok res))) ∈ st'.procs)
    {Pix : Type} [Fintype Pix] (point : Pix → ℝ × ℝ) (synth : (Fin (L ^ 2) → ℂ) → Pix → ℂ)
    (hY : ∀ c x, synth c x = synthesis L (List.ofFn c) (point x).1 (point x).2) (weight : Pix → ℝ) (flm : Fin (L ^ 2) → ℂ) :
    let f := synthesis L (List.ofFn flm)
    let N := env.shannon (.polarCap L t gap)
    let e := (env.solve (.polarCap L t gap)).1
    let own := asObject L N e (env.solve (.polarCap L t gap)).2.1
    let d : ℝ := (if gap then 2 else 1) * min 1 (L ^ 2 * Real.pi / 360)
    ∃ w v, res.evals = .evals w ∧ res.evecs = .evecs v ∧ (∀ p < L ^ 2, |w.getD p 0 - e.getD p 0| ≤ d) ∧
    ∃ cs cs' P P', P ∈ bandlimited L ∧ P' ∈ bandlimited L ∧
      Transform.slepianForward own synth weight { flm := some flm } none = .ok cs ∧
      Transform.slepianInverse own synth cs = .ok (fun x => P (point x).1 (point x).2) ∧
      Transform.slepianForward (asObject L N w v) synth weight { flm := some flm } none = .ok cs' ∧
      Transform.slepianInverse (asObject L N w v) synth cs' = .ok (fun x => P' (point x).1 (point x).2) ∧
      (∀ g : ℝ, 0 ≤ g → (∀ p < N.toNat, ∀ q, N.toNat ≤ q → q < L ^ 2 → g ≤ e.getD p 0 - e.getD q 0) →
        g * (sphereInner (P - P') (P - P')).re ≤ 2 * N * d * (sphereInner f f).re) ∧
      (∀ g : ℝ, d ≤ g → (∀ p < N.toNat, ∀ q, N.toNat ≤ q → q < L ^ 2 → g ≤ e.getD p 0 - e.getD q 0) →
        (g - d) ^ 2 * (sphereInner (P - P') (P - P')).re ≤ N * d ^ 2 * (sphereInner f f).re) := by
  intro f N e own d
  have hV : ∀ u, 0 < u → u < Real.pi → (Shape.polar gap u : Shape L).Valid := fun u a b => ⟨a.le, b.le⟩
  have hflip : ∀ u, 0 < u → u < Real.pi → ∀ q, (Region.Slepian.polarCap L u gap).createRegion = .ok q →
      env.location (.polarCap L u gap) q = env.location (.polarCap L t gap) r →
      (∀ f ∈ bandlimited L, |(Shape.polar gap u : Shape L).energy f - (Shape.polar gap t : Shape L).energy f| ≤ d * (sphereInner f f).re) ∧
      0 ≤ N ∧ N.toNat ≤ L ^ 2 ∧ N.toNat ≤ (savedRows env (.polarCap L u gap)).length ∧
      ∀ p < N.toNat, (savedRows env (.polarCap L u gap)).getD p [] = (env.solve (.polarCap L u gap)).2.1.getD p [] := by
    intro u a b q hq hloc
    obtain ⟨k1, k2⟩ := polar_pair env L gap u t a h0 b h1 q r hq hr hloc (hsolve u a b) N rfl d rfl
    exact ⟨fun f hf => by rw [abs_sub_comm]; exact k1 f hf, k2⟩
  obtain ⟨u₁, u₂, rows, a₁, b₁, a₂, b₂, hd₁, hd₂, hN0, hN, q1, q2, hw, hv⟩ : ∃ (u₁ u₂ : ℝ) (rows : List (List ℂ)),
      0 < u₁ ∧ u₁ < Real.pi ∧ 0 < u₂ ∧ u₂ < Real.pi ∧
      (∀ f ∈ bandlimited L, |(Shape.polar gap u₁ : Shape L).energy f - (Shape.polar gap t : Shape L).energy f| ≤ d * (sphereInner f f).re) ∧
      (∀ f ∈ bandlimited L, |(Shape.polar gap u₂ : Shape L).energy f - (Shape.polar gap t : Shape L).energy f| ≤ d * (sphereInner f f).re) ∧
      0 ≤ N ∧ N.toNat ≤ L ^ 2 ∧ N.toNat ≤ rows.length ∧ (∀ p < N.toNat, rows.getD p [] = (env.solve (.polarCap L u₂ gap)).2.1.getD p []) ∧
      res.evals = .evals (env.solve (.polarCap L u₁ gap)).1 ∧ res.evecs = .evecs rows := by
    rcases C145_of_the_name env A st st' hst hreach _ r hr res hj with ⟨hw, hv, -⟩ | ⟨s₁, s₂, hs₁, hs₂, hw, hv, -⟩
    · obtain ⟨k1, k2, k3, -⟩ := hflip t h0 h1 r hr rfl
      exact ⟨t, t, _, h0, h1, h0, h1, k1, k1, k2, k3, k3.trans_eq (Shape.rows (hV t h0 h1) (hsolve t h0 h1)).symm, fun _ _ => rfl, hw, hv⟩
    · obtain ⟨u₁, a₁, b₁, rfl⟩ := hcaps s₁ hs₁
      obtain ⟨u₂, a₂, b₂, rfl⟩ := hcaps s₂ hs₂
      obtain ⟨-, q₁, hq₁, hl₁⟩ := hs₁
      obtain ⟨-, q₂, hq₂, hl₂⟩ := hs₂
      obtain ⟨k1, -⟩ := hflip u₁ a₁ b₁ q₁ hq₁ hl₁
      obtain ⟨m1, m2, m3, m4, m5⟩ := hflip u₂ a₂ b₂ q₂ hq₂ hl₂
      exact ⟨u₁, u₂, _, a₁, b₁, a₂, b₂, k1, m1, m2, m3, m4, m5, hw, hv⟩
  have hcast : ((N.toNat : ℕ) : ℤ) = N := Int.toNat_of_nonneg hN0
  have hcast' : ((N.toNat : ℕ) : ℝ) = (N : ℝ) := by exact_mod_cast congrArg (Int.cast : ℤ → ℝ) hcast
  have hrows := Shape.rows (hV t h0 h1) (hsolve t h0 h1)
  obtain ⟨-, -, -, -, -, -, -, -, -, -, hev, -⟩ := moved_rows (hV t h0 h1) (hV u₁ a₁ b₁) (hsolve t h0 h1) (hsolve u₁ a₁ b₁) d hd₁ N.toNat hN
    [] [] _ (hN.trans_eq hrows.symm) (fun _ _ => rfl) _ (hN.trans_eq (Shape.rows (hV u₁ a₁ b₁) (hsolve u₁ a₁ b₁)).symm) (fun _ _ => rfl)
    point synth hY weight flm
  obtain ⟨cs, cs', P, P', c1, c2, c3, c4, c5, c6, -, c7, c8, -⟩ := moved_rows (hV t h0 h1) (hV u₂ a₂ b₂) (hsolve t h0 h1) (hsolve u₂ a₂ b₂)
    d hd₂ N.toNat hN (env.solve (.polarCap L t gap)).1 (env.solve (.polarCap L u₁ gap)).1 _ (hN.trans_eq hrows.symm) (fun _ _ => rfl) rows q1 q2
    point synth hY weight flm
  rw [hcast] at c3 c4 c5 c6
  rw [hcast'] at c7 c8
  exact ⟨_, _, hw, hv, hev, cs, cs', P, P', c1, c2, c3, c4, c5, c6, c7, c8⟩

/-- the hypotheses are met: the caps of angles one and 1.001 at bandlimit two share their files, and one of them was constructed. -/
example : ∃ (env : Env) (r r' : Obj) (A : Region.Slepian → Prop) (st st' : State) (res : Result),
    (Region.Slepian.polarCap 2 1 false).createRegion = .ok r ∧
    Shares env A (env.location (.polarCap 2 1 false) r) (.polarCap 2 (1 + 1 / 1000) false) ∧
    (∀ s', Shares env A (env.location (.polarCap 2 1 false) r) s' → ∃ u, 0 < u ∧ u < Real.pi ∧ s' = .polarCap 2 u false) ∧
    (∀ u, 0 < u → u < Real.pi →
      (Shape.polar false u : Shape 2).Gives (env.solve (.polarCap 2 u false)).1 (env.solve (.polarCap 2 u false)).2.1) ∧
    Start env A st ∧ Relation.ReflTransGen (Cache.Step env (fun j => A j.s) fun _ => True) st st' ∧
    ((⟨.polarCap 2 1 false, none⟩ : Job), .running (.done (.ok res))) ∈ st'.procs := by
  have hpi := Real.pi_gt_three
  obtain ⟨env, -, h1, -⟩ := exists_solver fun _ _ _ => false
  obtain ⟨r, r', hr, hr', hloc, -⟩ := two_caps env
  refine ⟨env, r, r', fun s => s = .polarCap 2 1 false ∨ s = .polarCap 2 (1 + 1 / 1000) false, ⟨⟨fun _ => none, fun _ => none⟩, []⟩, _,
    ⟨.evals (env.solve (.polarCap 2 1 false)).1, .evecs (env.solve (.polarCap 2 1 false)).2.1, some (.orders (env.solve (.polarCap 2 1 false)).2.2)⟩, hr,
    ⟨Or.inr rfl, r', hr', hloc.symm⟩, fun s' hs' => ?_, fun u h0 h2 => ?_, ⟨rfl, fun _ => rfl, fun _ _ h => by cases h⟩,
    .head (Cache.Step.spawn _ [] ⟨.polarCap 2 1 false, none⟩ (Or.inl rfl)) (runAlone_reach _ _ _ _ _ _), ?_⟩
  · rcases hs'.1 with rfl | rfl
    · exact ⟨1, by norm_num, by linarith, rfl⟩
    · exact ⟨1 + 1 / 1000, by norm_num, by linarith, rfl⟩
  · obtain ⟨plm, M, sol, a, b, c, d, s⟩ := h1 2 u false (by norm_num) h0.le h2.le
    exact ⟨plm, M, sol, _, a, b, c, d, s⟩
  · rw [run_polar_fresh env 2 1 false r one_ne_zero hr _ (fun _ => rfl) (fun _ => rfl)]
    exact List.mem_singleton.2 rfl

end Sleplet.Props
