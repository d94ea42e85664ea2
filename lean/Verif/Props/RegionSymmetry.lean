import Verif.Lemmas.GridHarmonics
import Verif.Lemmas.Motions
import Verif.Props.RelatedRegions

/-!
C133: the symmetries of a region are symmetries of its Slepian functions.
-/
namespace Sleplet.Props

open Complex Sleplet.Spec Sleplet.Gaunt Sleplet.RealMat Sleplet.Eigen Sleplet.LatLon

/-- the regions of the sphere: polar caps and gaps, regions limited in latitude and longitude, and masks. -/
inductive Shape (L : ℕ)
  | polar (gap : Bool) (t : ℝ)
  | latLon (B : Bounds)
  | mask (m : Integration.Grid (2 * L) → Bool)

/-- its angles are colatitudes. -/
def Shape.Valid {L : ℕ} : Shape L → Prop
  | polar _ t => 0 ≤ t ∧ t ≤ Real.pi
  | latLon B => B.tmin ∈ Set.Icc 0 Real.pi ∧ B.tmax ∈ Set.Icc 0 Real.pi
  | mask _ => True

/-- `e` and `v` are eigenvalues and coefficients of Slepian functions that the solution for the region gives, for some workers, solver
and sorting within their contracts. -/
def Shape.Gives {L : ℕ} (e : List ℝ) (v : List (List ℂ)) : Shape L → Prop
  | polar gap t => ∃ (plm : List ℝ) (M : ℤ → ℕ → ℕ → ℝ) (sol : ℤ → OrderSolution) (o : List ℤ),
      plm.length = (2 * L) ^ 2 ∧ (∀ n < 2 * L, plm.getD (elm2ind n 0) 0 = (sphHarm n 0 t 0).re) ∧
      (∀ m : ℤ, m.natAbs < L → ∃ ncpu we, 1 ≤ ncpu ∧ CreatesOrder L gap plm m ncpu we (.ok (M m))) ∧
      (∀ m : ℤ, m.natAbs < L → IsEighOrder (L - m.natAbs) (M m) (sol m)) ∧ SolvesAll L sol (.ok (e, v, o))
  | latLon B => ∃ (n : ℕ) (dl : Table) (we : ℕ → Option Err) (K : Mat) (w : Fin (n + 1) → ℂ) (V : Fin (n + 1) → Fin (n + 1) → ℂ)
      (ev : Fin (n + 1) → ℝ) (S : Fin (n + 1) → Fin (n + 1) → ℂ), n + 1 = L ^ 2 ∧ IsWigner L dl ∧ CreatesK L B dl we (.ok K) ∧
      IsEigh (fun r c : Fin (n + 1) => K r c) w V ∧ CleansLatLon w V ev S ∧ e = List.ofFn ev ∧ v = List.ofFn fun p => List.ofFn (S p)
  | mask m => ∃ (n : ℕ) (P : Arb.Params (Integration.Grid (2 * L))) (ncpu : ℕ) (we : ℕ → Option Err) (M : ℕ → ℕ → ℂ)
      (w : Fin (n + 1) → ℂ) (V : Fin (n + 1) → Fin (n + 1) → ℂ) (ev : Fin (n + 1) → ℝ) (S : Fin (n + 1) → Fin (n + 1) → ℂ),
      n + 1 = L ^ 2 ∧ OnGrid L m P ∧ 1 ≤ ncpu ∧ Arb.CreatesD P ncpu we (.ok M) ∧ IsEigh (fun r c : Fin (n + 1) => M r c) w V ∧
      CleansArbitrary w V ev S ∧ e = List.ofFn ev ∧ v = List.ofFn fun p => List.ofFn (S p)

/-- motions of the sphere: the reflection in the equator, the reflection of longitudes whose sum is `c`, the turn by `δ`. -/
inductive Motion
  | equator
  | meridian (c : ℝ)
  | turn (δ : ℝ)

/-- where a motion takes a point. -/
noncomputable def Motion.move : Motion → ℝ → ℝ → ℝ × ℝ
  | equator, th, ph => (Real.pi - th, ph)
  | meridian c, th, ph => (th, c - ph)
  | turn δ, th, ph => (th, ph + δ)

/-- the motion keeps the region. -/
def Shape.KeptBy {L : ℕ} : Shape L → Motion → Prop
  | polar gap _, .equator => gap = true
  | polar _ _, .meridian _ => True
  | polar _ _, .turn _ => True
  | latLon B, .equator => B.tmin + B.tmax = Real.pi
  | latLon B, .meridian c => B.pmin + B.pmax = c
  | latLon B, .turn _ => B.pmax = B.pmin + 2 * Real.pi
  | mask m, .equator => ∀ i j, m (i.rev, j) = m (i, j)
  | mask m, .meridian c => ∃ k : Fin (2 * (2 * L)), c = k.val * (Real.pi / (2 * L)) ∧ ∀ i j, m (i, k - j) = m (i, j)
  | mask m, .turn δ => ∃ k : Fin (2 * (2 * L)), δ = k.val * (Real.pi / (2 * L)) ∧ ∀ i j, m (i, j + k) = m (i, j)

/-- the energy in the region that the solution is about. -/
noncomputable def Shape.energy {L : ℕ} : Shape L → (ℝ → ℝ → ℂ) → ℝ
  | polar gap t => capEnergy gap t
  | latLon B => surfaceEnergy B.tmin B.tmax B.pmin B.pmax
  | mask m => fun f => ∑ x with m x, ‖f (Integration.theta x) (Integration.phi x)‖ ^ 2 * Integration.weight (2 * L) x

theorem best_cast {N L : ℕ} (hN : N = L ^ 2) {R : (ℝ → ℝ → ℂ) → ℝ} {S : Fin N → Fin N → ℂ} {ev : Fin N → ℝ}
    (h : BestConcentrated (bandlimited L) sphereInner R (fun p => synthesis L (List.ofFn (S p))) ev) :
    BestConcentrated (bandlimited L) sphereInner R (fun p : Fin (L ^ 2) => synthesis L ((List.ofFn fun p => List.ofFn (S p)).getD p []))
      (fun p => (List.ofFn ev).getD p 0) := by
  subst hN
  have h1 : (fun p : Fin (L ^ 2) => (List.ofFn ev).getD p 0) = ev := by
    funext p
    simp only [List.getD_eq_getElem?_getD, List.getElem?_ofFn, p.2, dif_pos, Option.getD_some]
  have h2 : (fun p : Fin (L ^ 2) => synthesis L ((List.ofFn fun p => List.ofFn (S p)).getD p [])) =
      fun p => synthesis L (List.ofFn (S p)) := by
    funext p
    simp only [List.getD_eq_getElem?_getD, List.getElem?_ofFn, p.2, dif_pos, Option.getD_some]
  rw [h1, h2]
  exact h

theorem Shape.best {L : ℕ} {S : Shape L} (hS : S.Valid) {e : List ℝ} {v : List (List ℂ)} (h : S.Gives e v) :
    BestConcentrated (bandlimited L) sphereInner S.energy (fun p : Fin (L ^ 2) => synthesis L (v.getD p [])) (fun p => e.getD p 0) := by
  cases S with
  | polar gap t =>
    obtain ⟨plm, M, sol, o, a, b, c, d, s⟩ := h
    obtain ⟨e', v', o', he, -, -, hb⟩ := C88_polar L gap t hS.1 hS.2 plm a b M c sol d _ s
    injection he with he
    obtain ⟨rfl, rfl, rfl⟩ : e = e' ∧ v = v' ∧ o = o' := by simpa using he
    have : (fun f => (capIntegral gap t fun th ph => f th ph * (starRingEnd ℂ) (f th ph)).re) = (Shape.polar gap t : Shape L).energy := by
      funext f
      rw [cap_self, ofReal_re]
      rfl
    rw [← this]
    exact hb
  | latLon B =>
    obtain ⟨n, dl, we, K, w, V, ev, S, hn, a, b, c, d, rfl, rfl⟩ := h
    exact best_cast hn (C88_lat_lon L n hn B dl a hS.1 hS.2 we K b w V c ev S d)
  | mask m =>
    obtain ⟨n, P, ncpu, we, M, w, V, ev, S, hn, a, b, c, d, f, rfl, rfl⟩ := h
    exact best_cast hn (C88_arbitrary L n hn m P a ncpu b we M c w V d ev S f)

theorem Shape.energy_bar {L : ℕ} (S : Shape L) (f : ℝ → ℝ → ℂ) : S.energy (bar f) = S.energy f := by
  cases S with
  | polar gap t => simp only [Shape.energy, capEnergy, surfaceEnergy_bar]
  | latLon B => exact surfaceEnergy_bar _ _ _ _ f
  | mask m => simp only [Shape.energy, bar, RCLike.norm_conj]

/-- the field moved. -/
noncomputable def Motion.act (μ : Motion) (f : ℝ → ℝ → ℂ) (th ph : ℝ) : ℂ := f (μ.move th ph).1 (μ.move th ph).2

theorem mask_energy {L : ℕ} (m : Integration.Grid (2 * L) → Bool) (τ : Equiv.Perm (Integration.Grid (2 * L))) (hm : ∀ x, m (τ x) = m x)
    (hw : ∀ x, Integration.weight (2 * L) (τ x) = Integration.weight (2 * L) x) (f g : ℝ → ℝ → ℂ)
    (hfg : ∀ x : Integration.Grid (2 * L), g (Integration.theta x) (Integration.phi x) = f (Integration.theta (τ x)) (Integration.phi (τ x))) :
    (Shape.mask m : Shape L).energy g = (Shape.mask m : Shape L).energy f := by
  simp only [Shape.energy]
  refine Finset.sum_equiv τ (fun x => ?_) fun x _ => ?_
  · simp [hm]
  · rw [hfg, hw]

theorem periodic_int {L : ℕ} {f : ℝ → ℝ → ℂ} (hf : f ∈ bandlimited L) (th ph : ℝ) (n : ℤ) : f th (ph + n * (2 * Real.pi)) = f th ph :=
  (show Function.Periodic (f th) (2 * Real.pi) from comb_periodic hf th).int_mul n ph

theorem Shape.energy_move {L : ℕ} (hL : 1 ≤ L) (S : Shape L) (μ : Motion) (h : S.KeptBy μ) (f : ℝ → ℝ → ℂ) (hf : f ∈ bandlimited L) :
    S.energy (μ.act f) = S.energy f := by
  have h2L : 1 ≤ 2 * L := by omega
  have hLr : (L : ℝ) ≠ 0 := by positivity
  cases S with
  | polar gap t =>
    cases μ with
    | equator =>
      obtain rfl : gap = true := h
      change capEnergy true t (mirror f) = capEnergy true t f
      simp only [capEnergy, surfaceEnergy_mirror, if_true, sub_zero, sub_self, sub_sub_cancel]
      ring
    | meridian c =>
      change capEnergy gap t (flip c f) = capEnergy gap t f
      have : ∀ t0 t1 : ℝ, surfaceEnergy t0 t1 0 (2 * Real.pi) (flip c f) = surfaceEnergy t0 t1 0 (2 * Real.pi) f := by
        intro t0 t1
        rw [surfaceEnergy_flip, ← surfaceEnergy_round hf t0 t1 (c - 2 * Real.pi)]
        congr 1
        ring
      simp only [capEnergy, this]
    | turn δ =>
      change capEnergy gap t (Gaunt.turn δ f) = capEnergy gap t f
      have : ∀ t0 t1 : ℝ, surfaceEnergy t0 t1 0 (2 * Real.pi) (Gaunt.turn δ f) = surfaceEnergy t0 t1 0 (2 * Real.pi) f := by
        intro t0 t1
        rw [surfaceEnergy_turn, ← surfaceEnergy_round hf t0 t1 δ]
        congr 1 <;> ring
      simp only [capEnergy, this]
  | latLon B =>
    cases μ with
    | equator =>
      have h1 : B.tmin + B.tmax = Real.pi := h
      change surfaceEnergy _ _ _ _ (mirror f) = surfaceEnergy _ _ _ _ f
      rw [surfaceEnergy_mirror]
      congr 1 <;> linarith
    | meridian c =>
      have h1 : B.pmin + B.pmax = c := h
      change surfaceEnergy _ _ _ _ (flip c f) = surfaceEnergy _ _ _ _ f
      rw [surfaceEnergy_flip]
      congr 1 <;> linarith
    | turn δ =>
      have h1 : B.pmax = B.pmin + 2 * Real.pi := h
      change surfaceEnergy _ _ _ _ (Gaunt.turn δ f) = surfaceEnergy _ _ _ _ f
      rw [surfaceEnergy_turn, h1, surfaceEnergy_round hf, ← surfaceEnergy_round hf _ _ (B.pmin + δ)]
      congr 1
      ring
  | mask m =>
    cases μ with
    | equator =>
      refine mask_energy m (Equiv.prodCongr Fin.revPerm (Equiv.refl _)) (fun x => h x.1 x.2) (fun x => ?_) f _ fun x => ?_
      · rw [Integration.weight_eq h2L, Integration.weight_eq h2L]
        simp only [Equiv.prodCongr_apply, Prod.map, Fin.revPerm_apply, Fin.val_rev]
        have hx := x.1.isLt
        rw [Nat.cast_sub (by omega)]
        congr 2
        rw [← Real.sin_pi_sub]
        congr 1
        push_cast
        field_simp
        ring
      · simp only [Motion.act, Motion.move]
        congr 1
        rw [Integration.theta_eq h2L, Integration.theta_eq h2L]
        simp only [Equiv.prodCongr_apply, Prod.map, Fin.revPerm_apply, Fin.val_rev]
        have hx := x.1.isLt
        rw [Nat.cast_sub (by omega)]
        push_cast
        field_simp
        ring
    | meridian c =>
      obtain ⟨k, rfl, hk⟩ := h
      have : NeZero (2 * (2 * L)) := ⟨by omega⟩
      refine mask_energy m (Equiv.prodCongr (Equiv.refl _) (Equiv.subLeft k)) (fun x => hk x.1 x.2) (fun x => ?_) f _ fun x => ?_
      · rw [Integration.weight_eq h2L, Integration.weight_eq h2L]
        rfl
      · simp only [Motion.act, Motion.move]
        rw [Integration.theta_eq h2L, Integration.theta_eq h2L]
        rw [GridHarmonics.phi_eq h2L, GridHarmonics.phi_eq h2L]
        simp only [Equiv.prodCongr_apply, Prod.map, Equiv.refl_apply, Equiv.subLeft_apply]
        obtain ⟨n, hn⟩ : ∃ n : ℤ, (((k - x.2 : Fin (2 * (2 * L))) : ℕ) : ℤ) + n * (2 * (2 * L)) = k - x.2 := by
          have hlt := x.2.isLt
          refine ⟨((2 * (2 * L) - x.2 + k : ℕ) : ℤ) / (2 * (2 * L)) - 1, ?_⟩
          rw [Fin.sub_def]
          have hd := Int.emod_add_mul_ediv ((2 * (2 * L) - x.2 + k : ℕ) : ℤ) (2 * (2 * L))
          push_cast [Nat.cast_sub hlt.le] at hd ⊢
          linarith
        have hn' : (((k - x.2 : Fin (2 * (2 * L))) : ℕ) : ℝ) + n * (2 * (2 * L)) = k.val - x.2.val := by exact_mod_cast hn
        rw [← periodic_int hf _ (((k - x.2 : Fin (2 * (2 * L))) : ℕ) * (Real.pi / (2 * L : ℕ))) n]
        congr 1
        push_cast
        rw [← sub_mul, ← hn']
        field_simp
    | turn δ =>
      obtain ⟨k, rfl, hk⟩ := h
      have : NeZero (2 * (2 * L)) := ⟨by omega⟩
      refine mask_energy m (Equiv.prodCongr (Equiv.refl _) (Equiv.addRight k)) (fun x => hk x.1 x.2) (fun x => ?_) f _ fun x => ?_
      · rw [Integration.weight_eq h2L, Integration.weight_eq h2L]
        rfl
      · simp only [Motion.act, Motion.move]
        rw [Integration.theta_eq h2L, Integration.theta_eq h2L]
        rw [GridHarmonics.phi_eq h2L, GridHarmonics.phi_eq h2L]
        simp only [Equiv.prodCongr_apply, Prod.map, Equiv.refl_apply, Equiv.coe_addRight]
        obtain ⟨n, hn⟩ : ∃ n : ℤ, (((x.2 + k : Fin (2 * (2 * L))) : ℕ) : ℤ) + n * (2 * (2 * L)) = x.2 + k := by
          refine ⟨((x.2 : ℤ) + k) / (2 * (2 * L)), ?_⟩
          rw [Fin.val_add]
          have hd := Int.emod_add_mul_ediv ((x.2 : ℤ) + k) (2 * (2 * L))
          push_cast
          linarith
        have hn' : (((x.2 + k : Fin (2 * (2 * L))) : ℕ) : ℝ) + n * (2 * (2 * L)) = x.2.val + k.val := by exact_mod_cast hn
        rw [← periodic_int hf _ (((x.2 + k : Fin (2 * (2 * L))) : ℕ) * (Real.pi / (2 * L : ℕ))) n]
        congr 1
        push_cast
        rw [← add_mul, ← hn']
        field_simp

theorem Shape.symmetry {L : ℕ} (hL : 1 ≤ L) (S : Shape L) (μ : Motion) (h : S.KeptBy μ) :
    Symmetry (bandlimited L) sphereInner S.energy μ.act id := by
  have hR := fun f hf => Shape.energy_move hL S μ h f hf
  cases μ with
  | equator => exact linear_symmetry mirror (fun f hf => mirror_spec f hf) hR
  | meridian c => exact flip_symmetry c hR
  | turn δ => exact linear_symmetry (Gaunt.turn δ) (fun f hf => turn_spec δ f hf) hR

theorem pos_of_lt_sq {p L : ℕ} (h : p < L ^ 2) : 1 ≤ L := by
  rcases Nat.eq_zero_or_pos L with rfl | h'
  · simp at h
  · exact h'

theorem simple_fin {L : ℕ} {e : List ℝ} {p : ℕ} (hp : p < L ^ 2) (h : ∀ q < L ^ 2, q ≠ p → e.getD q 0 ≠ e.getD p 0) :
    ∀ q : Fin (L ^ 2), q ≠ ⟨p, hp⟩ → (fun q : Fin (L ^ 2) => e.getD q 0) q ≠ (fun q : Fin (L ^ 2) => e.getD q 0) ⟨p, hp⟩ :=
  fun q hq => h q q.2 fun h => hq (Fin.ext h)

/-- C133.  A Slepian function whose eigenvalue is not repeated is real up to a constant factor, for all regions. -/
theorem C133_real (L : ℕ) (S : Shape L) (hS : S.Valid) (e : List ℝ) (v : List (List ℂ)) (h : S.Gives e v) (p : ℕ) (hp : p < L ^ 2)
    (hsimple : ∀ q < L ^ 2, q ≠ p → e.getD q 0 ≠ e.getD p 0) :
    ∃ d : ℂ, ‖d‖ = 1 ∧ ∀ th ph : ℝ, (d * synthesis L (v.getD p []) th ph).im = 0 := by
  have hT : Symmetry (bandlimited L) sphereInner S.energy bar (starRingEnd ℂ) := bar_symmetry fun f _ => S.energy_bar f
  obtain ⟨c, hc, h1⟩ := hT.simple (Shape.best hS h) (linearOn_bandlimited L) ⟨p, hp⟩ (simple_fin hp hsimple)
  obtain ⟨x, rfl⟩ := (norm_eq_one_iff c).1 hc
  refine ⟨exp ((x / 2 : ℝ) * I), norm_exp_ofReal_mul_I _, fun th ph => ?_⟩
  have h2 := congrFun (congrFun h1 th) ph
  simp only [bar, Pi.smul_apply, smul_eq_mul] at h2
  rw [← conj_eq_iff_im, map_mul, h2, ← exp_conj, ← mul_assoc, ← Complex.exp_add]
  congr 2
  simp only [map_mul, conj_I, conj_ofReal]
  push_cast
  ring

/-- C133.  A motion that keeps the region takes a Slepian function whose eigenvalue is not repeated to a multiple of it by a number of
modulus one; a reflection keeps it or changes its sign. -/
theorem C133_moved (L : ℕ) (S : Shape L) (hS : S.Valid) (e : List ℝ) (v : List (List ℂ)) (h : S.Gives e v) (μ : Motion) (hμ : S.KeptBy μ)
    (p : ℕ) (hp : p < L ^ 2) (hsimple : ∀ q < L ^ 2, q ≠ p → e.getD q 0 ≠ e.getD p 0) :
    ∃ c : ℂ, ‖c‖ = 1 ∧ (∀ th ph : ℝ, synthesis L (v.getD p []) (μ.move th ph).1 (μ.move th ph).2 = c * synthesis L (v.getD p []) th ph) ∧
      ((∀ δ, μ ≠ .turn δ) → c = 1 ∨ c = -1) := by
  have hb := Shape.best hS h
  obtain ⟨c, hc, h1⟩ := (Shape.symmetry (pos_of_lt_sq hp) S μ hμ).simple hb (linearOn_bandlimited L) ⟨p, hp⟩ (simple_fin hp hsimple)
  have h2 : ∀ th ph : ℝ, synthesis L (v.getD p []) (μ.move th ph).1 (μ.move th ph).2 = c * synthesis L (v.getD p []) th ph :=
    fun th ph => congrFun (congrFun h1 th) ph
  refine ⟨c, hc, h2, fun hne => ?_⟩
  have hinv : ∀ th ph : ℝ, μ.move (μ.move th ph).1 (μ.move th ph).2 = (th, ph) := by
    intro th ph
    cases μ with
    | equator => simp [Motion.move]
    | meridian c => simp [Motion.move]
    | turn δ => exact absurd rfl (hne δ)
  have h3 : ∀ th ph : ℝ, (c ^ 2 - 1) * synthesis L (v.getD p []) th ph = 0 := by
    intro th ph
    have h4 := h2 (μ.move th ph).1 (μ.move th ph).2
    rw [hinv, h2] at h4
    linear_combination -h4
  have h5 : c ^ 2 = 1 := by
    by_contra hcc
    have h6 : synthesis L (v.getD p []) = fun _ _ => 0 := by
      funext th ph
      rcases mul_eq_zero.1 (h3 th ph) with h7 | h7
      · exact absurd (sub_eq_zero.1 h7) hcc
      · exact h7
    have h8 := congrArg Complex.re (hb.orthonormal ⟨p, hp⟩ ⟨p, hp⟩)
    dsimp only at h8
    rw [h6, sphereInner_self] at h8
    simp [surfaceEnergy] at h8
  have h9 : (c - 1) * (c + 1) = 0 := by linear_combination h5
  rcases mul_eq_zero.1 h9 with h10 | h10
  · exact Or.inl (sub_eq_zero.1 h10)
  · exact Or.inr (eq_neg_of_add_eq_zero_left h10)

/-- C133.  Repeated eigenvalues or not, a motion that keeps the region takes each Slepian function to a sum of Slepian functions with its
eigenvalue, with coefficients whose squares add up to one. -/
theorem C133_same_eigenvalue (L : ℕ) (S : Shape L) (hS : S.Valid) (e : List ℝ) (v : List (List ℂ)) (h : S.Gives e v) (μ : Motion)
    (hμ : S.KeptBy μ) (p : ℕ) (hp : p < L ^ 2) :
    ∃ c : ℕ → ℂ, (∀ q, e.getD q 0 ≠ e.getD p 0 → c q = 0) ∧ ∑ q ∈ Finset.range (L ^ 2), ‖c q‖ ^ 2 = 1 ∧
      ∀ th ph : ℝ, synthesis L (v.getD p []) (μ.move th ph).1 (μ.move th ph).2 =
        ∑ q ∈ Finset.range (L ^ 2), c q * synthesis L (v.getD q []) th ph := by
  obtain ⟨M, -, h1, h2, h3⟩ := (Shape.symmetry (pos_of_lt_sq hp) S μ hμ).image (Shape.best hS h) (linearOn_bandlimited L)
  refine ⟨fun q => if hq : q < L ^ 2 then M ⟨q, hq⟩ ⟨p, hp⟩ else 0, fun q hq => ?_, ?_, fun th ph => ?_⟩
  · dsimp only
    split
    · exact h2 _ _ hq
    · rfl
  · rw [Finset.sum_range]
    have h4 := congrFun (congrFun h1 ⟨p, hp⟩) ⟨p, hp⟩
    rw [Matrix.mul_apply, Matrix.one_apply_eq] at h4
    have h5 : ((∑ q : Fin (L ^ 2), ‖M q ⟨p, hp⟩‖ ^ 2 : ℝ) : ℂ) = 1 := by
      rw [← h4]
      push_cast
      refine Finset.sum_congr rfl fun q _ => ?_
      rw [Matrix.conjTranspose_apply, star_def, conj_mul']
    simpa using (by exact_mod_cast h5 : ∑ q : Fin (L ^ 2), ‖M q ⟨p, hp⟩‖ ^ 2 = 1)
  · rw [Finset.sum_range]
    have h4 := congrFun (congrFun (h3 ⟨p, hp⟩) th) ph
    simp only [Finset.sum_apply, Pi.smul_apply, smul_eq_mul] at h4
    simpa [Motion.act] using h4

/-- C133.  The sum of the squares of the Slepian functions at a point, weighted by anything that depends on the eigenvalues only, has the
symmetries of the region. -/
theorem C133_squares (L : ℕ) (S : Shape L) (hS : S.Valid) (e : List ℝ) (v : List (List ℂ)) (h : S.Gives e v) (μ : Motion)
    (hμ : S.KeptBy μ) (g : ℝ → ℝ) (th ph : ℝ) :
    ∑ q ∈ Finset.range (L ^ 2), g (e.getD q 0) * ‖synthesis L (v.getD q []) (μ.move th ph).1 (μ.move th ph).2‖ ^ 2 =
      ∑ q ∈ Finset.range (L ^ 2), g (e.getD q 0) * ‖synthesis L (v.getD q []) th ph‖ ^ 2 := by
  rcases Nat.eq_zero_or_pos L with rfl | hL
  · simp
  let ev : (ℝ → ℝ → ℂ) →ₗ[ℂ] ℂ := { toFun := fun f => f th ph, map_add' := fun _ _ => rfl, map_smul' := fun _ _ => rfl }
  have := (Shape.symmetry hL S μ hμ).squares (Shape.best hS h) (linearOn_bandlimited L) ev g
  rw [Finset.sum_range, Finset.sum_range]
  exact this

/-- C133.  In particular the energy density of the first `N` Slepian functions has the symmetries of the region, when `N` does not part
equal eigenvalues. -/
theorem C133_kept (L : ℕ) (S : Shape L) (hS : S.Valid) (e : List ℝ) (v : List (List ℂ)) (h : S.Gives e v) (μ : Motion)
    (hμ : S.KeptBy μ) (N : ℕ) (hN : N ≤ L ^ 2) (hgap : ∀ p < N, ∀ q, N ≤ q → q < L ^ 2 → e.getD q 0 ≠ e.getD p 0) (th ph : ℝ) :
    ∑ q ∈ Finset.range N, ‖synthesis L (v.getD q []) (μ.move th ph).1 (μ.move th ph).2‖ ^ 2 =
      ∑ q ∈ Finset.range N, ‖synthesis L (v.getD q []) th ph‖ ^ 2 := by
  classical
  have key := C133_squares L S hS e v h μ hμ (fun x => if ∃ p < N, e.getD p 0 = x then 1 else 0) th ph
  have hsum : ∀ F : ℕ → ℝ, ∑ q ∈ Finset.range (L ^ 2), (if ∃ p < N, e.getD p 0 = e.getD q 0 then (1 : ℝ) else 0) * F q =
      ∑ q ∈ Finset.range N, F q := by
    intro F
    rw [← Finset.sum_subset (Finset.range_mono hN)]
    · refine Finset.sum_congr rfl fun q hq => ?_
      rw [if_pos ⟨q, Finset.mem_range.1 hq, rfl⟩, one_mul]
    · intro q hq hq'
      rw [Finset.mem_range] at hq hq'
      rw [if_neg, zero_mul]
      rintro ⟨p, hp, hpq⟩
      exact hgap p hp q (by omega) hq hpq.symm
  simp only [hsum] at key
  exact key

/-- C133.  Around the axis nothing changes for a polar cap or gap: the energy densities depend on the colatitude only. -/
theorem C133_round (L : ℕ) (gap : Bool) (t : ℝ) (h0 : 0 ≤ t) (h1 : t ≤ Real.pi) (e : List ℝ) (v : List (List ℂ))
    (h : (Shape.polar gap t : Shape L).Gives e v) (g : ℝ → ℝ) (th ph ph' : ℝ) :
    ∑ q ∈ Finset.range (L ^ 2), g (e.getD q 0) * ‖synthesis L (v.getD q []) th ph‖ ^ 2 =
      ∑ q ∈ Finset.range (L ^ 2), g (e.getD q 0) * ‖synthesis L (v.getD q []) th ph'‖ ^ 2 := by
  have := C133_squares L (.polar gap t) ⟨h0, h1⟩ e v h (.turn (ph - ph')) trivial g th ph'
  simpa only [Motion.move, add_sub_cancel] using this

/-- there are solutions for polar caps and gaps and for regions limited in latitude and longitude. -/
theorem Shape.gives_exists {L : ℕ} (hL : 1 ≤ L) :
    (∀ (gap : Bool) (t : ℝ), 0 ≤ t → t ≤ Real.pi → ∃ e v, (Shape.polar gap t : Shape L).Gives e v) ∧
    (∀ B : Bounds, B.tmin ∈ Set.Icc 0 Real.pi → B.tmax ∈ Set.Icc 0 Real.pi → ∃ e v, (Shape.latLon B : Shape L).Gives e v) := by
  obtain ⟨h1, h2⟩ := C111_runs_exist L hL
  constructor
  · intro gap t h0 h3
    obtain ⟨e, plm, M, sol, v, o, h⟩ := h1 gap t h0 h3
    exact ⟨e, v, plm, M, sol, o, h⟩
  · intro B h0 h3
    obtain ⟨e, n, dl, we, K, w, V, ev, S, a, b, c, d, f, g⟩ := h2 B h0 h3
    exact ⟨e, _, n, dl, we, K, w, V, ev, S, a, b, c, d, f, g, rfl⟩

/-- a polar gap of bandlimit five is kept by all motions, a belt about the equator by the reflections. -/
example : ∃ e v, (Shape.polar true 1 : Shape 5).Gives e v ∧ (Shape.polar true 1 : Shape 5).KeptBy .equator ∧
    ∀ c, (Shape.polar true 1 : Shape 5).KeptBy (.meridian c) := by
  obtain ⟨e, v, h⟩ := (Shape.gives_exists (L := 5) (by norm_num)).1 true 1 zero_le_one (by linarith [Real.pi_gt_three])
  exact ⟨e, v, h, rfl, fun _ => trivial⟩

example : ∃ e v, (Shape.latLon ⟨1, Real.pi - 1, 0, 2⟩ : Shape 1).Gives e v ∧ (Shape.latLon ⟨1, Real.pi - 1, 0, 2⟩ : Shape 1).KeptBy .equator ∧
    (Shape.latLon ⟨1, Real.pi - 1, 0, 2⟩ : Shape 1).KeptBy (.meridian 2) ∧ ∀ q < 1 ^ 2, q ≠ 0 → e.getD q 0 ≠ e.getD 0 0 := by
  have hpi := Real.pi_gt_three
  obtain ⟨e, v, h⟩ := (Shape.gives_exists (L := 1) le_rfl).2 ⟨1, Real.pi - 1, 0, 2⟩ ⟨zero_le_one, by linarith⟩ ⟨by dsimp only; linarith, by dsimp only; linarith⟩
  exact ⟨e, v, h, by simp [Shape.KeptBy], by simp [Shape.KeptBy], fun q h1 h2 => absurd (by omega) h2⟩

end Sleplet.Props
