import Verif.Props.EndToEnd
import Verif.Props.OrderPanels
import Verif.Props.RegionSymmetry

/-!
C134: reconstructions of symmetric and of real signals.
-/
namespace Sleplet.Props

open Complex Sleplet.Spec Sleplet.Gaunt Sleplet.RealMat Sleplet.Eigen Sleplet.LatLon

theorem Shape.rows {L : ℕ} {S : Shape L} (hS : S.Valid) {e : List ℝ} {v : List (List ℂ)} (h : S.Gives e v) : v.length = L ^ 2 := by
  cases S with
  | polar gap t =>
    obtain ⟨plm, M, sol, o, a, b, c, d, s⟩ := h
    obtain ⟨e', v', o', he, -, hv, -⟩ := C88_polar L gap t hS.1 hS.2 plm a b M c sol d _ s
    injection he with he
    obtain ⟨rfl, rfl, rfl⟩ : e = e' ∧ v = v' ∧ o = o' := by simpa using he
    exact hv
  | latLon B =>
    obtain ⟨n, dl, we, K, w, V, ev, S, hn, a, b, c, d, rfl, rfl⟩ := h
    rw [List.length_ofFn, hn]
  | mask m =>
    obtain ⟨n, P, ncpu, we, M, w, V, ev, S, hn, a, b, c, d, f, rfl, rfl⟩ := h
    rw [List.length_ofFn, hn]

/-- the reconstruction from the first `N` coefficients is the sum of the components along the first `N` functions. -/
theorem reconstruction_eq {L : ℕ} {S : Shape L} (hS : S.Valid) {e : List ℝ} {v : List (List ℂ)} (h : S.Gives e v) (N : ℕ) (hN : N ≤ L ^ 2)
    {Pix : Type} [Fintype Pix] (point : Pix → ℝ × ℝ) (synth : (Fin (L ^ 2) → ℂ) → Pix → ℂ)
    (hY : ∀ c x, synth c x = synthesis L (List.ofFn c) (point x).1 (point x).2) (weight : Pix → ℝ) (flm : Fin (L ^ 2) → ℂ) :
    ∃ cs, Transform.slepianForward (asObject L N e v) synth weight { flm := some flm } none = .ok cs ∧
      Transform.slepianInverse (asObject L N e v) synth cs = .ok fun x =>
        (∑ p : Fin (L ^ 2) with p.val < N, sphereInner (synthesis L (List.ofFn flm)) (synthesis L (v.getD p [])) • synthesis L (v.getD p []))
          (point x).1 (point x).2 := by
  have hb := Shape.best hS h
  have hv := Shape.rows hS h
  let C : Fin (L ^ 2) → Fin (L ^ 2) → ℂ := fun p i => (v.getD p []).getD i 0
  have hsyn : ∀ c : Fin (L ^ 2) → ℂ, synthesis L (List.ofFn c) = fun th ph => ∑ i : Fin (L ^ 2), c i * harm i th ph := by
    intro c
    funext th ph
    rw [Gaunt.synthesis_eq]
    refine Finset.sum_congr rfl fun i _ => ?_
    simp only [List.getD_eq_getElem?_getD, List.getElem?_ofFn, i.2, dif_pos, Option.getD_some]
  have hrow : ∀ p : Fin (L ^ 2), synthesis L (v.getD p []) = synthesis L (List.ofFn (C p)) := by
    intro p
    rw [hsyn]
    funext th ph
    exact Gaunt.synthesis_eq L _ th ph
  have hinner : ∀ a b : Fin (L ^ 2) → ℂ, sphereInner (synthesis L (List.ofFn a)) (synthesis L (List.ofFn b)) =
      ∑ i, a i * (starRingEnd ℂ) (b i) := by
    intro a b
    rw [hsyn, hsyn, inner_sums]
  let E : Fin N → Fin (L ^ 2) → ℂ := fun p => C ⟨p, by omega⟩
  have hE : OrthonormalRows E := by
    intro p q
    have := hb.orthonormal ⟨p, by omega⟩ ⟨q, by omega⟩
    rw [hrow, hrow, hinner] at this
    refine this.trans ?_
    simp only [Fin.ext_iff]
  have hev : ∀ p : Fin N, (asObject L N e v).evecs[(p : ℕ)]? = some (E p) := by
    intro p
    have hp : (p : ℕ) < v.length := by omega
    simp only [asObject, List.getElem?_map, List.getElem?_eq_getElem hp, Option.map_some, Option.some.injEq]
    funext i
    simp only [E, C, List.getD_eq_getElem?_getD, List.getElem?_eq_getElem hp, Option.getD_some]
  obtain ⟨F, g, hF, hg, ⟨a, ha⟩, hperp, -, -⟩ := C32_round_trip_projection (asObject L N e v) synth weight
    (fun i x => harm i (point x).1 (point x).2) (fun c x => by rw [hY, hsyn]) E (by simp [asObject]) hN hev hE flm
  refine ⟨_, hF, ?_⟩
  rw [hg]
  congr 1
  funext x
  rw [hY, hsyn]
  have haq : ∀ q : Fin N, a q = ∑ i, flm i * (starRingEnd ℂ) (E q i) := by
    intro q
    have h1 := hperp q
    simp only [sub_mul, Finset.sum_sub_distrib, sub_eq_zero] at h1
    rw [h1]
    simp only [ha, Finset.sum_mul]
    rw [Finset.sum_comm]
    have : ∀ p, ∑ i, a p * E p i * (starRingEnd ℂ) (E q i) = if p = q then a p else 0 := by
      intro p
      simp only [mul_assoc]
      rw [← Finset.mul_sum, hE p q]
      simp
    simp only [this, Finset.sum_ite_eq', Finset.mem_univ, if_true]
  simp only [hrow, hinner]
  simp only [Finset.sum_apply, Pi.smul_apply, smul_eq_mul, hsyn, ha, haq]
  have hswap : ∀ th ph : ℝ, ∑ i : Fin (L ^ 2), (∑ p, (∑ j, flm j * (starRingEnd ℂ) (E p j)) * E p i) * harm i th ph =
      ∑ p, (∑ j, flm j * (starRingEnd ℂ) (E p j)) * ∑ i, E p i * harm i th ph := by
    intro th ph
    simp only [Finset.sum_mul _ _ (harm _ _ _), Finset.mul_sum _ _ (∑ j, flm j * (starRingEnd ℂ) (E _ j))]
    rw [Finset.sum_comm]
    exact Finset.sum_congr rfl fun p _ => Finset.sum_congr rfl fun i _ => by ring
  rw [hswap]
  refine Finset.sum_bij (fun p _ => ⟨p, by omega⟩) (fun p _ => ?_) (fun p _ q _ hpq => ?_) (fun q hq => ?_) (fun p _ => rfl)
  · simp only [Finset.mem_filter, Finset.mem_univ, true_and]
    exact p.2
  · exact Fin.ext (by simpa using hpq)
  · simp only [Finset.mem_filter, Finset.mem_univ, true_and] at hq
    exact ⟨⟨q, hq⟩, Finset.mem_univ _, rfl⟩

theorem parted_fin {L N : ℕ} {e : List ℝ} (h : ∀ p < N, ∀ q, N ≤ q → q < L ^ 2 → e.getD q 0 ≠ e.getD p 0) :
    ∀ p ∈ (Finset.univ.filter fun p : Fin (L ^ 2) => p.val < N), ∀ q, q ∉ (Finset.univ.filter fun p : Fin (L ^ 2) => p.val < N) →
      (fun p : Fin (L ^ 2) => e.getD p 0) q ≠ (fun p : Fin (L ^ 2) => e.getD p 0) p := by
  intro p hp q hq
  simp only [Finset.mem_filter, Finset.mem_univ, true_and] at hp hq
  exact h p hp q (by omega) q.2

/-- C134.  When the number of coefficients does not part equal eigenvalues, the reconstruction of a real signal is real, for all regions. -/
theorem C134_real_partial (L : ℕ) (S : Shape L) (hS : S.Valid) (e : List ℝ) (v : List (List ℂ)) (h : S.Gives e v) (N : ℕ) (hN : N ≤ L ^ 2)
    (hgap : ∀ p < N, ∀ q, N ≤ q → q < L ^ 2 → e.getD q 0 ≠ e.getD p 0)
    {Pix : Type} [Fintype Pix] (point : Pix → ℝ × ℝ) (synth : (Fin (L ^ 2) → ℂ) → Pix → ℂ)
    (hY : ∀ c x, synth c x = synthesis L (List.ofFn c) (point x).1 (point x).2) (weight : Pix → ℝ) (flm : Fin (L ^ 2) → ℂ)
    (hreal : ∀ th ph : ℝ, (synthesis L (List.ofFn flm) th ph).im = 0) :
    ∃ cs f, Transform.slepianForward (asObject L N e v) synth weight { flm := some flm } none = .ok cs ∧
      Transform.slepianInverse (asObject L N e v) synth cs = .ok f ∧ ∀ x, (f x).im = 0 := by
  obtain ⟨cs, h1, h2⟩ := reconstruction_eq hS h N hN point synth hY weight flm
  refine ⟨cs, _, h1, h2, fun x => ?_⟩
  have hT : Symmetry (bandlimited L) sphereInner S.energy bar (starRingEnd ℂ) := bar_symmetry fun f _ => S.energy_bar f
  have hp := hT.project (Shape.best hS h) (linearOn_bandlimited L) _ (parted_fin hgap) (synthesis L (List.ofFn flm)) ⟨_, rfl⟩
  have hbar : bar (synthesis L (List.ofFn flm)) = synthesis L (List.ofFn flm) := by
    funext th ph
    exact conj_eq_iff_im.2 (hreal th ph)
  rw [hbar] at hp
  have h3 := congrFun (congrFun hp (point x).1) (point x).2
  exact conj_eq_iff_im.1 h3.symm

/-- C134.  When the number of coefficients does not part equal eigenvalues, moving the signal by a motion that keeps the region moves its
reconstruction. -/
theorem C134_moved_partial (L : ℕ) (S : Shape L) (hS : S.Valid) (e : List ℝ) (v : List (List ℂ)) (h : S.Gives e v) (μ : Motion) (hμ : S.KeptBy μ)
    (N : ℕ) (hN : N ≤ L ^ 2) (hgap : ∀ p < N, ∀ q, N ≤ q → q < L ^ 2 → e.getD q 0 ≠ e.getD p 0)
    {Pix : Type} [Fintype Pix] (point : Pix → ℝ × ℝ) (synth : (Fin (L ^ 2) → ℂ) → Pix → ℂ)
    (hY : ∀ c x, synth c x = synthesis L (List.ofFn c) (point x).1 (point x).2) (weight : Pix → ℝ) (flm flm' : Fin (L ^ 2) → ℂ)
    (hmove : ∀ th ph : ℝ, synthesis L (List.ofFn flm') th ph = synthesis L (List.ofFn flm) (μ.move th ph).1 (μ.move th ph).2) :
    ∃ cs cs' f f', Transform.slepianForward (asObject L N e v) synth weight { flm := some flm } none = .ok cs ∧
      Transform.slepianForward (asObject L N e v) synth weight { flm := some flm' } none = .ok cs' ∧
      Transform.slepianInverse (asObject L N e v) synth cs = .ok f ∧ Transform.slepianInverse (asObject L N e v) synth cs' = .ok f' ∧
      ∀ x y, point y = μ.move (point x).1 (point x).2 → f' x = f y := by
  obtain ⟨cs, h1, h2⟩ := reconstruction_eq hS h N hN point synth hY weight flm
  obtain ⟨cs', h1', h2'⟩ := reconstruction_eq hS h N hN point synth hY weight flm'
  refine ⟨cs, cs', _, _, h1, h1', h2, h2', fun x y hxy => ?_⟩
  rcases Nat.eq_zero_or_pos L with rfl | hL
  · have : IsEmpty (Fin (0 ^ 2)) := inferInstanceAs (IsEmpty (Fin 0))
    simp [Finset.univ_eq_empty]
  have hp := (Shape.symmetry hL S μ hμ).project (Shape.best hS h) (linearOn_bandlimited L) _ (parted_fin hgap) (synthesis L (List.ofFn flm)) ⟨_, rfl⟩
  have hm : μ.act (synthesis L (List.ofFn flm)) = synthesis L (List.ofFn flm') := by
    funext th ph
    exact (hmove th ph).symm
  rw [hm] at hp
  have h3 := congrFun (congrFun hp (point x).1) (point x).2
  rw [hxy]
  exact h3


/-! The hemisphere at bandlimit two. -/

theorem hemisphere_harm (i : ℕ) : capEnergy false (Real.pi / 2) (harm i) = 1 / 2 := by
  have hc : Continuous fun x : ℝ × ℝ => harm i x.1 x.2 := continuous_sphHarm (ind2elm_abs_le _)
  have h1 := surfaceEnergy_add hc 0 (Real.pi / 2) Real.pi 0 (2 * Real.pi)
  have h2 : surfaceEnergy 0 (Real.pi / 2) 0 (2 * Real.pi) (harm i) = surfaceEnergy (Real.pi / 2) Real.pi 0 (2 * Real.pi) (harm i) := by
    have h3 := surfaceEnergy_mirror 0 (Real.pi / 2) 0 (2 * Real.pi) (harm i)
    rw [sub_zero, sub_half] at h3
    rw [← h3, mirror_harm]
    simp [surfaceEnergy]
  have h4 : (sphereInner (harm i) (harm i)).re = 1 := by
    have := inner_comb (fun j : Fin (i + 1) => if j.val = i then (1 : ℂ) else 0) (fun j : Fin (i + 1) => if j.val = i then (1 : ℂ) else 0)
    have hcomb : comb (fun j : Fin (i + 1) => if j.val = i then (1 : ℂ) else 0) = harm i := by
      funext th ph
      unfold comb
      rw [Fin.sum_univ_eq_sum_range (fun j => (if j = i then (1 : ℂ) else 0) * harm j th ph)]
      simp
    rw [hcomb] at this
    rw [this, Fin.sum_univ_eq_sum_range (fun j => (if j = i then (1 : ℂ) else 0) * (starRingEnd ℂ) (if j = i then (1 : ℂ) else 0))]
    simp
  rw [sphereInner_self] at h4
  simp only [capEnergy, Bool.false_eq_true, if_false]
  linarith

theorem harm_of {l : ℕ} {m : ℤ} (h : |m| ≤ l) {i : ℕ} (hi : elm2ind l m = i) : harm i = sphHarm l m := by
  subst hi
  funext th ph
  simp only [harm, ind2elm_elm2ind h]

theorem harm_small : harm 0 = sphHarm 0 0 ∧ harm 1 = sphHarm 1 (-1) ∧ harm 2 = sphHarm 1 0 ∧ harm 3 = sphHarm 1 1 :=
  ⟨harm_of (by norm_num) (by decide), harm_of (by norm_num) (by decide), harm_of (by norm_num) (by decide), harm_of (by norm_num) (by decide)⟩

theorem harm_one_three (th ph : ℝ) : harm 1 th ph = -(starRingEnd ℂ) (harm 3 th ph) := by
  have := sphHarm_neg (l := 1) (m := 1) (by norm_num) th ph
  rw [harm_small.2.1, harm_small.2.2.2]
  simpa using this

theorem harm_three_im (th ph : ℝ) : (harm 3 th ph).im = thetaPart 1 1 th * Real.sin ph := by
  rw [harm_small.2.2.2]
  rw [sphHarm_eq, im_ofReal_mul, show I * ((1 : ℤ) : ℂ) * (ph : ℂ) = (ph : ℂ) * I by push_cast; ring, exp_ofReal_mul_I_im]

theorem thetaPart_one_one_ne {th : ℝ} (h : Real.sin th ≠ 0) : thetaPart 1 1 th ≠ 0 := by
  intro h0
  have h1 := norm_sphHarm_one_one th 0
  rw [sphHarm_eq, h0] at h1
  simp only [ofReal_zero, zero_mul, norm_zero] at h1
  have := Real.pi_pos
  have h2 : 0 < 3 / (8 * Real.pi) * Real.sin th ^ 2 := by positivity
  nlinarith

theorem hemisphere_top : 1 < capEnergy false (Real.pi / 2) (comb fun i : Fin (2 ^ 2) => if i.val = 0 ∨ i.val = 2 then (1 : ℂ) else 0) := by
  have hpi := Real.pi_pos
  obtain ⟨a, ha, hY0⟩ : ∃ a : ℝ, 0 < a ∧ ∀ th ph : ℝ, harm 0 th ph = (a : ℂ) := by
    refine ⟨Real.sqrt (1 / (4 * Real.pi)), Real.sqrt_pos.2 (by positivity), fun th ph => ?_⟩
    rw [harm_small.1, sphHarm_zonal, legendre_eq]
    simp
  obtain ⟨b, hb, hY1⟩ : ∃ b : ℝ, 0 < b ∧ ∀ th ph : ℝ, harm 2 th ph = ((b * Real.cos th : ℝ) : ℂ) := by
    refine ⟨Real.sqrt ((2 * (1 : ℕ) + 1) / (4 * Real.pi)), Real.sqrt_pos.2 (by positivity), fun th ph => ?_⟩
    rw [harm_small.2.2.1, sphHarm_zonal, legendre_eq]
    congr 2
    simp [Finset.sum_range_succ]
    ring
  have h0 := hemisphere_harm 0
  have h2 := hemisphere_harm 2
  have key : ∀ x y : ℝ, ∫ ph in (0 : ℝ)..2 * Real.pi, ∫ th in (0 : ℝ)..Real.pi / 2, (x + y * Real.cos th) ^ 2 * Real.sin th =
      2 * Real.pi * (x ^ 2 + x * y + y ^ 2 / 3) := by
    intro x y
    have h3 : ∫ th in (0 : ℝ)..Real.pi / 2, (x + y * Real.cos th) ^ 2 * Real.sin th = x ^ 2 + x * y + y ^ 2 / 3 := by
      rw [intervalIntegral.integral_eq_sub_of_hasDerivAt
        (f := fun th => -(x ^ 2 * Real.cos th + x * y * Real.cos th ^ 2 + y ^ 2 * Real.cos th ^ 3 / 3))]
      · simp
      · intro th _
        have hd := Real.hasDerivAt_cos th
        have := (((hd.const_mul (x ^ 2)).add ((hd.pow 2).const_mul (x * y))).add (((hd.pow 3).const_mul (y ^ 2)).div_const 3)).neg
        refine this.congr_deriv ?_
        push_cast
        ring
      · exact (by fun_prop : Continuous fun th : ℝ => (x + y * Real.cos th) ^ 2 * Real.sin th).intervalIntegrable _ _
    rw [intervalIntegral.integral_congr fun ph _ => h3, intervalIntegral.integral_const]
    simp
  have hsum : ∀ th ph : ℝ, comb (fun i : Fin (2 ^ 2) => if i.val = 0 ∨ i.val = 2 then (1 : ℂ) else 0) th ph = ((a + b * Real.cos th : ℝ) : ℂ) := by
    intro th ph
    unfold comb
    rw [Fin.sum_univ_eq_sum_range (fun i => (if i = 0 ∨ i = 2 then (1 : ℂ) else 0) * harm i th ph)]
    simp [Finset.sum_range_succ, hY0, hY1]
  have e0 : capEnergy false (Real.pi / 2) (harm 0) = 2 * Real.pi * (a ^ 2 + a * 0 + 0 ^ 2 / 3) := by
    rw [← key]
    simp [capEnergy, surfaceEnergy, hY0]
  have e2 : capEnergy false (Real.pi / 2) (harm 2) = 2 * Real.pi * (0 ^ 2 + 0 * b + b ^ 2 / 3) := by
    rw [← key]
    simp only [capEnergy, surfaceEnergy, hY1, norm_real, Real.norm_eq_abs, sq_abs, zero_add, Bool.false_eq_true, if_false, add_zero]
  have e3 : capEnergy false (Real.pi / 2) (comb fun i : Fin (2 ^ 2) => if i.val = 0 ∨ i.val = 2 then (1 : ℂ) else 0) =
      2 * Real.pi * (a ^ 2 + a * b + b ^ 2 / 3) := by
    rw [← key]
    simp only [capEnergy, surfaceEnergy, hsum, norm_real, Real.norm_eq_abs, sq_abs, Bool.false_eq_true, if_false, add_zero]
  rw [e3]
  rw [e0] at h0
  rw [e2] at h2
  have : 0 < 2 * Real.pi * (a * b) := by positivity
  nlinarith

/-- at the hemisphere of bandlimit two, the first function has order zero and the second order one or minus one. -/
theorem hemisphere_functions {e : List ℝ} {v : List (List ℂ)} (h : (Shape.polar false (Real.pi / 2) : Shape 2).Gives e v) :
    (∀ q, 0 < q → q < 2 ^ 2 → e.getD q 0 < e.getD 0 0) ∧ (v.getD 0 []).getD 1 0 = 0 ∧ (v.getD 0 []).getD 3 0 = 0 ∧
    ∃ (k : ℕ) (a : ℂ), (k = 1 ∨ k = 3) ∧ ‖a‖ = 1 ∧ ∀ i < 2 ^ 2, (v.getD 1 []).getD i 0 = if i = k then a else 0 := by
  have hpi := Real.pi_pos
  have hS : (Shape.polar false (Real.pi / 2) : Shape 2).Valid := ⟨by positivity, by linarith⟩
  have hb := Shape.best hS h
  obtain ⟨plm, M, sol, o, a, b, c, d, s⟩ := h
  obtain ⟨e', v', o', he, -, -, ho, hdec, -, hcount, hrow, horth⟩ :=
    C19_polar_all_orders 2 (fun k : ℕ => M (k : ℤ)) sol (opposite_orders 2 false _ plm a b M c sol d) _ s
  injection he with he
  obtain ⟨rfl, rfl, rfl⟩ : e = e' ∧ v = v' ∧ o = o' := by simpa using he
  obtain ⟨e', v', o', he, -, -, -, -, -, -, hsum, -⟩ := C50_polar_energy_ratio 2 false _ hS.1 hS.2 plm a b M c sol d _ s
  injection he with he
  obtain ⟨rfl, rfl, rfl⟩ : e = e' ∧ v = v' ∧ o = o' := by simpa using he
  have hsum : e.getD 0 0 + e.getD 1 0 + e.getD 2 0 + e.getD 3 0 = 2 := by
    have : (2 : ℝ) ^ 2 / (4 * Real.pi) * (2 * Real.pi) = 2 := by field_simp; norm_num
    simpa [Finset.sum_range_succ, this] using hsum
  -- the functions of order one and minus one
  have hzero : ∀ p < 2 ^ 2, ∀ m : ℤ, m ≠ o.getD p 0 → ∀ (l i : ℕ), l < 2 → |m| ≤ l → elm2ind l m = i → (v.getD p []).getD i 0 = 0 := by
    intro p hp m hm l i hl hml hi
    rw [← hi]
    exact (hrow p hp).2.2.1 l m hl hml hm
  have hone : ∀ p, p < 2 ^ 2 → o.getD p 0 ≠ 0 → e.getD p 0 = 1 / 2 ∧
      ∃ (k : ℕ) (a : ℂ), (k = 1 ∨ k = 3) ∧ ‖a‖ = 1 ∧ ∀ i < 2 ^ 2, (v.getD p []).getD i 0 = if i = k then a else 0 := by
    intro p hp hne
    have hlt := (hrow p hp).2.1
    have z0 := hzero p hp 0 hne.symm 0 0 (by norm_num) (by norm_num) (by decide)
    have z2 := hzero p hp 0 hne.symm 1 2 (by norm_num) (by norm_num) (by decide)
    have hform : ∃ (k : ℕ) (a : ℂ), (k = 1 ∨ k = 3) ∧ ∀ i < 2 ^ 2, (v.getD p []).getD i 0 = if i = k then a else 0 := by
      rcases (by omega : o.getD p 0 = -1 ∨ o.getD p 0 = 1) with ho | ho
      · have z3 := hzero p hp 1 (by rw [ho]; norm_num) 1 3 (by norm_num) (by norm_num) (by decide)
        refine ⟨1, (v.getD p []).getD 1 0, Or.inl rfl, fun i hi => ?_⟩
        interval_cases i <;> simp_all
      · have z1 := hzero p hp (-1) (by rw [ho]; norm_num) 1 1 (by norm_num) (by norm_num) (by decide)
        refine ⟨3, (v.getD p []).getD 3 0, Or.inr rfl, fun i hi => ?_⟩
        interval_cases i <;> simp_all
    obtain ⟨k, a, hk, hv⟩ := hform
    have hk4 : k < 2 ^ 2 := by rcases hk with rfl | rfl <;> norm_num
    have hn : ‖a‖ = 1 := by
      have h1 := horth p hp p hp
      rw [if_pos rfl, Finset.sum_eq_single k] at h1
      · rw [hv k hk4, if_pos rfl, mul_conj, normSq_eq_norm_sq] at h1
        exact (pow_eq_one_iff_of_nonneg (norm_nonneg _) two_ne_zero).1 (by exact_mod_cast h1)
      · intro i hi hik
        rw [hv i (Finset.mem_range.1 hi), if_neg hik, zero_mul]
      · intro h; exact absurd (Finset.mem_range.2 hk4) h
    have hsyn : synthesis 2 (v.getD p []) = a • harm k := by
      funext th ph
      rw [Gaunt.synthesis_eq, Finset.sum_eq_single ⟨k, hk4⟩]
      · rw [hv k hk4, if_pos rfl]
        rfl
      · intro i _ hik
        rw [hv i i.2, if_neg fun h => hik (Fin.ext h), zero_mul]
      · intro h; exact absurd (Finset.mem_univ _) h
    refine ⟨?_, k, a, hk, hn, hv⟩
    have h1 := hb.attained ⟨p, hp⟩
    dsimp only at h1
    rw [← h1, hsyn, ← hemisphere_harm k]
    simp [Shape.energy, capEnergy, surfaceEnergy, hn]
  -- the best function has more than half of its energy in the hemisphere
  have htop : 1 / 2 < e.getD 0 0 := by
    set f := comb fun i : Fin (2 ^ 2) => if i.val = 0 ∨ i.val = 2 then (1 : ℂ) else 0 with hf
    have h1 := hb.best ⟨0, by norm_num⟩ f ((mem_bandlimited_iff 2 f).2 ⟨_, rfl⟩) fun p hp => absurd hp (by simp [Fin.lt_def])
    have h2 : (sphereInner f f).re = 2 := by
      rw [hf, inner_comb, Fin.sum_univ_eq_sum_range
        (fun i => (if i = 0 ∨ i = 2 then (1 : ℂ) else 0) * (starRingEnd ℂ) (if i = 0 ∨ i = 2 then (1 : ℂ) else 0))]
      norm_num [Finset.sum_range_succ]
    have h3 : 1 < (Shape.polar false (Real.pi / 2) : Shape 2).energy f := hemisphere_top
    change _ ≤ e.getD 0 0 * (sphereInner f f).re at h1
    rw [h2] at h1
    linarith
  have ho0 : o.getD 0 0 = 0 := by
    by_contra hne
    have := (hone 0 (by norm_num) hne).1
    linarith
  have ho1 : o.getD 1 0 ≠ 0 := by
    intro ho1
    have hc := hcount 0 (by norm_num)
    have h23 : o.getD 2 0 ≠ 0 ∧ o.getD 3 0 ≠ 0 := by
      match o, ho with
      | [o0, o1, o2, o3], _ =>
        simp only [List.getD_cons_zero, List.getD_cons_succ] at ho0 ho1 ⊢
        subst ho0 ho1
        simp [List.count_cons] at hc
        constructor <;> intro h <;> simp [h] at hc
    have e2 := (hone 2 (by norm_num) h23.1).1
    have e3 := (hone 3 (by norm_num) h23.2).1
    have e1 : e.getD 2 0 ≤ e.getD 1 0 := hb.antitone (a := ⟨1, by norm_num⟩) (b := ⟨2, by norm_num⟩) (by simp [Fin.le_def])
    linarith
  refine ⟨fun q h0 hq => ?_, hzero 0 (by norm_num) (-1) (by rw [ho0]; norm_num) 1 1 (by norm_num) (by norm_num) (by decide),
    hzero 0 (by norm_num) 1 (by rw [ho0]; norm_num) 1 3 (by norm_num) (by norm_num) (by decide), (hone 1 (by norm_num) ho1).2⟩
  have h1 : e.getD q 0 ≤ e.getD 1 0 := hb.antitone (a := ⟨1, by norm_num⟩) (b := ⟨q, hq⟩) (by simp only [Fin.le_def]; omega)
  have h2 := (hone 1 (by norm_num) ho1).1
  linarith

/-- C134 fails when the number of coefficients parts equal eigenvalues.  The hemisphere at bandlimit two keeps two functions, one of order
zero and one of the two of order one and minus one, which have the same eigenvalue.  For every solution, the reconstruction of a real
signal is not real at any sample off the poles and off the meridian where the signal is greatest. -/
theorem C134_violation (e : List ℝ) (v : List (List ℂ)) (h : (Shape.polar false (Real.pi / 2) : Shape 2).Gives e v) :
    (Region.Slepian.polarCap 2 (Real.pi / 2) false).shannon 0 = 2 ∧
    ∃ flm : Fin (2 ^ 2) → ℂ, (∀ th ph : ℝ, (synthesis 2 (List.ofFn flm) th ph).im = 0) ∧
      ∀ {Pix : Type} [Fintype Pix] (point : Pix → ℝ × ℝ) (synth : (Fin (2 ^ 2) → ℂ) → Pix → ℂ),
      (∀ c x, synth c x = synthesis 2 (List.ofFn c) (point x).1 (point x).2) → ∀ weight : Pix → ℝ,
      ∃ cs f, Transform.slepianForward (asObject 2 2 e v) synth weight { flm := some flm } none = .ok cs ∧
        Transform.slepianInverse (asObject 2 2 e v) synth cs = .ok f ∧
        ∀ x, Real.sin (point x).1 ≠ 0 → Real.sin (point x).2 ≠ 0 → (f x).im ≠ 0 := by
  have hpi := Real.pi_pos
  have hS : (Shape.polar false (Real.pi / 2) : Shape 2).Valid := ⟨by positivity, by linarith⟩
  obtain ⟨-, z1, z3, k, a, hk, ha, hv⟩ := hemisphere_functions h
  have hsyn : ∀ c : List ℂ, ∀ th ph : ℝ, synthesis 2 c th ph =
      c.getD 0 0 * harm 0 th ph + c.getD 1 0 * harm 1 th ph + c.getD 2 0 * harm 2 th ph + c.getD 3 0 * harm 3 th ph := by
    intro c th ph
    rw [Gaunt.synthesis_eq, Fin.sum_univ_eq_sum_range (fun i => c.getD i 0 * harm i th ph)]
    simp [Finset.sum_range_succ]
  refine ⟨?_, ![0, -1, 0, 1], fun th ph => ?_, fun {Pix} _ point synth hY weight => ?_⟩
  · have h1 : (Region.Slepian.polarCap 2 (Real.pi / 2) false).area 0 * ((2 : ℕ) : ℝ) ^ 2 / (4 * Real.pi) = ((2 : ℤ) : ℝ) := by
      simp only [Region.Slepian.area, Real.cos_pi_div_two]
      push_cast
      field_simp
      norm_num
    change Py.round ((Region.Slepian.polarCap 2 (Real.pi / 2) false).area 0 * ((2 : ℕ) : ℝ) ^ 2 / (4 * Real.pi)) = 2
    rw [h1, Py.round_intCast]
  · rw [hsyn, harm_one_three]
    simp
  · obtain ⟨cs, h1, h2⟩ := reconstruction_eq hS h 2 (by norm_num) point synth hY weight ![0, -1, 0, 1]
    refine ⟨cs, _, h1, h2, fun x hx hy => ?_⟩
    have hin : ∀ c d : List ℂ, sphereInner (synthesis 2 c) (synthesis 2 d) = ∑ i : Fin (2 ^ 2), c.getD i 0 * (starRingEnd ℂ) (d.getD i 0) := by
      intro c d
      have hc : ∀ c : List ℂ, synthesis 2 c = comb fun i : Fin (2 ^ 2) => c.getD i 0 := by
        intro c
        funext th ph
        exact Gaunt.synthesis_eq 2 c th ph
      rw [hc, hc, inner_comb]
    have hi0 : sphereInner (synthesis 2 (List.ofFn ![0, -1, 0, (1 : ℂ)])) (synthesis 2 (v.getD 0 [])) = 0 := by
      rw [hin, Fin.sum_univ_eq_sum_range (fun i => (List.ofFn ![0, -1, 0, (1 : ℂ)]).getD i 0 * (starRingEnd ℂ) ((v.getD 0 []).getD i 0))]
      simp [Finset.sum_range_succ] at z1 z3 ⊢
      simp [z1, z3]
    have hg : (∑ p : Fin (2 ^ 2) with p.val < 2, sphereInner (synthesis 2 (List.ofFn ![0, -1, 0, (1 : ℂ)])) (synthesis 2 (v.getD p [])) •
        synthesis 2 (v.getD p [])) = sphereInner (synthesis 2 (List.ofFn ![0, -1, 0, (1 : ℂ)])) (synthesis 2 (v.getD 1 [])) •
        synthesis 2 (v.getD 1 []) := by
      have hset : (Finset.univ.filter fun p : Fin (2 ^ 2) => p.val < 2) = {⟨0, by norm_num⟩, ⟨1, by norm_num⟩} := by decide
      rw [hset, Finset.sum_pair (by decide), hi0, zero_smul, zero_add]
    have hi1 : sphereInner (synthesis 2 (List.ofFn ![0, -1, 0, (1 : ℂ)])) (synthesis 2 (v.getD 1 [])) =
        (if k = 1 then -1 else 1) * (starRingEnd ℂ) a := by
      rw [hin, Fin.sum_univ_eq_sum_range (fun i => (List.ofFn ![0, -1, 0, (1 : ℂ)]).getD i 0 * (starRingEnd ℂ) ((v.getD 1 []).getD i 0)),
        Finset.sum_congr rfl fun i hi => by rw [hv i (Finset.mem_range.1 hi)]]
      rcases hk with rfl | rfl <;> simp [Finset.sum_range_succ]
    have hs1 : ∀ th ph : ℝ, synthesis 2 (v.getD 1 []) th ph = a * harm k th ph := by
      intro th ph
      rw [hsyn, hv 0 (by norm_num), hv 1 (by norm_num), hv 2 (by norm_num), hv 3 (by norm_num)]
      rcases hk with rfl | rfl <;> simp
    have hval : (∑ p : Fin (2 ^ 2) with p.val < 2, sphereInner (synthesis 2 (List.ofFn ![0, -1, 0, (1 : ℂ)])) (synthesis 2 (v.getD p [])) •
        synthesis 2 (v.getD p [])) (point x).1 (point x).2 = (if k = 1 then -1 else 1) * harm k (point x).1 (point x).2 := by
      rw [hg, Pi.smul_apply, Pi.smul_apply, smul_eq_mul, hi1, hs1]
      have : (starRingEnd ℂ) a * a = 1 := by
        rw [← normSq_eq_conj_mul_self, normSq_eq_norm_sq, ha]
        norm_num
      linear_combination ((if k = 1 then -1 else 1) * harm k (point x).1 (point x).2) * this
    rw [hval]
    have him : thetaPart 1 1 (point x).1 * Real.sin (point x).2 ≠ 0 := mul_ne_zero (thetaPart_one_one_ne hx) hy
    rcases hk with rfl | rfl
    · rw [harm_one_three]
      simpa [harm_three_im] using him
    · simpa [harm_three_im] using him

/-- the hypotheses of `C134_real_partial`, `C134_moved_partial` and of `C133_real`, `C133_moved`, `C133_kept` are met by the first function of the hemisphere at
bandlimit two: there are solutions, and its eigenvalue is not repeated. -/
example : ∃ e v, (Shape.polar false (Real.pi / 2) : Shape 2).Gives e v ∧ (∀ q < 2 ^ 2, q ≠ 0 → e.getD q 0 ≠ e.getD 0 0) ∧
    (∀ p < 1, ∀ q, 1 ≤ q → q < 2 ^ 2 → e.getD q 0 ≠ e.getD p 0) ∧ ∀ c, (Shape.polar false (Real.pi / 2) : Shape 2).KeptBy (.meridian c) := by
  have hpi := Real.pi_pos
  obtain ⟨e, v, h⟩ := (Shape.gives_exists (L := 2) (by norm_num)).1 false (Real.pi / 2) (by positivity) (by linarith)
  have h1 := (hemisphere_functions h).1
  refine ⟨e, v, h, fun q hq h0 => (h1 q (by omega) hq).ne, fun p hp q hq hq' => ?_, fun _ => trivial⟩
  obtain rfl : p = 0 := by omega
  exact (h1 q (by omega) hq').ne

end Sleplet.Props
