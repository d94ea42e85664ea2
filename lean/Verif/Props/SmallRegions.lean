import Mathlib.Analysis.SpecialFunctions.Trigonometric.Inverse
import Verif.Model.Ranks
import Verif.Model.Wavelets
import Verif.Props.KeptEigenvalues

/-!
C132: regions too small for a Slepian function.
-/
namespace Sleplet.Props

open Complex Sleplet.Spec Sleplet.Gaunt Sleplet.RealMat Sleplet.Eigen Sleplet.LatLon

theorem one_le_round (x : ℝ) : 1 ≤ Py.round x ↔ 1 / 2 < x := by
  constructor
  · intro h
    by_contra hx
    have h1 := Py.round_mono (not_lt.1 hx)
    have h2 : Py.round (1 / 2) = 0 := by
      have hf : ⌊(1 / 2 : ℝ)⌋ = 0 := by norm_num [Int.floor_eq_iff]
      have hg : Int.fract (1 / 2 : ℝ) = 1 / 2 := by rw [Int.fract, hf]; norm_num
      unfold Py.round
      rw [hg, hf]
      simp
    omega
  · intro h
    have := Py.sub_half_le_round x
    have : (0 : ℝ) < Py.round x := by linarith
    have : 0 < Py.round x := by exact_mod_cast this
    omega

/-- C132.  A Slepian object of any kind keeps a function exactly if its area is more than `2π/L²`, half the area that one function needs. -/
theorem C132_keeps (s : Region.Slepian) (area : ℝ) : 1 ≤ s.shannon area ↔ 2 * Real.pi < s.area area * (s.L : ℝ) ^ 2 := by
  have hpi := Real.pi_pos
  unfold Region.Slepian.shannon
  rw [one_le_round, lt_div_iff₀ (by positivity)]
  constructor <;> intro h <;> linarith

/-- C132.  For polar caps there is a least angle. -/
theorem C132_caps (L : ℕ) (hL : 1 ≤ L) (t : ℝ) (h0 : 0 ≤ t) (h1 : t ≤ Real.pi) :
    1 ≤ (Region.Slepian.polarCap L t false).shannon 0 ↔ Real.arccos (1 - 1 / (L : ℝ) ^ 2) < t := by
  have hpi := Real.pi_pos
  have hLr : (0 : ℝ) < (L : ℝ) ^ 2 := by positivity
  have hL1 : (1 : ℝ) ≤ (L : ℝ) ^ 2 := by exact_mod_cast Nat.one_le_pow 2 L hL
  have hx1 : 1 / (L : ℝ) ^ 2 ≤ 1 := by rw [div_le_one hLr]; exact hL1
  have hx0 : 0 < 1 / (L : ℝ) ^ 2 := by positivity
  rw [C132_keeps]
  simp only [Region.Slepian.area, Region.Slepian.L]
  have hcos : Real.cos (Real.arccos (1 - 1 / (L : ℝ) ^ 2)) = 1 - 1 / (L : ℝ) ^ 2 := Real.cos_arccos (by linarith) (by linarith)
  have hlt : Real.arccos (1 - 1 / (L : ℝ) ^ 2) < t ↔ Real.cos t < Real.cos (Real.arccos (1 - 1 / (L : ℝ) ^ 2)) :=
    (Real.strictAntiOn_cos.lt_iff_gt ⟨h0, h1⟩ ⟨Real.arccos_nonneg _, Real.arccos_le_pi _⟩).symm
  rw [hlt, hcos]
  have hmul : 1 / (L : ℝ) ^ 2 * (L : ℝ) ^ 2 = 1 := by field_simp
  constructor
  · intro h
    have h2 : 1 < (1 - Real.cos t) * (L : ℝ) ^ 2 := by
      by_contra hc
      have := mul_le_mul_of_nonneg_left (not_lt.1 hc) (by linarith : 0 ≤ 2 * Real.pi)
      linarith
    by_contra hc
    have := mul_le_mul_of_nonneg_right (by linarith [not_lt.1 hc] : 1 - Real.cos t ≤ 1 / (L : ℝ) ^ 2) hLr.le
    linarith
  · intro h
    have h2 := mul_lt_mul_of_pos_right (by linarith : 1 / (L : ℝ) ^ 2 < 1 - Real.cos t) hLr
    rw [hmul] at h2
    have := mul_lt_mul_of_pos_left h2 (by linarith : 0 < 2 * Real.pi)
    linarith

/-- C132.  A mesh with `K` basis functions keeps a function exactly if the region has more than one in `2K` of the vertices. -/
theorem C132_mesh {V : Type} [Fintype V] [Nonempty V] (region : V → Bool) (K : ℕ) :
    1 ≤ Integration.meshShannon region K ↔ Fintype.card V < 2 * K * (Finset.univ.filter fun v => region v = true).card := by
  have hV : (0 : ℝ) < Fintype.card V := by exact_mod_cast Fintype.card_pos
  unfold Integration.meshShannon
  rw [one_le_round, div_mul_eq_mul_div, lt_div_iff₀ hV, ← @Nat.cast_lt ℝ]
  push_cast
  constructor <;> intro h <;> linarith

/-- C132 is violated at every bandlimit: every cap up to the least angle is accepted, its best function has a positive eigenvalue, and nothing
is kept. -/
theorem C132_violation (L : ℕ) (hL : 1 ≤ L) (t : ℝ) (h0 : 0 < t) (h1 : t ≤ Real.arccos (1 - 1 / (L : ℝ) ^ 2)) :
    (Region.Slepian.polarCap L t false).validate = .ok () ∧ (∃ o, (Region.Slepian.polarCap L t false).createRegion = .ok o) ∧
    (∀ e, PolarEigenvalues L false t e → 0 < e.getD 0 0) ∧ (Region.Slepian.polarCap L t false).shannon 0 = 0 := by
  have hpi := Real.pi_pos
  have hLr : (0 : ℝ) < (L : ℝ) ^ 2 := by positivity
  have hL1 : (1 : ℝ) ≤ (L : ℝ) ^ 2 := by exact_mod_cast Nat.one_le_pow 2 L hL
  have hx1 : 1 / (L : ℝ) ^ 2 ≤ 1 := by rw [div_le_one hLr]; exact hL1
  have hhalf : t ≤ Real.pi / 2 := h1.trans (Real.arccos_le_pi_div_two.2 (by linarith))
  have htpi : t ≤ Real.pi := by linarith
  refine ⟨by simp [Region.Slepian.validate, h0.ne'], ?_, fun e he => ?_, ?_⟩
  · have hne : t ≠ Real.pi := by linarith
    refine ⟨⟨{ gap := false, thetaMax := t }, "polar" ++ "" ++ toString (Region.angleAsDegree t), "polar"⟩, ?_⟩
    have a1 : ¬ 2 * Real.pi < 0 := by linarith
    have a2 : ¬ t < 0 := by linarith
    have a3 : ¬ Real.pi < t := by linarith
    have a4 : ¬ Real.pi < 0 := by linarith
    simp [Region.Slepian.createRegion, Region.mk, Region.checkPhi, Region.checkTheta, Region.identify, Region.isPolarCap, Region.phiMinDefault,
      Region.phiMaxDefault, Region.thetaMinDefault, Region.thetaMaxDefault, hne, a1, a2, a3, a4, bind, Except.bind, pure, Except.pure]
  · obtain ⟨plm, M, sol, v, o, a, b, c, d, s⟩ := he
    obtain ⟨e', v', o', hr, hl, -, -, -, hnn, -, hs, hd⟩ := C50_polar_energy_ratio L false t h0.le htpi plm a b M c sol d _ s
    simp only [Except.ok.injEq, Prod.mk.injEq] at hr
    obtain ⟨rfl, rfl, rfl⟩ := hr
    have hc : Real.cos t < 1 := by
      rw [← Real.cos_zero]
      exact Real.cos_lt_cos_of_nonneg_of_le_pi le_rfl htpi h0
    by_contra hneg
    have hz : ∑ p ∈ Finset.range (L ^ 2), e.getD p 0 ≤ 0 := by
      refine Finset.sum_nonpos fun p hp => ?_
      have hp : p < L ^ 2 := Finset.mem_range.1 hp
      rcases Nat.eq_zero_or_pos p with rfl | hpos
      · exact not_lt.1 hneg
      · have hp1 : p < e.length := by omega
        have hp0 : 0 < e.length := by omega
        have : e[p] ≤ e[0] := List.pairwise_iff_getElem.1 hd 0 p hp0 hp1 hpos
        simp only [List.getD_eq_getElem?_getD, List.getElem?_eq_getElem hp1, List.getElem?_eq_getElem hp0, Option.getD_some] at hneg ⊢
        linarith [not_lt.1 hneg]
    rw [hs] at hz
    have : 0 < (L : ℝ) ^ 2 / (4 * Real.pi) * ((if false = true then 2 else 1) * (2 * Real.pi * (1 - Real.cos t))) := by
      have : 0 < 1 - Real.cos t := by linarith
      simp
      positivity
    linarith
  · have h2 : ¬ 1 ≤ (Region.Slepian.polarCap L t false).shannon 0 := by
      rw [C132_caps L hL t h0.le htpi]
      exact not_lt.2 h1
    have h3 : 0 ≤ (Region.Slepian.polarCap L t false).shannon 0 := by
      refine Py.round_nonneg ?_
      have := Real.cos_le_one t
      have : 0 ≤ 1 - Real.cos t := by linarith
      simp only [Region.Slepian.area, Region.Slepian.L]
      positivity
    omega

/-- at bandlimit one a hemisphere keeps nothing and any larger cap its one function; a mesh of three vertices with two basis functions keeps
one for a single vertex. -/
example : (Region.Slepian.polarCap 1 (Real.pi / 2) false).shannon 0 = 0 ∧ 1 ≤ (Region.Slepian.polarCap 1 2 false).shannon 0 ∧
    1 ≤ Integration.meshShannon (fun v : Fin 3 => decide (v = 0)) 2 ∧ ¬ 1 ≤ Integration.meshShannon (fun v : Fin 3 => decide (v = 0)) 1 := by
  have hpi := Real.pi_gt_three
  have hpi4 := Real.pi_lt_four
  have h0 : Real.arccos (1 - 1 / ((1 : ℕ) : ℝ) ^ 2) = Real.pi / 2 := by norm_num
  refine ⟨(C132_violation 1 le_rfl (Real.pi / 2) (by positivity) h0.ge).2.2.2, ?_, ?_, ?_⟩
  · rw [C132_caps 1 le_rfl 2 (by norm_num) (by linarith), h0]
    linarith
  · rw [C132_mesh]
    decide
  · rw [C132_mesh]
    decide

/-- such caps exist, at every bandlimit. -/
example (L : ℕ) (hL : 1 ≤ L) : 0 < Real.arccos (1 - 1 / (L : ℝ) ^ 2) := by
  have : 0 < 1 / (L : ℝ) ^ 2 := by positivity
  exact Real.arccos_pos.2 (by linarith)

/-- C132.  What is left when no function is kept: every signal has the empty list of coefficients, by each method of decomposition; every list
of coefficients stands for the zero field; a Slepian function of any rank has no coefficients, if it can be made at all; a Slepian Dirac
delta has zeros only; and the wavelet coefficients of every signal fail for every scale. -/
theorem C132_nothing_left {L : ℕ} {Pix : Type} [Fintype Pix] (e : Functions.SlepianEnv L Pix) (hN : e.sl.N = 0) :
    (∀ inp : Transform.Inputs (L ^ 2) Pix, inp.f.isSome = true ∨ inp.flm.isSome = true →
      Transform.slepianForward e.sl e.synth e.weight inp none = .ok []) ∧
    (∀ cs, Transform.slepianInverse e.sl e.synth cs = .ok fun _ => 0) ∧
    (∀ orders rank extra c, Ranks.slepian e orders rank extra = .ok c → c = []) ∧
    (∀ x, Functions.fpHelper e x = .ok (List.replicate (L ^ 2) 0)) ∧
    ∀ cs wavelets j, Wavelets.selectCoefficients cs wavelets e.sl.N j = .error .indexError := by
  have hfwd : ∀ inp : Transform.Inputs (L ^ 2) Pix, inp.f.isSome = true ∨ inp.flm.isSome = true →
      Transform.slepianForward e.sl e.synth e.weight inp none = .ok [] := by
    intro inp hinp
    unfold Transform.slepianForward
    have : ∃ m, Transform.detectMethod inp.f.isSome inp.flm.isSome inp.mask.isSome = .ok m := by
      unfold Transform.detectMethod
      rcases hinp with h | h
      · rw [h]
        cases inp.flm.isSome <;> cases inp.mask.isSome <;> exact ⟨_, rfl⟩
      · rw [h]
        exact ⟨_, rfl⟩
    obtain ⟨m, hm⟩ := this
    rw [hm]
    simp [hN, Transform.decomposeAll, bind, Except.bind]
  refine ⟨hfwd, fun cs => ?_, fun orders rank extra c h => ?_, fun x => ?_, fun cs wavelets j => ?_⟩
  · simp [Transform.slepianInverse, hN, Transform.computeSp, NumPy.broadcast, bind, Except.bind, pure, Except.pure]
  · unfold Ranks.slepian at h
    simp only [bind, Except.bind, pure, Except.pure] at h
    repeat' split at h
    all_goals first
      | exact absurd h (by simp)
      | (rw [hfwd _ (Or.inr rfl)] at h; injection h with h; exact h.symm)
  · have hL : ¬ (L : ℤ) ^ 2 < 0 := not_lt.2 (by positivity)
    have hn : ((L : ℤ) ^ 2).toNat = L ^ 2 := by exact_mod_cast Int.toNat_natCast (L ^ 2)
    simp [Functions.fpHelper, Functions.sPOmegaPrime, hN, bind, Except.bind, pure, Except.pure, Transform.computeSp,
      boostCoefficientResolution, hL, hn]
  · have hsift : ∃ w, Wavelets.sift2 wavelets (Wavelets.newaxis cs) (some 0) = .ok w ∧ ∀ r ∈ w.rows, r = [] := by
      have hb : ∀ ls : List (List ℂ), (∀ r ∈ ls, r = []) → ∃ rs : List (List ℂ),
          ((NumPy.broadcast (fun r s => NumPy.broadcast (fun a b : ℂ => a * b) r s) ls [[]]).bind fun rs => rs.mapM id) = .ok rs ∧
            ∀ r ∈ rs, r = [] := by
        intro ls hls
        have h1 : NumPy.broadcast (fun r s => NumPy.broadcast (fun a b : ℂ => a * b) r s) ls [[]] =
            .ok (ls.map fun r => NumPy.broadcast (fun a b : ℂ => a * b) r []) := by
          match ls with
          | [] => rfl
          | [x] => rfl
          | x :: y :: zs =>
            unfold NumPy.broadcast
            rw [if_neg (by simp)]
        rw [h1]
        have h2 : ∀ ls : List (List ℂ), (∀ r ∈ ls, r = []) →
            (ls.map fun r => NumPy.broadcast (fun a b : ℂ => a * b) r []).mapM id = .ok (ls.map fun _ => []) := by
          intro ls
          induction ls with
          | nil => intro _; rfl
          | cons x xs ih =>
            intro h
            obtain rfl := h x (by simp)
            rw [List.map_cons, List.mapM_cons, ih fun r hr => h r (by simp [hr])]
            rfl
        refine ⟨ls.map fun _ => [], h2 ls hls, fun r hr => ?_⟩
        obtain ⟨_, -, rfl⟩ := List.mem_map.1 hr
        rfl
      obtain ⟨rs, h1, h2⟩ := hb (wavelets.rows.map fun r => NumPy.upTo r (some 0)) (by
        intro r hr
        obtain ⟨q, -, rfl⟩ := List.mem_map.1 hr
        simp [NumPy.upTo])
      refine ⟨⟨0, rs⟩, ?_, h2⟩
      unfold Wavelets.sift2 NumPy.broadcast2 Wavelets.newaxis NumPy.Array2.colsUpTo
      have h3 : NumPy.dim (NumPy.upTo (List.range wavelets.cols) (some 0)).length (NumPy.upTo (List.range cs.length) (some 0)).length = .ok 0 := by
        simp [NumPy.upTo, NumPy.dim]
      have h4 : List.map (fun r => NumPy.upTo r (some 0)) (List.map (fun r : List ℂ => List.map (starRingEnd ℂ) r) [cs]) = [[]] := by
        simp [NumPy.upTo]
      simp only [h3, h4]
      simp only [bind, Except.bind] at h1 ⊢
      split at h1
      · exact absurd h1 (by simp)
      · rename_i v hv
        rw [h1]
        rfl
    obtain ⟨w, hw, hrows⟩ := hsift
    unfold Wavelets.selectCoefficients Wavelets.slepianForward
    rw [hN]
    simp only [Nat.cast_zero, hw, bind, Except.bind, pure, Except.pure]
    refine NumPy.item_of_ge _ _ ?_
    unfold Wavelets.findNonZero
    rw [List.filter_eq_nil_iff.2]
    · simp
    · intro r hr
      rw [hrows r hr]
      simp

/-- an object that keeps nothing, as it is after loading. -/
example : ∃ e : Functions.SlepianEnv 1 Unit, e.sl.N = 0 := ⟨⟨⟨0, [1 / 4], []⟩, fun v _ => v 0, fun _ => 1, fun f => [f ()]⟩, rfl⟩

end Sleplet.Props
