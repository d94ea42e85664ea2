import Mathlib.Tactic.FinCases
import Verif.Lemmas.SlepianTransform

/-!
C32, C33, C34 (Slepian decomposition on the sphere).
-/
namespace Sleplet.Props

open Complex Sleplet.Spec Sleplet.Transform

variable {Pix : Type} [Fintype Pix] {L : ℕ}

/-- C33. Which formula `decompose(rank)` uses.  For every object, inputs and rank: harmonic coefficients win over
everything; else a field with a mask is integrated over the region and divided by the eigenvalue; else a field over
everything; nothing given raises `RuntimeError`; a rank outside `0 … L²-1` raises `ValueError`. -/
theorem C33_method_selection (sl : Slepian (L ^ 2)) (synth : (Fin (L ^ 2) → ℂ) → Pix → ℂ) (w : Pix → ℝ) (rank : ℕ)
    (v : Fin (L ^ 2) → ℂ) (e : ℝ) (hv : sl.evecs[rank]? = some v) (he : sl.evals[rank]? = some e) (hr : rank < L ^ 2) :
    (∀ flm f mask, decompose sl synth w ⟨f, some flm, mask⟩ rank = .ok (∑ i, flm i * (starRingEnd ℂ) (v i))) ∧
    (∀ f mask, decompose sl synth w ⟨some f, none, some mask⟩ rank =
      .ok ((∑ x, f x * (starRingEnd ℂ) (synth v x) * (w x : ℂ) * (mask x : ℂ)) / (e : ℂ))) ∧
    (∀ f, decompose sl synth w ⟨some f, none, none⟩ rank =
      .ok (∑ x, f x * (starRingEnd ℂ) (synth v x) * (w x : ℂ))) := by
  refine ⟨?_, ?_, ?_⟩
  · intro flm f mask
    rw [decompose_flm sl synth w _ flm rfl rank hr]
    simp [harmonicSum, NumPy.item, hv, bind, Except.bind, pure, Except.pure]
  · intro f mask
    simp [decompose, detectMethod, validateRank_ok hr, integrateRegionMethod, NumPy.item, hv, he, bind, Except.bind,
      pure, Except.pure, integrateRegion, multiply]
  · intro f
    simp [decompose, detectMethod, validateRank_ok hr, integrateSphere, NumPy.item, hv, bind, Except.bind,
      pure, Except.pure, integrateWhole, multiply]

/-- C33, rejections. -/
theorem C33_rejections (sl : Slepian (L ^ 2)) (synth : (Fin (L ^ 2) → ℂ) → Pix → ℂ) (w : Pix → ℝ) :
    (∀ mask rank, decompose sl synth w ⟨none, none, mask⟩ rank = .error .runtimeError) ∧
    (∀ inp : Inputs (L ^ 2) Pix, (inp.f ≠ none ∨ inp.flm ≠ none) → ∀ rank : ℤ, (rank < 0 ∨ (L : ℤ) ^ 2 ≤ rank) →
      decompose sl synth w inp rank = .error .valueError) ∧
    (∀ mask n, slepianForward sl synth w ⟨none, none, mask⟩ n = .error .runtimeError) := by
  refine ⟨?_, ?_, ?_⟩
  · intro mask rank
    simp [decompose, detectMethod, bind, Except.bind]
  · intro inp h rank hr
    have hval : validateRank L rank = .error .valueError := by
      unfold validateRank
      rcases hr with hr | hr
      · rw [if_pos hr]
      · by_cases h0 : rank < 0
        · rw [if_pos h0]
        · rw [if_neg h0, if_pos hr]
    obtain ⟨f, flm, mask⟩ := inp
    simp only at h
    unfold decompose
    cases flm with
    | some flm => simp [detectMethod, hval, bind, Except.bind]
    | none =>
      cases f with
      | some f => cases mask <;> simp [detectMethod, hval, bind, Except.bind]
      | none => simp at h
  · intro mask n
    simp [slepianForward, detectMethod, bind, Except.bind]

/-- a harmonic signal that is not trivial: `L = 1`, coefficient 3, eigenvector `i`. -/
example : decompose (L := 1) (Pix := Unit) ⟨1, [1], [fun _ => I]⟩ (fun c _ => c 0) (fun _ => 1)
    ⟨none, some fun _ => 3, none⟩ 0 = .ok (-3 * I) := by
  have := (C33_method_selection (L := 1) (Pix := Unit) ⟨1, [1], [fun _ => I]⟩ (fun c _ => c 0) (fun _ => 1) 0
    (fun _ => I) 1 rfl rfl (by norm_num)).1 (fun _ => 3) none none
  simpa using this

/-- the forward transform of harmonic coefficients, explicitly. -/
theorem forward_flm {N : ℕ} (sl : Slepian (L ^ 2)) (synth : (Fin (L ^ 2) → ℂ) → Pix → ℂ) (w : Pix → ℝ)
    (E : Fin N → Fin (L ^ 2) → ℂ) (hN : sl.N = N) (hle : N ≤ L ^ 2) (h : ∀ p : Fin N, sl.evecs[(p : ℕ)]? = some (E p))
    (flm : Fin (L ^ 2) → ℂ) : slepianForward sl synth w ⟨none, some flm, none⟩ none =
      .ok (List.ofFn fun p : Fin N => ∑ i, flm i * (starRingEnd ℂ) (E p i)) := by
  unfold slepianForward
  simp only [Option.isSome_some, detectMethod_flm, bind, Except.bind]
  rw [decomposeAll_ok sl synth w _ (fun r => ∑ i, flm i * (starRingEnd ℂ) ((if hr : r < N then E ⟨r, hr⟩ else fun _ => 0) i))]
  · congr 1
    apply List.ext_getElem
    · simp [hN]
    · intro i h1 h2
      simp at h2
      simp [h2]
  · intro r hr
    have hr : r < N := by rw [← hN]; simpa using hr
    rw [decompose_flm sl synth w _ flm rfl r (by omega)]
    simp only [harmonicSum, NumPy.item, h ⟨r, hr⟩, bind, Except.bind, pure, Except.pure, hr, dite_true]

/-- C32. Let the first `N` eigenvectors `E` be orthonormal and the external inverse transform be synthesis with fixed
functions `Y`.  For every harmonic signal, the forward transform succeeds with `N` coefficients `F` and the inverse
transform of them is the field of a signal `g` which is the orthogonal projection of `flm` onto the span of the first `N`
eigenvectors; the coefficients never have more energy than the signal; and if `flm` lies in that span, its coefficients
are recovered and the field is reproduced. -/
theorem C32_round_trip_projection {N : ℕ} (sl : Slepian (L ^ 2)) (synth : (Fin (L ^ 2) → ℂ) → Pix → ℂ) (w : Pix → ℝ)
    (Y : Fin (L ^ 2) → Pix → ℂ) (hY : ∀ c x, synth c x = ∑ i, c i * Y i x)
    (E : Fin N → Fin (L ^ 2) → ℂ) (hN : sl.N = N) (hle : N ≤ L ^ 2) (h : ∀ p : Fin N, sl.evecs[(p : ℕ)]? = some (E p))
    (hE : OrthonormalRows E) (flm : Fin (L ^ 2) → ℂ) :
    ∃ (F : Fin N → ℂ) (g : Fin (L ^ 2) → ℂ),
      slepianForward sl synth w ⟨none, some flm, none⟩ none = .ok (List.ofFn F) ∧
      slepianInverse sl synth (List.ofFn F) = .ok (synth g) ∧
      (∃ a : Fin N → ℂ, ∀ i, g i = ∑ p, a p * E p i) ∧
      (∀ p, ∑ i, (flm i - g i) * (starRingEnd ℂ) (E p i) = 0) ∧
      (∑ p, ‖F p‖ ^ 2 ≤ ∑ i, ‖flm i‖ ^ 2) ∧
      (∀ a : Fin N → ℂ, (∀ i, flm i = ∑ p, a p * E p i) → F = a ∧ synth g = synth flm) := by
  set F : Fin N → ℂ := fun p => ∑ i, flm i * (starRingEnd ℂ) (E p i) with hF
  set g : Fin (L ^ 2) → ℂ := fun i => ∑ p, F p * E p i with hg
  -- inner products of combinations of the rows
  have hcomb : ∀ (a : Fin N → ℂ) (q : Fin N), ∑ i, (∑ p, a p * E p i) * (starRingEnd ℂ) (E q i) = a q := by
    intro a q
    calc ∑ i, (∑ p, a p * E p i) * (starRingEnd ℂ) (E q i)
        = ∑ i, ∑ p, a p * (E p i * (starRingEnd ℂ) (E q i)) := by
          refine Finset.sum_congr rfl fun i _ => ?_
          rw [Finset.sum_mul]
          exact Finset.sum_congr rfl fun p _ => by ring
      _ = ∑ p, a p * ∑ i, E p i * (starRingEnd ℂ) (E q i) := by
          rw [Finset.sum_comm]
          exact Finset.sum_congr rfl fun p _ => by rw [Finset.mul_sum]
      _ = a q := by
          simp [hE _ q]
  have hproj : ∀ p, ∑ i, (flm i - g i) * (starRingEnd ℂ) (E p i) = 0 := by
    intro p
    have h1 : ∑ i, (flm i - g i) * (starRingEnd ℂ) (E p i) =
        F p - ∑ i, (∑ q, F q * E q i) * (starRingEnd ℂ) (E p i) := by
      rw [hF, hg, ← Finset.sum_sub_distrib]
      exact Finset.sum_congr rfl fun i _ => by ring
    rw [h1, hcomb, sub_self]
  refine ⟨F, g, forward_flm sl synth w E hN hle h flm, ?_, ⟨F, fun i => rfl⟩, hproj, ?_, ?_⟩
  · rw [slepianInverse_ok sl synth E hN h F]
    congr 1
    funext x
    rw [hY g]
    simp only [hY (E _), hg]
    simp only [Finset.mul_sum, Finset.sum_mul]
    rw [Finset.sum_comm]
    exact Finset.sum_congr rfl fun i _ => Finset.sum_congr rfl fun p _ => by ring
  · -- Bessel
    have hgF : ∑ i, g i * (starRingEnd ℂ) (g i) = ∑ p, F p * (starRingEnd ℂ) (F p) := by
      have : ∀ i, (starRingEnd ℂ) (g i) = ∑ p, (starRingEnd ℂ) (F p) * (starRingEnd ℂ) (E p i) := by
        intro i; simp [hg, map_sum]
      simp only [this, Finset.mul_sum]
      rw [Finset.sum_comm]
      refine Finset.sum_congr rfl fun p _ => ?_
      have := hcomb F p
      calc ∑ i, g i * ((starRingEnd ℂ) (F p) * (starRingEnd ℂ) (E p i))
          = (∑ i, g i * (starRingEnd ℂ) (E p i)) * (starRingEnd ℂ) (F p) := by
            rw [Finset.sum_mul]; exact Finset.sum_congr rfl fun i _ => by ring
        _ = _ := by rw [this]
    have hcross : ∑ i, (flm i - g i) * (starRingEnd ℂ) (g i) = 0 := by
      have : ∀ i, (starRingEnd ℂ) (g i) = ∑ p, (starRingEnd ℂ) (F p) * (starRingEnd ℂ) (E p i) := by
        intro i; simp [hg, map_sum]
      simp only [this, Finset.mul_sum]
      rw [Finset.sum_comm]
      refine Finset.sum_eq_zero fun p _ => ?_
      calc ∑ i, (flm i - g i) * ((starRingEnd ℂ) (F p) * (starRingEnd ℂ) (E p i))
          = (∑ i, (flm i - g i) * (starRingEnd ℂ) (E p i)) * (starRingEnd ℂ) (F p) := by
            rw [Finset.sum_mul]; exact Finset.sum_congr rfl fun i _ => by ring
        _ = 0 := by rw [hproj, zero_mul]
    have hcross' : ∑ i, g i * (starRingEnd ℂ) (flm i - g i) = 0 := by
      have := congrArg (starRingEnd ℂ) hcross
      rw [map_sum, map_zero] at this
      rw [← this]
      exact Finset.sum_congr rfl fun i _ => by rw [map_mul, conj_conj]; ring
    have hexp : ∑ i, flm i * (starRingEnd ℂ) (flm i) =
        ∑ i, (flm i - g i) * (starRingEnd ℂ) (flm i - g i) + ∑ i, g i * (starRingEnd ℂ) (g i) := by
      have : ∑ i, flm i * (starRingEnd ℂ) (flm i) = ∑ i, (flm i - g i) * (starRingEnd ℂ) (flm i - g i)
          + ∑ i, (flm i - g i) * (starRingEnd ℂ) (g i) + ∑ i, g i * (starRingEnd ℂ) (flm i - g i)
          + ∑ i, g i * (starRingEnd ℂ) (g i) := by
        rw [← Finset.sum_add_distrib, ← Finset.sum_add_distrib, ← Finset.sum_add_distrib]
        exact Finset.sum_congr rfl fun i _ => by rw [map_sub]; ring
      rw [this, hcross, hcross']; ring
    rw [hgF] at hexp
    simp only [mul_conj, normSq_eq_norm_sq] at hexp
    have hexp' : ∑ i, ‖flm i‖ ^ 2 = ∑ i, ‖flm i - g i‖ ^ 2 + ∑ p, ‖F p‖ ^ 2 := by exact_mod_cast hexp
    have : 0 ≤ ∑ i, ‖flm i - g i‖ ^ 2 := Finset.sum_nonneg fun i _ => by positivity
    linarith
  · intro a ha
    have hFa : F = a := by
      funext q
      rw [hF]
      simp only [ha]
      exact hcomb a q
    refine ⟨hFa, ?_⟩
    have : g = flm := by
      funext i
      rw [hg, ha i]
      simp only [hFa]
    rw [this]

/-- hypotheses met for `L = 2`, `N = 2`: eigenvectors `e₁`, `i·e₂` on a grid of four points. -/
example : ∃ (sl : Slepian (2 ^ 2)) (E : Fin 2 → Fin (2 ^ 2) → ℂ), sl.N = 2 ∧
    (∀ p : Fin 2, sl.evecs[(p : ℕ)]? = some (E p)) ∧ OrthonormalRows E := by
  let E : Fin 2 → Fin (2 ^ 2) → ℂ := fun p i => if (i : ℕ) = p + 1 then I else 0
  refine ⟨⟨2, [1, 1 / 2], [E 0, E 1]⟩, E, rfl, ?_, ?_⟩
  · intro p; fin_cases p <;> rfl
  · intro p q
    fin_cases p <;> fin_cases q <;> simp [E, Fin.sum_univ_four]

/-- C34. If synthesis uses functions `Y` that are orthonormal for the quadrature weights, and eigenvector `v` satisfies
the concentration equation `∑_c (∫_R conj(Y_r) Y_c) v_c = λ v_r` of the mask with `λ ≠ 0`, then for every bandlimited
signal the three ways of computing the coefficient (harmonic sum, whole integral, region integral over `λ`) agree. -/
theorem C34_three_methods_agree (sl : Slepian (L ^ 2)) (synth : (Fin (L ^ 2) → ℂ) → Pix → ℂ) (w mask : Pix → ℝ)
    (Y : Fin (L ^ 2) → Pix → ℂ) (hY : ∀ c x, synth c x = ∑ i, c i * Y i x)
    (horth : ∀ i j, ∑ x, Y i x * (starRingEnd ℂ) (Y j x) * (w x : ℂ) = if i = j then 1 else 0)
    (rank : ℕ) (hr : rank < L ^ 2) (v : Fin (L ^ 2) → ℂ) (e : ℝ) (hv : sl.evecs[rank]? = some v)
    (he : sl.evals[rank]? = some e) (hne : e ≠ 0)
    (heig : ∀ r, ∑ c, (∑ x, (starRingEnd ℂ) (Y r x) * Y c x * (w x : ℂ) * (mask x : ℂ)) * v c = e * v r)
    (flm : Fin (L ^ 2) → ℂ) :
    decompose sl synth w ⟨some (synth flm), none, none⟩ rank = decompose sl synth w ⟨none, some flm, none⟩ rank ∧
    decompose sl synth w ⟨some (synth flm), none, some mask⟩ rank = decompose sl synth w ⟨none, some flm, none⟩ rank := by
  obtain ⟨h1, h2, h3⟩ := C33_method_selection sl synth w rank v e hv he hr
  rw [h1 flm none none, h2 (synth flm) mask, h3 (synth flm)]
  constructor
  · congr 1
    simp only [hY, map_sum, map_mul]
    calc ∑ x, (∑ i, flm i * Y i x) * (∑ j, (starRingEnd ℂ) (v j) * (starRingEnd ℂ) (Y j x)) * (w x : ℂ)
        = ∑ x, ∑ i, ∑ j, flm i * (starRingEnd ℂ) (v j) * (Y i x * (starRingEnd ℂ) (Y j x) * (w x : ℂ)) := by
          refine Finset.sum_congr rfl fun x _ => ?_
          rw [Finset.sum_mul_sum, Finset.sum_mul]
          refine Finset.sum_congr rfl fun i _ => ?_
          rw [Finset.sum_mul]
          exact Finset.sum_congr rfl fun j _ => by ring
      _ = ∑ i, ∑ j, flm i * (starRingEnd ℂ) (v j) * ∑ x, Y i x * (starRingEnd ℂ) (Y j x) * (w x : ℂ) := by
          rw [Finset.sum_comm]
          refine Finset.sum_congr rfl fun i _ => ?_
          rw [Finset.sum_comm]
          exact Finset.sum_congr rfl fun j _ => by rw [Finset.mul_sum]
      _ = ∑ i, flm i * (starRingEnd ℂ) (v i) := by
          refine Finset.sum_congr rfl fun i _ => ?_
          simp [horth]
  · congr 1
    have hne' : (e : ℂ) ≠ 0 := by exact_mod_cast hne
    rw [div_eq_iff hne']
    simp only [hY, map_sum, map_mul]
    have heig' : ∀ r, ∑ c, (∑ x, Y r x * (starRingEnd ℂ) (Y c x) * (w x : ℂ) * (mask x : ℂ)) * (starRingEnd ℂ) (v c)
        = e * (starRingEnd ℂ) (v r) := by
      intro r
      have := congrArg (starRingEnd ℂ) (heig r)
      simpa only [map_sum, map_mul, conj_conj, conj_ofReal] using this
    calc ∑ x, (∑ i, flm i * Y i x) * (∑ j, (starRingEnd ℂ) (v j) * (starRingEnd ℂ) (Y j x)) * (w x : ℂ) * (mask x : ℂ)
        = ∑ x, ∑ i, ∑ j, flm i * ((Y i x * (starRingEnd ℂ) (Y j x) * (w x : ℂ) * (mask x : ℂ)) * (starRingEnd ℂ) (v j)) := by
          refine Finset.sum_congr rfl fun x _ => ?_
          rw [Finset.sum_mul_sum, Finset.sum_mul, Finset.sum_mul]
          refine Finset.sum_congr rfl fun i _ => ?_
          rw [Finset.sum_mul, Finset.sum_mul]
          exact Finset.sum_congr rfl fun j _ => by ring
      _ = ∑ i, flm i * ∑ j, (∑ x, Y i x * (starRingEnd ℂ) (Y j x) * (w x : ℂ) * (mask x : ℂ)) * (starRingEnd ℂ) (v j) := by
          rw [Finset.sum_comm]
          refine Finset.sum_congr rfl fun i _ => ?_
          rw [Finset.sum_comm, Finset.mul_sum]
          refine Finset.sum_congr rfl fun j _ => ?_
          rw [Finset.sum_mul, Finset.mul_sum]
      _ = (∑ i, flm i * (starRingEnd ℂ) (v i)) * e := by
          rw [Finset.sum_mul]
          refine Finset.sum_congr rfl fun i _ => ?_
          rw [heig']; ring

/-- hypotheses met: two points, one in the region, `L = 1` and the constant function `i` with weights `1/2`. -/
example : ∃ (Y : Fin (1 ^ 2) → Fin 2 → ℂ) (w mask : Fin 2 → ℝ) (v : Fin (1 ^ 2) → ℂ) (e : ℝ),
    (∀ i j, ∑ x, Y i x * (starRingEnd ℂ) (Y j x) * (w x : ℂ) = if i = j then 1 else 0) ∧ e = 1 / 2 ∧
    (∀ r, ∑ c, (∑ x, (starRingEnd ℂ) (Y r x) * Y c x * (w x : ℂ) * (mask x : ℂ)) * v c = e * v r) ∧ v ≠ 0 := by
  refine ⟨fun _ _ => I, fun _ => 1 / 2, fun x => if x = 0 then 1 else 0, fun _ => 1, 1 / 2, ?_, rfl, ?_, ?_⟩
  · intro i j
    have : i = j := by
      have h1 := i.2
      have h2 := j.2
      ext; omega
    simp [this]
  · intro r
    simp [Fin.sum_univ_two]
  · intro h
    have := congrFun h 0
    simp at this

end Sleplet.Props
