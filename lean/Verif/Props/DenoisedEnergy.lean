import Verif.Lemmas.Bessel
import Verif.Props.Demos

/-!
C126: denoising does not add energy.  C127: how much denoising can change a signal.
-/
namespace Sleplet.Props

open Complex NumPy Denoising Spec Wavelets

section
variable {Pix : Type} [Fintype Pix]

/-- Transforms between `n` coefficients and fields that do not add energy, that of a field being its weighted sum of squares. -/
structure NoGain (n : ℕ) (w : Pix → ℝ) (inv : List ℂ → Pix → ℂ) (fwd : (Pix → ℂ) → List ℂ) : Prop where
  nonneg : ∀ x, 0 ≤ w x
  inverse : ∀ c, c.length = n → ∑ x, w x * ‖inv c x‖ ^ 2 ≤ ∑ p ∈ Finset.range n, ‖c.getD p 0‖ ^ 2
  forward : ∀ f, ∑ p ∈ Finset.range n, ‖(fwd f).getD p 0‖ ^ 2 ≤ ∑ x, w x * ‖f x‖ ^ 2
  sub : ∀ f g (p : ℕ), (fwd fun x => f x - g x).getD p 0 = (fwd f).getD p 0 - (fwd g).getD p 0

private theorem clip_le (f : Pix → ℂ) (t : Pix → ℝ) (x : Pix) : ‖clipBelow f t x‖ ≤ ‖f x‖ := by
  unfold clipBelow
  split <;> simp

private theorem clip_sub_le (f : Pix → ℂ) (t : Pix → ℝ) (x : Pix) : ‖clipBelow f t x - f x‖ ^ 2 ≤ t x ^ 2 := by
  unfold clipBelow
  split
  · simp [sq_nonneg]
  · rename_i h
    rw [zero_sub, norm_neg]
    exact pow_le_pow_left₀ (norm_nonneg _) (not_le.1 h).le 2

/-- cutting a field at a threshold. -/
private theorem cut_le {n : ℕ} {w : Pix → ℝ} {inv : List ℂ → Pix → ℂ} {fwd : (Pix → ℂ) → List ℂ} (hg : NoGain n w inv fwd) (c : List ℂ)
    (hc : c.length = n) (t : Pix → ℝ) :
    ∑ p ∈ Finset.range n, ‖(fwd (clipBelow (inv c) t)).getD p 0‖ ^ 2 ≤ ∑ p ∈ Finset.range n, ‖c.getD p 0‖ ^ 2 :=
  (hg.forward _).trans ((Finset.sum_le_sum fun x _ => mul_le_mul_of_nonneg_left
    (pow_le_pow_left₀ (norm_nonneg _) (clip_le _ _ x) 2) (hg.nonneg x)).trans (hg.inverse c hc))

private theorem cut_sub_le {n : ℕ} {w : Pix → ℝ} {inv : List ℂ → Pix → ℂ} {fwd : (Pix → ℂ) → List ℂ} (hg : NoGain n w inv fwd) (c : List ℂ)
    (hid : fwd (inv c) = c) (t : Pix → ℝ) :
    ∑ p ∈ Finset.range n, ‖(fwd (clipBelow (inv c) t)).getD p 0 - c.getD p 0‖ ^ 2 ≤ ∑ x, w x * t x ^ 2 := by
  have h1 : ∀ p, (fwd (clipBelow (inv c) t)).getD p 0 - c.getD p 0 = (fwd fun x => clipBelow (inv c) t x - inv c x).getD p 0 := by
    intro p
    rw [hg.sub, hid]
  simp only [h1]
  exact (hg.forward _).trans (Finset.sum_le_sum fun x _ => mul_le_mul_of_nonneg_left (clip_sub_le _ _ x) (hg.nonneg x))

private theorem getD_waveletRow (f : List ℂ) (N : ℕ) (psi : List ℂ) {p : ℕ} (hp : p < N) :
    (waveletRow f N psi).getD p 0 = psi.getD p 0 * (starRingEnd ℂ) (f.getD p 0) := by
  simp [waveletRow, List.getD_eq_getElem?_getD, hp]

/-- C126. Denoising with Slepian wavelets does not add energy, for all transforms that do not and for all wavelets whose squares
add up to at most one, whichever scales see the signal: neither the coefficients nor the field returned have more energy than the noised
coefficients. -/
theorem C126_slepian_wavelets {inverse : List ℂ → Except Err (Pix → ℂ)} {forward : (Pix → ℂ) → Except Err (List ℂ)}
    {inv : List ℂ → Pix → ℂ} {fwd : (Pix → ℂ) → List ℂ} (N : ℕ) (ht : Transforms N inverse forward inv fwd) {w : Pix → ℝ}
    (hg : NoGain N w inv fwd) (sigmaJ : List (List ℂ) → Except Err (List (Pix → ℝ))) (signal noised : List ℂ) (wavelets : Array2 ℂ)
    (hw : wavelets.WF) (hc : N ≤ wavelets.cols) (hs : signal.length = N) (hn : N ≤ noised.length) (sigma : List (Pix → ℝ))
    (hsig : sigmaJ wavelets.rows = .ok sigma) (hlen : sigma.length = wavelets.rows.length)
    (hadm : ∀ p < N, (wavelets.rows.map fun psi => ‖psi.getD p 0‖ ^ 2).sum ≤ 1) (n : ℤ) :
    ∃ out, slepianWavelet inverse forward sigmaJ N signal noised wavelets n =
        .ok (inv out, decibels signal ((List.range N).map fun p => out.getD p 0 - signal.getD p 0)) ∧ out.length = N ∧
      ∑ p ∈ Finset.range N, ‖out.getD p 0‖ ^ 2 ≤ ∑ p ∈ Finset.range N, ‖noised.getD p 0‖ ^ 2 ∧
      ∑ x, w x * ‖inv out x‖ ^ 2 ≤ ∑ p ∈ Finset.range N, ‖noised.getD p 0‖ ^ 2 := by
  classical
  obtain ⟨out, h1, hol, hov⟩ := C84_slepian_formula N ht sigmaJ signal noised wavelets hw hc hs hn sigma hsig hlen n
  have key : ∑ p ∈ Finset.range N, ‖out.getD p 0‖ ^ 2 ≤ ∑ p ∈ Finset.range N, ‖noised.getD p 0‖ ^ 2 := by
    set kept := wavelets.rows.filter fun psi => decide (Seen noised N psi) with hkept
    have hle : kept.length ≤ wavelets.rows.length := List.length_filter_le _ _
    set T := List.zipWith (fun (psi : List ℂ) (s : Pix → ℝ) => fwd (clipBelow (inv (waveletRow noised N psi)) fun x => n * s x))
      kept sigma with hT
    have hTl : T.length = kept.length := by rw [hT, List.length_zipWith, hlen]; omega
    have hTi : ∀ i < kept.length, T.getD i [] =
        fwd (clipBelow (inv (waveletRow noised N (kept.getD i []))) fun x => n * (sigma.getD i fun _ => 0) x) := by
      intro i hi
      rw [List.getD_eq_getElem _ _ (by omega), List.getD_eq_getElem _ _ hi, List.getD_eq_getElem _ _ (by omega)]
      simp only [hT, List.getElem_zipWith]
    have hadm' : ∀ p < N, ∑ i ∈ Finset.range kept.length, ‖(wavelets.rows.getD i []).getD p 0‖ ^ 2 ≤ 1 := by
      intro p hp
      refine le_trans ?_ (hadm p hp)
      rw [Bessel.sum_map _ _ []]
      exact Finset.sum_le_sum_of_subset_of_nonneg (by simpa using hle) fun _ _ _ => by positivity
    have hkadm : ∀ p < N, ∑ i ∈ Finset.range kept.length, ‖(kept.getD i []).getD p 0‖ ^ 2 ≤ 1 := by
      intro p hp
      refine le_trans ?_ (hadm p hp)
      rw [← Bessel.sum_map (fun psi : List ℂ => ‖psi.getD p 0‖ ^ 2) kept []]
      exact ((List.filter_sublist).map _).sum_le_sum fun x hx => by
        obtain ⟨psi, -, rfl⟩ := List.mem_map.1 hx; positivity
    calc ∑ p ∈ Finset.range N, ‖out.getD p 0‖ ^ 2
        ≤ ∑ p ∈ Finset.range N, ∑ i ∈ Finset.range kept.length, ‖(T.getD i []).getD p 0‖ ^ 2 := by
          refine Finset.sum_le_sum fun p hp => ?_
          have hp := Finset.mem_range.1 hp
          rw [hov p hp, Bessel.sum_zipWith _ _ _ [] [], hTl, min_eq_right hle]
          refine (Bessel.cauchy_range _ _ _).trans ?_
          exact mul_le_of_le_one_left (by positivity) (hadm' p hp)
      _ = ∑ i ∈ Finset.range kept.length, ∑ p ∈ Finset.range N, ‖(T.getD i []).getD p 0‖ ^ 2 := Finset.sum_comm
      _ ≤ ∑ i ∈ Finset.range kept.length, ∑ p ∈ Finset.range N, ‖(waveletRow noised N (kept.getD i [])).getD p 0‖ ^ 2 := by
          refine Finset.sum_le_sum fun i hi => ?_
          rw [hTi i (Finset.mem_range.1 hi)]
          exact cut_le hg _ (by simp [waveletRow]) _
      _ = ∑ p ∈ Finset.range N, (∑ i ∈ Finset.range kept.length, ‖(kept.getD i []).getD p 0‖ ^ 2) * ‖noised.getD p 0‖ ^ 2 := by
          rw [Finset.sum_comm]
          refine Finset.sum_congr rfl fun p hp => ?_
          rw [Finset.sum_mul]
          refine Finset.sum_congr rfl fun i _ => ?_
          rw [getD_waveletRow _ _ _ (Finset.mem_range.1 hp), norm_mul, RCLike.norm_conj, mul_pow]
      _ ≤ _ := Finset.sum_le_sum fun p hp => mul_le_of_le_one_left (by positivity) (hkadm p (Finset.mem_range.1 hp))
  exact ⟨out, h1, hol, key, (hg.inverse out hol).trans key⟩

/-- C127, partial. Denoising with Slepian wavelets, if the scales that do not see the noised signal come last and the thresholds have
on average the size `v |ψ(p)|²` for each coefficient: the change made to the coefficients has at most the energy `n_sigma² v` for each. -/
theorem C127_slepian_wavelets_partial {inverse : List ℂ → Except Err (Pix → ℂ)} {forward : (Pix → ℂ) → Except Err (List ℂ)}
    {inv : List ℂ → Pix → ℂ} {fwd : (Pix → ℂ) → List ℂ} (N : ℕ) (ht : Transforms N inverse forward inv fwd) {w : Pix → ℝ}
    (hg : NoGain N w inv fwd) (sigmaJ : List (List ℂ) → Except Err (List (Pix → ℝ))) (signal noised : List ℂ) (wavelets : Array2 ℂ)
    (hid : ∀ psi ∈ wavelets.rows, fwd (inv (waveletRow noised N psi)) = waveletRow noised N psi)
    (hw : wavelets.WF) (hc : N ≤ wavelets.cols) (hs : signal.length = N) (hn : N ≤ noised.length) (sigma : List (Pix → ℝ))
    (hsig : sigmaJ wavelets.rows = .ok sigma) (hlen : sigma.length = wavelets.rows.length)
    (hadm : ∀ p < N, (wavelets.rows.map fun psi => ‖psi.getD p 0‖ ^ 2).sum = 1) (hlast : UnseenLast noised N wavelets) {v : ℝ} (hv : 0 ≤ v)
    (hsv : ∀ (i : ℕ) (psi : List ℂ) (s : Pix → ℝ), wavelets.rows[i]? = some psi → sigma[i]? = some s →
      ∑ x, w x * s x ^ 2 ≤ v * ∑ p ∈ Finset.range N, ‖psi.getD p 0‖ ^ 2) (n : ℤ) :
    ∃ out, slepianWavelet inverse forward sigmaJ N signal noised wavelets n =
        .ok (inv out, decibels signal ((List.range N).map fun p => out.getD p 0 - signal.getD p 0)) ∧ out.length = N ∧
      ∑ p ∈ Finset.range N, ‖out.getD p 0 - noised.getD p 0‖ ^ 2 ≤ n ^ 2 * v * N := by
  classical
  obtain ⟨out, h1, hol, hov⟩ := C84_slepian_formula N ht sigmaJ signal noised wavelets hw hc hs hn sigma hsig hlen n
  refine ⟨out, h1, hol, ?_⟩
  obtain ⟨A, B, hAB, hA, hB⟩ := unseenLast_split hlast
  have hkept : (wavelets.rows.filter fun psi => decide (Seen noised N psi)) = A := by
    rw [hAB, List.filter_append, List.filter_eq_self.2 (by simpa using hA), List.filter_eq_nil_iff.2 (by simpa using hB),
      List.append_nil]
  rw [hkept] at hov
  have hle : A.length ≤ wavelets.rows.length := by rw [hAB]; simp
  have hWA : ∀ i < A.length, wavelets.rows.getD i [] = A.getD i [] := by
    intro i hi
    rw [hAB, List.getD_append _ _ _ _ hi]
  set T := List.zipWith (fun (psi : List ℂ) (s : Pix → ℝ) => fwd (clipBelow (inv (waveletRow noised N psi)) fun x => n * s x))
    A sigma with hT
  have hTl : T.length = A.length := by rw [hT, List.length_zipWith, hlen]; omega
  have hTi : ∀ i < A.length, T.getD i [] =
      fwd (clipBelow (inv (waveletRow noised N (A.getD i []))) fun x => n * (sigma.getD i fun _ => 0) x) := by
    intro i hi
    rw [List.getD_eq_getElem _ _ (by omega), List.getD_eq_getElem _ _ hi, List.getD_eq_getElem _ _ (by omega)]
    simp only [hT, List.getElem_zipWith]
  have hadm' : ∀ p < N, ∑ i ∈ Finset.range A.length, ‖(A.getD i []).getD p 0‖ ^ 2 ≤ 1 := by
    intro p hp
    rw [← hadm p hp, ← Bessel.sum_map (fun psi : List ℂ => ‖psi.getD p 0‖ ^ 2) A [], hAB, List.map_append, List.sum_append]
    exact le_add_of_nonneg_right (List.sum_nonneg fun x hx => by obtain ⟨psi, -, rfl⟩ := List.mem_map.1 hx; positivity)
  have hself : ∀ p < N, noised.getD p 0 = ∑ i ∈ Finset.range A.length, (A.getD i []).getD p 0 *
      (starRingEnd ℂ) ((waveletRow noised N (A.getD i [])).getD p 0) := by
    intro p hp
    have e1 : ∀ i, (A.getD i []).getD p 0 * (starRingEnd ℂ) ((waveletRow noised N (A.getD i [])).getD p 0) =
        ((‖(A.getD i []).getD p 0‖ ^ 2 : ℝ) : ℂ) * noised.getD p 0 := by
      intro i
      rw [getD_waveletRow _ _ _ hp, map_mul, starRingEnd_self_apply, ← mul_assoc, mul_conj, normSq_eq_norm_sq]
    simp only [e1, ← Finset.sum_mul, ← ofReal_sum]
    by_cases h0 : noised.getD p 0 = 0
    · rw [h0, mul_zero]
    · have hBz : (B.map fun psi : List ℂ => ‖psi.getD p 0‖ ^ 2).sum = 0 := by
        refine List.sum_eq_zero fun x hx => ?_
        obtain ⟨psi, hpsi, rfl⟩ := List.mem_map.1 hx
        have : psi.getD p 0 = 0 := by
          by_contra h
          exact hB psi hpsi ⟨p, hp, mul_ne_zero h h0⟩
        rw [this]
        simp
      have := hadm p hp
      rw [hAB, List.map_append, List.sum_append, hBz, add_zero, Bessel.sum_map _ _ []] at this
      rw [this]
      simp
  have hdiff : ∀ p < N, out.getD p 0 - noised.getD p 0 = ∑ i ∈ Finset.range A.length, (A.getD i []).getD p 0 *
      (starRingEnd ℂ) ((T.getD i []).getD p 0 - (waveletRow noised N (A.getD i [])).getD p 0) := by
    intro p hp
    rw [hov p hp, Bessel.sum_zipWith _ _ _ [] [], hTl, min_eq_right hle]
    refine (congrArg (fun z => _ - z) (hself p hp)).trans ?_
    rw [← Finset.sum_sub_distrib]
    refine Finset.sum_congr rfl fun i hi => ?_
    rw [hWA i (Finset.mem_range.1 hi), map_sub, mul_sub]
  calc ∑ p ∈ Finset.range N, ‖out.getD p 0 - noised.getD p 0‖ ^ 2
      ≤ ∑ p ∈ Finset.range N, ∑ i ∈ Finset.range A.length,
          ‖(T.getD i []).getD p 0 - (waveletRow noised N (A.getD i [])).getD p 0‖ ^ 2 := by
        refine Finset.sum_le_sum fun p hp => ?_
        have hp := Finset.mem_range.1 hp
        rw [hdiff p hp]
        refine (Bessel.cauchy_range _ _ _).trans ?_
        exact mul_le_of_le_one_left (by positivity) (hadm' p hp)
    _ = ∑ i ∈ Finset.range A.length, ∑ p ∈ Finset.range N,
          ‖(T.getD i []).getD p 0 - (waveletRow noised N (A.getD i [])).getD p 0‖ ^ 2 := Finset.sum_comm
    _ ≤ ∑ i ∈ Finset.range A.length, n ^ 2 * (v * ∑ p ∈ Finset.range N, ‖(A.getD i []).getD p 0‖ ^ 2) := by
        refine Finset.sum_le_sum fun i hi => ?_
        have hi := Finset.mem_range.1 hi
        rw [hTi i hi]
        have hmem : A.getD i [] ∈ wavelets.rows := by
          rw [hAB]
          exact List.mem_append_left _ (Bessel.getD_mem hi _)
        refine (cut_sub_le hg _ (hid _ hmem) _).trans ?_
        have h2 := hsv i (A.getD i []) (sigma.getD i fun _ => 0)
          (by rw [← hWA i hi, List.getD_eq_getElem _ _ (by omega), List.getElem?_eq_getElem])
          (by rw [List.getD_eq_getElem _ _ (by omega), List.getElem?_eq_getElem])
        refine le_trans (le_of_eq ?_) (mul_le_mul_of_nonneg_left h2 (by positivity))
        rw [Finset.mul_sum]
        exact Finset.sum_congr rfl fun x _ => by ring
    _ = n ^ 2 * v * ∑ p ∈ Finset.range N, ∑ i ∈ Finset.range A.length, ‖(A.getD i []).getD p 0‖ ^ 2 := by
        rw [Finset.sum_comm, Finset.mul_sum]
        exact Finset.sum_congr rfl fun i _ => by ring
    _ ≤ n ^ 2 * v * ∑ p ∈ Finset.range N, 1 := mul_le_mul_of_nonneg_left
        (Finset.sum_le_sum fun p hp => hadm' p (Finset.mem_range.1 hp)) (by positivity)
    _ = n ^ 2 * v * N := by simp

/-- C126. Denoising with Slepian functions does not add energy. -/
theorem C126_slepian_function {inverse : List ℂ → Except Err (Pix → ℂ)} {forward : (Pix → ℂ) → Except Err (List ℂ)}
    {inv : List ℂ → Pix → ℂ} {fwd : (Pix → ℂ) → List ℂ} (L N : ℕ) (ht : Transforms N inverse forward inv fwd) {w : Pix → ℝ}
    (hg : NoGain N w inv fwd) (signal noised : List ℂ) (hs : signal.length = N) (hn : noised.length = N) (snrIn : ℝ) (n : ℤ) :
    ∃ out, slepianFunction inverse forward L signal noised snrIn n =
        .ok (inv out, decibels signal ((List.range N).map fun p => out.getD p 0 - signal.getD p 0)) ∧ out.length = N ∧
      ∑ p ∈ Finset.range N, ‖out.getD p 0‖ ^ 2 ≤ ∑ p ∈ Finset.range N, ‖noised.getD p 0‖ ^ 2 ∧
      ∑ x, w x * ‖inv out x‖ ^ 2 ≤ ∑ p ∈ Finset.range N, ‖noised.getD p 0‖ ^ 2 := by
  obtain ⟨out, h1, h2, -, -⟩ := C84_slepian_function L N ht signal noised hs hn snrIn n
  have hol : out.length = N := by rw [h2]; exact ht.length _
  have key : ∑ p ∈ Finset.range N, ‖out.getD p 0‖ ^ 2 ≤ ∑ p ∈ Finset.range N, ‖noised.getD p 0‖ ^ 2 := by
    rw [h2]
    exact cut_le hg noised hn _
  exact ⟨out, h1, hol, key, (hg.inverse out hol).trans key⟩

/-- C127. Denoising with Slepian functions changes the coefficients by at most the energy of a field as large as the threshold. -/
theorem C127_slepian_function {inverse : List ℂ → Except Err (Pix → ℂ)} {forward : (Pix → ℂ) → Except Err (List ℂ)}
    {inv : List ℂ → Pix → ℂ} {fwd : (Pix → ℂ) → List ℂ} (L N : ℕ) (ht : Transforms N inverse forward inv fwd) {w : Pix → ℝ}
    (hg : NoGain N w inv fwd) (signal noised : List ℂ) (hid : fwd (inv noised) = noised) (hs : signal.length = N)
    (hn : noised.length = N) (snrIn : ℝ) (n : ℤ) :
    ∃ out, slepianFunction inverse forward L signal noised snrIn n =
        .ok (inv out, decibels signal ((List.range N).map fun p => out.getD p 0 - signal.getD p 0)) ∧ out.length = N ∧
      ∑ p ∈ Finset.range N, ‖out.getD p 0 - noised.getD p 0‖ ^ 2 ≤
        n ^ 2 * (10 ^ (-snrIn / 10) * powerOf signal / L ^ 2) * ∑ x, w x := by
  obtain ⟨out, h1, h2, -, -⟩ := C84_slepian_function L N ht signal noised hs hn snrIn n
  refine ⟨out, h1, by rw [h2]; exact ht.length _, ?_⟩
  rw [h2]
  refine (cut_sub_le hg noised hid _).trans (le_of_eq ?_)
  have hp : 0 ≤ powerOf signal := List.sum_nonneg fun x hx => by obtain ⟨z, -, rfl⟩ := List.mem_map.1 hx; positivity
  simp only [mul_pow]
  rw [Real.sq_sqrt (by positivity), ← Finset.sum_mul, mul_comm]

/-- C126. Denoising with axisymmetric wavelets does not add energy. -/
theorem C126_axisym (L : ℕ) {inverse : List ℂ → Except Err (Pix → ℂ)} {forward : (Pix → ℂ) → Except Err (List ℂ)}
    {inv : List ℂ → Pix → ℂ} {fwd : (Pix → ℂ) → List ℂ} (ht : Transforms (L ^ 2) inverse forward inv fwd) {w : Pix → ℝ}
    (hg : NoGain (L ^ 2) w inv fwd) (rotate : List ℂ → List ℂ) (hrot : ∀ c, c.length = L ^ 2 → (rotate c).length = L ^ 2)
    (signal noised : List ℂ) (hs : signal.length = L ^ 2) (hn : noised.length = L ^ 2) (noisedSnr : Option ℝ)
    (k₀ : List ℝ) (ks : List (List ℝ)) (hk : ∀ k ∈ k₀ :: ks, L ≤ k.length)
    (hadm : ∀ l < L, ((k₀ :: ks).map fun k => k.getD l 0 ^ 2).sum ≤ 1) (snrIn : ℝ) (n : ℤ) (south : Bool) :
    ∃ wavelets out, createAxisym L (k₀ :: ks) = .ok wavelets ∧
      axisym inverse forward rotate L signal noised noisedSnr wavelets snrIn n south =
        .ok (inv (if south then rotate out else out), noisedSnr,
          decibels signal ((List.range (L ^ 2)).map fun i => out.getD i 0 - signal.getD i 0)) ∧
      out.length = L ^ 2 ∧
      ∑ i ∈ Finset.range (L ^ 2), ‖out.getD i 0‖ ^ 2 ≤ ∑ i ∈ Finset.range (L ^ 2), ‖noised.getD i 0‖ ^ 2 := by
  obtain ⟨wavelets, out, h1, h2, hol, hov⟩ := C84_axisym L ht rotate hrot signal noised hs hn noisedSnr k₀ ks hk snrIn n south
  refine ⟨wavelets, out, h1, h2, hol, ?_⟩
  set t := clippedScale inv fwd L signal noised snrIn n with htd
  set a : ℕ → ℕ → ℝ := fun i j => ((k₀ :: ks).getD j []).getD (Nat.sqrt i) 0 with ha
  set b : ℕ → ℕ → ℂ := fun i j => (Nat.casesOn j (byDegree L k₀ noised) fun j => t (ks.getD j []) : List ℂ).getD i 0 with hb
  have hout : ∀ i < L ^ 2, out.getD i 0 = ∑ j ∈ Finset.range (ks.length + 1), (a i j : ℂ) * (starRingEnd ℂ) ((starRingEnd ℂ) (b i j)) := by
    intro i hi
    rw [hov i hi, Finset.sum_range_succ', Bessel.sum_map _ _ [], add_comm]
    simp only [starRingEnd_self_apply, ha, hb, List.getD_cons_succ, List.getD_cons_zero]
    congr 1
    refine Eq.trans ?_ (congrArg (fun z => _ * z) (getD_byDegree k₀ noised hi).symm)
    push_cast
    ring
  have hadm' : ∀ i < L ^ 2, ∑ j ∈ Finset.range (ks.length + 1), ‖(a i j : ℂ)‖ ^ 2 ≤ 1 := by
    intro i hi
    have := hadm (Nat.sqrt i) (Nat.sqrt_lt'.2 hi)
    rw [Bessel.sum_map _ _ [], List.length_cons] at this
    refine le_trans (le_of_eq ?_) this
    exact Finset.sum_congr rfl fun j _ => by simp [ha]
  have hscale : ∀ j < ks.length + 1, ∑ i ∈ Finset.range (L ^ 2), ‖b i j‖ ^ 2 ≤
      ∑ i ∈ Finset.range (L ^ 2), ‖(a i j : ℂ)‖ ^ 2 * ‖noised.getD i 0‖ ^ 2 := by
    intro j hj
    have hrow : ∀ k : List ℝ, ∑ i ∈ Finset.range (L ^ 2), ‖(byDegree L k noised).getD i 0‖ ^ 2 =
        ∑ i ∈ Finset.range (L ^ 2), ‖((k.getD (Nat.sqrt i) 0 : ℝ) : ℂ)‖ ^ 2 * ‖noised.getD i 0‖ ^ 2 := by
      intro k
      refine Finset.sum_congr rfl fun i hi => ?_
      rw [getD_byDegree _ _ (Finset.mem_range.1 hi), norm_mul, mul_pow]
    cases j with
    | zero => exact (hrow k₀).le
    | succ j => exact (cut_le hg _ (by simp) _).trans (hrow _).le
  calc ∑ i ∈ Finset.range (L ^ 2), ‖out.getD i 0‖ ^ 2
      ≤ ∑ i ∈ Finset.range (L ^ 2), ∑ j ∈ Finset.range (ks.length + 1), ‖b i j‖ ^ 2 := by
        refine Finset.sum_le_sum fun i hi => ?_
        have hi := Finset.mem_range.1 hi
        rw [hout i hi]
        refine (Bessel.cauchy_range _ (fun j => (a i j : ℂ)) fun j => (starRingEnd ℂ) (b i j)).trans ?_
        simp only [RCLike.norm_conj]
        exact mul_le_of_le_one_left (by positivity) (hadm' i hi)
    _ = ∑ j ∈ Finset.range (ks.length + 1), ∑ i ∈ Finset.range (L ^ 2), ‖b i j‖ ^ 2 := Finset.sum_comm
    _ ≤ ∑ j ∈ Finset.range (ks.length + 1), ∑ i ∈ Finset.range (L ^ 2), ‖(a i j : ℂ)‖ ^ 2 * ‖noised.getD i 0‖ ^ 2 :=
        Finset.sum_le_sum fun j hj => hscale j (Finset.mem_range.1 hj)
    _ = ∑ i ∈ Finset.range (L ^ 2), (∑ j ∈ Finset.range (ks.length + 1), ‖(a i j : ℂ)‖ ^ 2) * ‖noised.getD i 0‖ ^ 2 := by
        rw [Finset.sum_comm]
        exact Finset.sum_congr rfl fun i _ => (Finset.sum_mul _ _ _).symm
    _ ≤ _ := Finset.sum_le_sum fun i hi => mul_le_of_le_one_left (by positivity) (hadm' i (Finset.mem_range.1 hi))

/-- C127. Denoising with axisymmetric wavelets changes the coefficients by at most `n_sigma²` times the energy that noise of the given
ratio has on average. -/
theorem C127_axisym (L : ℕ) {inverse : List ℂ → Except Err (Pix → ℂ)} {forward : (Pix → ℂ) → Except Err (List ℂ)}
    {inv : List ℂ → Pix → ℂ} {fwd : (Pix → ℂ) → List ℂ} (ht : Transforms (L ^ 2) inverse forward inv fwd) {w : Pix → ℝ}
    (hg : NoGain (L ^ 2) w inv fwd) (hid : ∀ c, c.length = L ^ 2 → fwd (inv c) = c) (harea : ∑ x, w x = 4 * Real.pi)
    (rotate : List ℂ → List ℂ) (hrot : ∀ c, c.length = L ^ 2 → (rotate c).length = L ^ 2)
    (signal noised : List ℂ) (hs : signal.length = L ^ 2) (hn : noised.length = L ^ 2) (noisedSnr : Option ℝ)
    (k₀ : List ℝ) (ks : List (List ℝ)) (hk : ∀ k ∈ k₀ :: ks, L ≤ k.length)
    (hadm : ∀ l < L, ((k₀ :: ks).map fun k => k.getD l 0 ^ 2).sum = 1) (snrIn : ℝ) (n : ℤ) (south : Bool) :
    ∃ wavelets out, createAxisym L (k₀ :: ks) = .ok wavelets ∧
      axisym inverse forward rotate L signal noised noisedSnr wavelets snrIn n south =
        .ok (inv (if south then rotate out else out), noisedSnr,
          decibels signal ((List.range (L ^ 2)).map fun i => out.getD i 0 - signal.getD i 0)) ∧
      out.length = L ^ 2 ∧
      ∑ i ∈ Finset.range (L ^ 2), ‖out.getD i 0 - noised.getD i 0‖ ^ 2 ≤ n ^ 2 * (10 ^ (-snrIn / 10) * powerOf signal) := by
  obtain ⟨wavelets, out, h1, h2, hol, hov⟩ := C84_axisym L ht rotate hrot signal noised hs hn noisedSnr k₀ ks hk snrIn n south
  refine ⟨wavelets, out, h1, h2, hol, ?_⟩
  have hp : 0 ≤ powerOf signal := List.sum_nonneg fun x hx => by obtain ⟨z, -, rfl⟩ := List.mem_map.1 hx; positivity
  have hP : 0 ≤ 10 ^ (-snrIn / 10) * powerOf signal := by positivity
  set P := 10 ^ (-snrIn / 10) * powerOf signal with hPd
  set t := clippedScale inv fwd L signal noised snrIn n with htd
  set a : ℕ → ℕ → ℝ := fun i j => (ks.getD j []).getD (Nat.sqrt i) 0 with ha
  set d : ℕ → ℕ → ℂ := fun i j => (t (ks.getD j [])).getD i 0 - (byDegree L (ks.getD j []) noised).getD i 0 with hd
  have hks : ∀ l < L, ∑ j ∈ Finset.range ks.length, (ks.getD j []).getD l 0 ^ 2 = 1 - k₀.getD l 0 ^ 2 := by
    intro l hl
    have := hadm l hl
    rw [List.map_cons, List.sum_cons, Bessel.sum_map _ _ []] at this
    linarith
  have hdiff : ∀ i < L ^ 2, out.getD i 0 - noised.getD i 0 =
      ∑ j ∈ Finset.range ks.length, (a i j : ℂ) * (starRingEnd ℂ) ((starRingEnd ℂ) (d i j)) := by
    intro i hi
    have hl : Nat.sqrt i < L := Nat.sqrt_lt'.2 hi
    rw [hov i hi, Bessel.sum_map _ _ []]
    simp only [starRingEnd_self_apply, hd, getD_byDegree _ _ hi, mul_sub, Finset.sum_sub_distrib]
    have e1 : ∑ j ∈ Finset.range ks.length, (a i j : ℂ) * (((ks.getD j []).getD (Nat.sqrt i) 0 : ℝ) * noised.getD i 0) =
        ((1 - k₀.getD (Nat.sqrt i) 0 ^ 2 : ℝ) : ℂ) * noised.getD i 0 := by
      rw [← hks _ hl, ofReal_sum, Finset.sum_mul]
      refine Finset.sum_congr rfl fun j _ => ?_
      simp only [ha]
      push_cast
      ring
    rw [e1]
    push_cast
    ring
  calc ∑ i ∈ Finset.range (L ^ 2), ‖out.getD i 0 - noised.getD i 0‖ ^ 2
      ≤ ∑ i ∈ Finset.range (L ^ 2), ∑ j ∈ Finset.range ks.length, ‖d i j‖ ^ 2 := by
        refine Finset.sum_le_sum fun i hi => ?_
        have hi := Finset.mem_range.1 hi
        rw [hdiff i hi]
        refine (Bessel.cauchy_range _ (fun j => (a i j : ℂ)) fun j => (starRingEnd ℂ) (d i j)).trans ?_
        simp only [RCLike.norm_conj]
        refine mul_le_of_le_one_left (by positivity) ?_
        have := hks _ (Nat.sqrt_lt'.2 hi)
        simp only [norm_real, Real.norm_eq_abs, sq_abs, ha]
        rw [this]
        linarith [sq_nonneg (k₀.getD (Nat.sqrt i) 0)]
    _ = ∑ j ∈ Finset.range ks.length, ∑ i ∈ Finset.range (L ^ 2), ‖d i j‖ ^ 2 := Finset.sum_comm
    _ ≤ ∑ j ∈ Finset.range ks.length, n ^ 2 * (P / L ^ 2 *
          ∑ l ∈ Finset.range L, (2 * (l : ℝ) + 1) * (ks.getD j []).getD l 0 ^ 2) := by
        refine Finset.sum_le_sum fun j _ => ?_
        refine (cut_sub_le hg _ (hid _ (by simp)) _).trans (le_of_eq ?_)
        rw [← Finset.sum_mul, harea]
        unfold axisymThreshold
        rw [mul_pow, mul_pow, Real.sq_sqrt (by positivity), Real.sq_sqrt (Finset.sum_nonneg fun _ _ => by positivity), ← hPd]
        have : ∑ l ∈ Finset.range L, (2 * (l : ℝ) + 1) / (4 * Real.pi) * (ks.getD j []).getD l 0 ^ 2 =
            (∑ l ∈ Finset.range L, (2 * (l : ℝ) + 1) * (ks.getD j []).getD l 0 ^ 2) / (4 * Real.pi) := by
          rw [Finset.sum_div]
          exact Finset.sum_congr rfl fun l _ => by ring
        rw [this]
        have := Real.pi_ne_zero
        field_simp
    _ = n ^ 2 * (P / L ^ 2 * ∑ l ∈ Finset.range L, (2 * (l : ℝ) + 1) * (1 - k₀.getD l 0 ^ 2)) := by
        rw [← Finset.mul_sum, ← Finset.mul_sum, Finset.sum_comm]
        congr 2
        refine Finset.sum_congr rfl fun l hl => ?_
        rw [← Finset.mul_sum, hks l (Finset.mem_range.1 hl)]
    _ ≤ n ^ 2 * (P / L ^ 2 * L ^ 2) := by
        refine mul_le_mul_of_nonneg_left (mul_le_mul_of_nonneg_left ?_ (by positivity)) (by positivity)
        have hodd : ∑ l ∈ Finset.range L, (2 * (l : ℝ) + 1) = (L : ℝ) ^ 2 := by
          clear * -
          induction L with
          | zero => simp
          | succ L ih => rw [Finset.sum_range_succ, ih]; push_cast; ring
        rw [← hodd]
        refine Finset.sum_le_sum fun l _ => ?_
        nlinarith [sq_nonneg (k₀.getD l 0), (Nat.cast_nonneg l : (0 : ℝ) ≤ l)]
    _ ≤ n ^ 2 * P := by
        refine mul_le_mul_of_nonneg_left ?_ (by positivity)
        rcases Nat.eq_zero_or_pos L with h0 | h0
        · subst h0
          simpa using hP
        · have : (L : ℝ) ≠ 0 := by positivity
          rw [div_mul_cancel₀ _ (by positivity)]

/-- synthesis and analysis with functions that the quadrature finds orthonormal. -/
theorem noGain_of_orthonormal {N : ℕ} {w : Pix → ℝ} (hw : ∀ x, 0 ≤ w x) {s : Fin N → Pix → ℂ}
    (h : ∀ p q : Fin N, ∑ x, s p x * (starRingEnd ℂ) (s q x) * (w x : ℂ) = if p = q then 1 else 0)
    {inv : List ℂ → Pix → ℂ} {fwd : (Pix → ℂ) → List ℂ} (hl : ∀ f, (fwd f).length = N)
    (hi : ∀ c x, inv c x = ∑ p : Fin N, c.getD p 0 * s p x)
    (hf : ∀ f (p : Fin N), (fwd f).getD p 0 = ∑ x, f x * (starRingEnd ℂ) (s p x) * (w x : ℂ)) : NoGain N w inv fwd := by
  refine ⟨hw, fun c _ => ?_, fun f => ?_, fun f g p => ?_⟩
  · simp only [hi]
    rw [Bessel.inverse_eq hw h, Finset.sum_range]
  · rw [Finset.sum_range]
    simp only [hf]
    exact Bessel.forward_le hw h f
  · by_cases hp : p < N
    · have e := fun g => hf g ⟨p, hp⟩
      simp only at e
      rw [e, e, e, ← Finset.sum_sub_distrib]
      exact Finset.sum_congr rfl fun x _ => by ring
    · rw [List.getD_eq_default _ _ (by rw [hl]; omega), List.getD_eq_default _ _ (by rw [hl]; omega),
        List.getD_eq_default _ _ (by rw [hl]; omega), sub_zero]

/-- the thresholds of a wavelet, on average. -/
private theorem deviation_energy {N : ℕ} {w : Pix → ℝ} (g : Fin N → Pix → ℝ) (hg : ∀ p, ∑ x, w x * g p x = 1) (hg0 : ∀ p x, 0 ≤ g p x)
    {a : ℝ} (ha : 0 ≤ a) (k : List ℂ) :
    ∑ x, w x * (Real.sqrt a * Real.sqrt (∑ p : Fin N, ‖k.getD p 0‖ ^ 2 * g p x)) ^ 2 = a * ∑ p ∈ Finset.range N, ‖k.getD p 0‖ ^ 2 := by
  have h1 : ∀ x, w x * (Real.sqrt a * Real.sqrt (∑ p : Fin N, ‖k.getD p 0‖ ^ 2 * g p x)) ^ 2 =
      ∑ p : Fin N, a * ‖k.getD p 0‖ ^ 2 * (w x * g p x) := by
    intro x
    rw [mul_pow, Real.sq_sqrt ha, Real.sq_sqrt (Finset.sum_nonneg fun p _ => mul_nonneg (by positivity) (hg0 p x)), Finset.mul_sum,
      Finset.mul_sum]
    exact Finset.sum_congr rfl fun p _ => by ring
  simp only [h1]
  rw [Finset.sum_comm, Finset.sum_range, Finset.mul_sum]
  refine Finset.sum_congr rfl fun p _ => ?_
  rw [← Finset.mul_sum, hg, mul_one]

private theorem powerOf_nonneg (c : List ℂ) : 0 ≤ powerOf c :=
  List.sum_nonneg fun x hx => by obtain ⟨z, -, rfl⟩ := List.mem_map.1 hx; positivity

/-- C126 on the sphere: if the quadrature has no negative weights and finds the Slepian functions orthonormal, neither the Slepian
coefficients after denoising nor the field shown have more energy than the noised Slepian coefficients. -/
theorem C126_sphere {L N : ℕ} (sl : Transform.Slepian (L ^ 2)) (synth : (Fin (L ^ 2) → ℂ) → Pix → ℂ) (weight : Pix → ℝ)
    (hw0 : ∀ x, 0 ≤ weight x) (E : Fin N → Fin (L ^ 2) → ℂ) (hN : sl.N = N) (hle : N ≤ L ^ 2)
    (h : ∀ p : Fin N, sl.evecs[(p : ℕ)]? = some (E p))
    (hq : ∀ p q : Fin N, ∑ x, synth (E p) x * (starRingEnd ℂ) (synth (E q) x) * weight x = if p = q then 1 else 0)
    (signal noised : List ℂ) (wavelets : Array2 ℂ) (hw : wavelets.WF) (hc : N ≤ wavelets.cols) (hs : signal.length = N)
    (hn : N ≤ noised.length) (hadm : ∀ p < N, (wavelets.rows.map fun psi => ‖psi.getD p 0‖ ^ 2).sum ≤ 1) (snrIn : ℝ) (n : ℤ) :
    ∃ out : List ℂ, slepianSphere sl synth weight signal noised wavelets snrIn n =
        .ok (fun x => ∑ p : Fin N, out.getD p 0 * synth (E p) x,
          decibels signal ((List.range N).map fun p => out.getD p 0 - signal.getD p 0)) ∧
      ∑ p ∈ Finset.range N, ‖out.getD p 0‖ ^ 2 ≤ ∑ p ∈ Finset.range N, ‖noised.getD p 0‖ ^ 2 ∧
      ∑ x, weight x * ‖∑ p : Fin N, out.getD p 0 * synth (E p) x‖ ^ 2 ≤ ∑ p ∈ Finset.range N, ‖noised.getD p 0‖ ^ 2 := by
  obtain ⟨inv, fwd, sigma, h1, h2, h3, h4, h5, -, -, -⟩ :=
    C84_sphere sl synth weight E hN hle h signal wavelets.rows (fun r hr => by rw [hw r hr]; exact hc) snrIn
  have hg := noGain_of_orthonormal hw0 hq h1.length h2 h3
  obtain ⟨out, e1, -, e2, e3⟩ := C126_slepian_wavelets N h1 hg (fun psi => SigmaJ.slepianSigmaJ sl synth signal psi snrIn) signal noised
    wavelets hw hc hs hn sigma h4 (by rw [h5]; simp) hadm n
  have hf : inv out = fun x => ∑ p : Fin N, out.getD p 0 * synth (E p) x := funext fun x => h2 out x
  rw [hf] at e1 e3
  refine ⟨out, ?_, e2, e3⟩
  unfold slepianSphere
  rw [hN]
  exact e1

/-- C127 on the sphere, partial: if the scales that do not see the noised signal come last, denoising changes the Slepian coefficients by
at most `n_sigma²` times the energy of noise of the given ratio in `N` of `L²` coefficients. -/
theorem C127_sphere_partial {L N : ℕ} (sl : Transform.Slepian (L ^ 2)) (synth : (Fin (L ^ 2) → ℂ) → Pix → ℂ) (weight : Pix → ℝ)
    (hw0 : ∀ x, 0 ≤ weight x) (E : Fin N → Fin (L ^ 2) → ℂ) (hN : sl.N = N) (hle : N ≤ L ^ 2)
    (h : ∀ p : Fin N, sl.evecs[(p : ℕ)]? = some (E p))
    (hq : ∀ p q : Fin N, ∑ x, synth (E p) x * (starRingEnd ℂ) (synth (E q) x) * weight x = if p = q then 1 else 0)
    (signal noised : List ℂ) (wavelets : Array2 ℂ) (hw : wavelets.WF) (hc : N ≤ wavelets.cols) (hs : signal.length = N)
    (hn : N ≤ noised.length) (hadm : ∀ p < N, (wavelets.rows.map fun psi => ‖psi.getD p 0‖ ^ 2).sum = 1)
    (hlast : UnseenLast noised N wavelets) (snrIn : ℝ) (n : ℤ) :
    ∃ out : List ℂ, slepianSphere sl synth weight signal noised wavelets snrIn n =
        .ok (fun x => ∑ p : Fin N, out.getD p 0 * synth (E p) x,
          decibels signal ((List.range N).map fun p => out.getD p 0 - signal.getD p 0)) ∧
      ∑ p ∈ Finset.range N, ‖out.getD p 0 - noised.getD p 0‖ ^ 2 ≤ n ^ 2 * (10 ^ (-snrIn / 10) * powerOf signal / L ^ 2) * N := by
  obtain ⟨inv, fwd, sigma, h1, h2, h3, h4, h5, -, -, h8⟩ :=
    C84_sphere sl synth weight E hN hle h signal wavelets.rows (fun r hr => by rw [hw r hr]; exact hc) snrIn
  have hg := noGain_of_orthonormal hw0 hq h1.length h2 h3
  have hp := powerOf_nonneg signal
  obtain ⟨out, e1, -, e2⟩ := C127_slepian_wavelets_partial N h1 hg (fun psi => SigmaJ.slepianSigmaJ sl synth signal psi snrIn) signal
    noised wavelets (fun psi _ => h8 hq _ (by simp [waveletRow])) hw hc hs hn sigma h4 (by rw [h5]; simp) hadm hlast
    (v := 10 ^ (-snrIn / 10) * powerOf signal / L ^ 2) (by positivity) (by
      intro i psi s hpsi hsi
      rw [h5, List.getElem?_map, hpsi] at hsi
      simp only [Option.map_some, Option.some.injEq] at hsi
      subst hsi
      refine (deviation_energy (fun p x => ‖synth (E p) x‖ ^ 2) (fun p => ?_) (fun _ _ => by positivity) (by positivity) psi).le
      have e := hq p p
      rw [if_pos rfl] at e
      have e' : ((∑ x, weight x * ‖synth (E p) x‖ ^ 2 : ℝ) : ℂ) = ((1 : ℝ) : ℂ) := by
        rw [ofReal_one, ← e]
        push_cast
        refine Finset.sum_congr rfl fun x _ => ?_
        rw [mul_conj, normSq_eq_norm_sq]
        push_cast
        ring
      exact_mod_cast e') n
  have hf : inv out = fun x => ∑ p : Fin N, out.getD p 0 * synth (E p) x := funext fun x => h2 out x
  rw [hf] at e1
  refine ⟨out, ?_, e2⟩
  unfold slepianSphere
  rw [hN]
  exact e1

end

section
variable {m K : ℕ} {e : MeshClasses.MEnv (Fin m)} {φ : Fin K → Fin m → ℝ} {ev : Fin K → ℝ} {S : Fin K → Fin K → ℝ} {rows : ℕ}

private theorem mesh_noGain (h : GoodMesh e φ ev S rows) {s : Fin e.slepian.N → Fin m → ℝ} (hs : MeshSlepians e φ S s) :
    NoGain e.slepian.N (fun _ => 1) (fieldOnMesh s) (slepianCoefficientsOf s) := by
  have horth : ∀ p q : Fin e.slepian.N, ∑ v, ((s p v : ℝ) : ℂ) * (starRingEnd ℂ) ((s q v : ℝ) : ℂ) * (((fun _ => 1 : Fin m → ℝ) v : ℝ) : ℂ) =
      if p = q then 1 else 0 := by
    intro p q
    have := mesh_orthonormal h hs p q
    have e1 : ((∑ v, s p v * s q v : ℝ) : ℂ) = (if p = q then 1 else 0 : ℂ) := by
      rw [this]
      split_ifs <;> simp
    push_cast at e1
    simpa using e1
  have hw : ∀ v : Fin m, (0 : ℝ) ≤ (fun _ => 1 : Fin m → ℝ) v := fun _ => zero_le_one
  refine ⟨hw, fun c _ => ?_, fun f => ?_, fun f g p => ?_⟩
  · have e1 := Bessel.inverse_eq hw horth fun p => (((c.getD p 0).re : ℝ) : ℂ)
    have e2 : ∀ v, fieldOnMesh s c v = ∑ p : Fin e.slepian.N, (((c.getD p 0).re : ℝ) : ℂ) * ((s p v : ℝ) : ℂ) := by
      intro v
      unfold fieldOnMesh
      push_cast
      rfl
    simp only [e2]
    rw [e1, Finset.sum_range]
    refine Finset.sum_le_sum fun p _ => pow_le_pow_left₀ (norm_nonneg _) ?_ 2
    rw [norm_real]
    exact abs_re_le_norm _
  · have e1 := Bessel.forward_le hw horth fun v => (((f v).re : ℝ) : ℂ)
    rw [Finset.sum_range]
    have e2 : ∀ p : Fin e.slepian.N, (slepianCoefficientsOf s f).getD p 0 =
        ∑ v, (((f v).re : ℝ) : ℂ) * (starRingEnd ℂ) ((s p v : ℝ) : ℂ) * (((fun _ => 1 : Fin m → ℝ) v : ℝ) : ℂ) := by
      intro p
      simp [slepianCoefficientsOf, List.getD_eq_getElem?_getD]
    simp only [e2]
    refine e1.trans (Finset.sum_le_sum fun v _ => mul_le_mul_of_nonneg_left (pow_le_pow_left₀ (norm_nonneg _) ?_ 2) zero_le_one)
    rw [norm_real]
    exact abs_re_le_norm _
  · by_cases hp : p < e.slepian.N
    · simp [slepianCoefficientsOf, List.getD_eq_getElem?_getD, hp, sub_mul, Finset.sum_sub_distrib]
    · simp [slepianCoefficientsOf, List.getD_eq_getElem?_getD, hp]

/-- C126 on a mesh: neither the Slepian coefficients after denoising nor the field shown have more energy than the noised Slepian
coefficients, if the squares of the wavelets add up to at most one. -/
theorem C126_mesh (h : GoodMesh e φ ev S rows) {s : Fin e.slepian.N → Fin m → ℝ} (hs : MeshSlepians e φ S s) (signal noised : List ℂ)
    (wavelets : Array2 ℂ) (hw : wavelets.WF) (hc : e.slepian.N ≤ wavelets.cols) (hl : signal.length = e.slepian.N)
    (hn : e.slepian.N ≤ noised.length) (hadm : ∀ p < e.slepian.N, (wavelets.rows.map fun psi => ‖psi.getD p 0‖ ^ 2).sum ≤ 1) (snrIn : ℝ)
    (n : ℤ) :
    ∃ out : List ℂ, slepianWavelet (Demos.meshInv e.slepian) (Demos.meshFwd e.slepian)
        (fun psi => SigmaJ.meshSigmaJ e.slepian signal psi snrIn) e.slepian.N signal noised wavelets n =
          .ok (fieldOnMesh s out, decibels signal ((List.range e.slepian.N).map fun p => out.getD p 0 - signal.getD p 0)) ∧
      ∑ p ∈ Finset.range e.slepian.N, ‖out.getD p 0‖ ^ 2 ≤ ∑ p ∈ Finset.range e.slepian.N, ‖noised.getD p 0‖ ^ 2 ∧
      ∑ v, ‖fieldOnMesh s out v‖ ^ 2 ≤ ∑ p ∈ Finset.range e.slepian.N, ‖noised.getD p 0‖ ^ 2 := by
  obtain ⟨out, e1, -, e2, e3⟩ := C126_slepian_wavelets e.slepian.N (mesh_transforms h hs) (mesh_noGain h hs)
    (fun psi => SigmaJ.meshSigmaJ e.slepian signal psi snrIn) signal noised wavelets hw hc hl hn _
    (mesh_sigma h hs signal wavelets.rows (fun r hr => by rw [hw r hr]; exact hc) snrIn) (by simp) hadm n
  simp only [one_mul] at e3
  exact ⟨out, e1, e2, e3⟩

/-- C127 on a mesh, partial: real noised coefficients and wavelets, and the scales that do not see the noised signal last. -/
theorem C127_mesh_partial (h : GoodMesh e φ ev S rows) {s : Fin e.slepian.N → Fin m → ℝ} (hs : MeshSlepians e φ S s)
    (signal noised : List ℂ) (hreal : ∀ p < e.slepian.N, (noised.getD p 0).im = 0) (wavelets : Array2 ℂ)
    (hwreal : ∀ psi ∈ wavelets.rows, ∀ p < e.slepian.N, (psi.getD p 0).im = 0) (hw : wavelets.WF)
    (hc : e.slepian.N ≤ wavelets.cols) (hl : signal.length = e.slepian.N)
    (hn : e.slepian.N ≤ noised.length) (hadm : ∀ p < e.slepian.N, (wavelets.rows.map fun psi => ‖psi.getD p 0‖ ^ 2).sum = 1)
    (hlast : UnseenLast noised e.slepian.N wavelets) (snrIn : ℝ) (n : ℤ) :
    ∃ out : List ℂ, slepianWavelet (Demos.meshInv e.slepian) (Demos.meshFwd e.slepian)
        (fun psi => SigmaJ.meshSigmaJ e.slepian signal psi snrIn) e.slepian.N signal noised wavelets n =
          .ok (fieldOnMesh s out, decibels signal ((List.range e.slepian.N).map fun p => out.getD p 0 - signal.getD p 0)) ∧
      ∑ p ∈ Finset.range e.slepian.N, ‖out.getD p 0 - noised.getD p 0‖ ^ 2 ≤
        n ^ 2 * (10 ^ (-snrIn / 10) * powerOf signal / K) * e.slepian.N := by
  have hp := powerOf_nonneg signal
  have horth := mesh_orthonormal h hs
  obtain ⟨out, e1, -, e2⟩ := C127_slepian_wavelets_partial e.slepian.N (mesh_transforms h hs) (mesh_noGain h hs)
    (fun psi => SigmaJ.meshSigmaJ e.slepian signal psi snrIn) signal noised wavelets (by
      intro psi hpsi
      refine ext_getD (n := e.slepian.N) (by simp [slepianCoefficientsOf]) (by simp [waveletRow]) fun p hp => ?_
      have him : ∀ q : Fin e.slepian.N, (waveletRow noised e.slepian.N psi).getD q 0 =
          ((((waveletRow noised e.slepian.N psi).getD q 0).re : ℝ) : ℂ) := by
        intro q
        refine Complex.ext (by simp) ?_
        rw [getD_waveletRow _ _ _ q.2, ofReal_im, mul_im, conj_im, conj_re, hreal _ q.2, hwreal psi hpsi _ q.2]
        ring
      rw [him ⟨p, hp⟩]
      have e1 : (slepianCoefficientsOf s (fieldOnMesh s (waveletRow noised e.slepian.N psi))).getD p 0 =
          ((∑ v, (∑ q : Fin e.slepian.N, ((waveletRow noised e.slepian.N psi).getD q 0).re * s q v) * s ⟨p, hp⟩ v : ℝ) : ℂ) := by
        simp only [slepianCoefficientsOf, List.getD_eq_getElem?_getD (l := List.ofFn _), List.getElem?_ofFn, hp, dite_true,
          Option.getD_some, fieldOnMesh, ofReal_re]
      rw [e1]
      congr 1
      simp only [Finset.sum_mul]
      rw [Finset.sum_comm]
      simp only [mul_assoc, ← Finset.mul_sum, horth]
      simp) hw hc hl hn _
    (mesh_sigma h hs signal wavelets.rows (fun r hr => by rw [hw r hr]; exact hc) snrIn) (by simp) hadm hlast
    (v := 10 ^ (-snrIn / 10) * powerOf signal / K) (by positivity) (by
      intro i psi f hpsi hsi
      rw [List.getElem?_map, hpsi] at hsi
      simp only [Option.map_some, Option.some.injEq] at hsi
      subst hsi
      refine (deviation_energy (w := fun _ => 1) (fun p v => s p v ^ 2) (fun p => ?_) (fun _ _ => by positivity) (by positivity) psi).le
      have := horth p p
      simp only [if_true] at this
      simpa [sq] using this) n
  exact ⟨out, e1, e2⟩

end

/-- C127, negative part. With thresholds of zero, denoising with Slepian wavelets should change nothing; for the signal `(0, 1)`, which
only the second of the two scales sees, it removes everything. -/
theorem C127_slepian_wavelets_violation :
    (∀ p < 2, (tiling.rows.map fun psi => ‖psi.getD p 0‖ ^ 2).sum = 1) ∧
    ∃ snr, slepianWavelet (fun c => .ok fun i : Fin 2 => c.getD i 0) (fun f => .ok (List.ofFn f))
      (fun _ => .ok [fun _ => 1, fun _ => 1]) 2 [0, 1] [0, 1] tiling 0 = .ok (fun _ => 0, snr) :=
  ⟨tiling_admissible, C84_slepian_violation⟩

/-! ### hypotheses met -/

private theorem sample_noGain (n : ℕ) : NoGain n (fun _ => 1) (fun (c : List ℂ) (i : Fin n) => c.getD i 0) fun f => List.ofFn f :=
  noGain_of_orthonormal (s := fun p x => if p = x then 1 else 0) (fun _ => zero_le_one) (fun p q => by simp [eq_comm])
    (by simp) (by simp) (by simp [List.getD_eq_getElem?_getD])

private theorem tiling_last : UnseenLast [1, 1] 2 tiling := by
  refine List.pairwise_of_forall_mem_list fun a ha b _ _ => ?_
  simp only [tiling, List.mem_cons, List.not_mem_nil, or_false] at ha
  rcases ha with rfl | rfl
  · exact ⟨0, by norm_num, by simp⟩
  · exact ⟨1, by norm_num, by simp⟩

/-- two scales, two samples: thresholds of 2 change the signal `(1, 1)` by an energy of at most 16. -/
example : ∃ out : List ℂ, slepianWavelet (fun c => .ok fun i : Fin 2 => c.getD i 0) (fun f => .ok (List.ofFn f))
      (fun _ => .ok [fun _ => 1, fun _ => 1]) 2 [1, 0] [1, 1] tiling 2 =
        .ok (fun i : Fin 2 => out.getD i 0, decibels [1, 0] ((List.range 2).map fun p => out.getD p 0 - ([1, 0] : List ℂ).getD p 0)) ∧
    ∑ p ∈ Finset.range 2, ‖out.getD p 0‖ ^ 2 ≤ 2 ∧ ∑ p ∈ Finset.range 2, ‖out.getD p 0 - ([1, 1] : List ℂ).getD p 0‖ ^ 2 ≤ 16 := by
  obtain ⟨h1, h2, -⟩ := sample_transforms 2
  obtain ⟨out, e1, l1, e2, -⟩ := C126_slepian_wavelets 2 h1 (sample_noGain 2) (fun _ => .ok [fun _ => 1, fun _ => 1]) [1, 0] [1, 1] tiling
    tiling_wf le_rfl rfl le_rfl _ rfl rfl (fun p hp => (tiling_admissible p hp).le) 2
  obtain ⟨out', e1', l1', e2'⟩ := C127_slepian_wavelets_partial 2 h1 (sample_noGain 2) (fun _ => .ok [fun _ => 1, fun _ => 1]) [1, 0] [1, 1] tiling
    (fun psi _ => h2 _ (by simp [waveletRow])) tiling_wf le_rfl rfl le_rfl _ rfl rfl tiling_admissible tiling_last (v := 2) (by norm_num) (by
      intro i psi s hpsi hsi
      match i with
      | 0 =>
        simp only [tiling, List.getElem?_cons_zero, Option.some.injEq] at hpsi hsi
        subst hpsi hsi
        simp [Finset.sum_range_succ]
      | 1 =>
        simp only [tiling, List.getElem?_cons_succ, List.getElem?_cons_zero, Option.some.injEq] at hpsi hsi
        subst hpsi hsi
        simp [Finset.sum_range_succ]
      | i + 2 => simp [tiling] at hpsi) 2
  have : out = out' := by
    rw [e1] at e1'
    injection e1' with e
    have e := congrArg Prod.fst e
    refine ext_getD l1 l1' fun p hp => ?_
    exact congrFun e ⟨p, hp⟩
  subst this
  refine ⟨out, e1, e2.trans (by simp [Finset.sum_range_succ]; norm_num), e2'.trans (by norm_num)⟩

/-- Slepian functions: two samples. -/
example : ∃ out : List ℂ, slepianFunction (fun c => .ok fun i : Fin 2 => c.getD i 0) (fun f => .ok (List.ofFn f)) 2 [1, 0] [1, 1] 0 2 =
      .ok (fun i : Fin 2 => out.getD i 0, decibels [1, 0] ((List.range 2).map fun p => out.getD p 0 - ([1, 0] : List ℂ).getD p 0)) ∧
    ∑ p ∈ Finset.range 2, ‖out.getD p 0 - ([1, 1] : List ℂ).getD p 0‖ ^ 2 ≤ 2 := by
  obtain ⟨h1, h2, -⟩ := sample_transforms 2
  obtain ⟨out, e1, -, e2⟩ := C127_slepian_function 2 2 h1 (sample_noGain 2) [1, 0] [1, 1] (h2 _ rfl) rfl rfl 0 2
  exact ⟨out, e1, e2.trans (by simp [powerOf])⟩

/-- axisymmetric wavelets: bandlimit 1, one sample of weight `4π`. -/
example : ∃ (wavelets : List (List ℂ)) (out : List ℂ), createAxisym 1 [[3 / 5], [4 / 5]] = .ok wavelets ∧
    axisym (fun c => .ok fun _ : Unit => c.getD 0 0 * (1 / Real.sqrt (4 * Real.pi) : ℝ))
      (fun f => .ok [f () * (1 / Real.sqrt (4 * Real.pi) : ℝ) * (4 * Real.pi : ℝ)]) id 1 [1] [2] none wavelets 0 2 false =
        .ok ((fun _ => out.getD 0 0 * (1 / Real.sqrt (4 * Real.pi) : ℝ)), none, decibels [1] ((List.range (1 ^ 2)).map fun i => out.getD i 0 - ([1] : List ℂ).getD i 0)) ∧
    ∑ i ∈ Finset.range (1 ^ 2), ‖out.getD i 0 - ([2] : List ℂ).getD i 0‖ ^ 2 ≤ 4 := by
  have hpi := Real.pi_pos
  have hsq : (1 / Real.sqrt (4 * Real.pi)) * (1 / Real.sqrt (4 * Real.pi)) * (4 * Real.pi) = 1 := by
    rw [div_mul_div_comm, Real.mul_self_sqrt (by positivity)]
    field_simp
  have hsqc : ((1 / Real.sqrt (4 * Real.pi) : ℝ) : ℂ) * ((1 / Real.sqrt (4 * Real.pi) : ℝ) : ℂ) * ((4 * Real.pi : ℝ) : ℂ) = 1 := by
    exact_mod_cast congrArg (fun x : ℝ => (x : ℂ)) hsq
  have ht : Transforms (1 ^ 2) (fun c => .ok fun _ : Unit => c.getD 0 0 * (1 / Real.sqrt (4 * Real.pi) : ℝ))
      (fun f => .ok [f () * (1 / Real.sqrt (4 * Real.pi) : ℝ) * (4 * Real.pi : ℝ)])
      (fun (c : List ℂ) (_ : Unit) => c.getD 0 0 * (1 / Real.sqrt (4 * Real.pi) : ℝ))
      (fun f => [f () * (1 / Real.sqrt (4 * Real.pi) : ℝ) * (4 * Real.pi : ℝ)]) := ⟨fun _ _ => rfl, fun _ => rfl, fun _ => rfl⟩
  have hg : NoGain (1 ^ 2) (fun _ : Unit => 4 * Real.pi) (fun (c : List ℂ) (_ : Unit) => c.getD 0 0 * (1 / Real.sqrt (4 * Real.pi) : ℝ))
      (fun f => [f () * (1 / Real.sqrt (4 * Real.pi) : ℝ) * (4 * Real.pi : ℝ)]) := by
    refine noGain_of_orthonormal (s := fun _ _ => ((1 / Real.sqrt (4 * Real.pi) : ℝ) : ℂ)) (fun _ => by positivity) (fun p q => ?_)
      (fun _ => rfl) (fun c x => ?_) (fun f p => ?_)
    · have : p = q := Fin.ext (by omega)
      rw [if_pos this]
      simpa [conj_ofReal] using hsqc
    · exact (Fin.sum_univ_one (fun p : Fin 1 => c.getD p 0 * ((1 / Real.sqrt (4 * Real.pi) : ℝ) : ℂ))).symm
    · have : p = 0 := Fin.ext (by omega)
      subst this
      simp [conj_ofReal]
  obtain ⟨wavelets, out, e1, e2, -, e3⟩ := C127_axisym 1 ht hg (by
    intro c hc
    match c, hc with
    | [x], _ =>
      simp only [List.getD_cons_zero]
      congr 1
      linear_combination x * hsqc) (by simp) id (fun _ h => h) [1] [2] rfl rfl none [3 / 5] [[4 / 5]] (by simp) (by
        intro l hl
        have : l = 0 := by omega
        subst this
        norm_num) 0 2 false
  exact ⟨wavelets, out, e1, e2, e3.trans (by simp [powerOf]; norm_num)⟩

/-- the sphere: bandlimit 1, one sample, one wavelet. -/
example : ∃ out : List ℂ, slepianSphere (L := 1) ⟨1, [1], [fun _ => I]⟩ (fun c (_ : Unit) => c 0) (fun _ => 1) [1] [2] ⟨1, [[1]]⟩ 0 3 =
      .ok (fun _ => ∑ p : Fin 1, out.getD p 0 * I, decibels [1] ((List.range 1).map fun p => out.getD p 0 - ([1] : List ℂ).getD p 0)) ∧
    ∑ p ∈ Finset.range 1, ‖out.getD p 0 - ([2] : List ℂ).getD p 0‖ ^ 2 ≤ 9 := by
  obtain ⟨out, e1, e2⟩ := C127_sphere_partial (L := 1) (N := 1) (Pix := Unit) ⟨1, [1], [fun _ => I]⟩ (fun c _ => c 0)
    (fun _ => 1) (fun _ => zero_le_one) (fun _ _ => I) rfl (by norm_num) (fun p => by fin_cases p; rfl)
    (fun p q => by simp [Subsingleton.elim p q]) [1] [2] ⟨1, [[1]]⟩ (by simp [Array2.WF]) le_rfl rfl le_rfl (by simp) (by simp [UnseenLast]) 0 3
  exact ⟨out, e1, e2.trans (by simp [powerOf]; norm_num)⟩

/-- a mesh with three vertices and two Slepian functions, one wavelet. -/
example : ∃ (e : MeshClasses.MEnv (Fin 3)) (s : Fin e.slepian.N → Fin 3 → ℝ) (out : List ℂ), e.slepian.N = 2 ∧
    slepianWavelet (Demos.meshInv e.slepian) (Demos.meshFwd e.slepian) (fun psi => SigmaJ.meshSigmaJ e.slepian [3, 4] psi 0) e.slepian.N
      [3, 4] [3, 4] ⟨2, [[1, 1]]⟩ 1 =
        .ok (fieldOnMesh s out, decibels [3, 4] ((List.range e.slepian.N).map fun p => out.getD p 0 - ([3, 4] : List ℂ).getD p 0)) ∧
    ∑ p ∈ Finset.range e.slepian.N, ‖out.getD p 0 - ([3, 4] : List ℂ).getD p 0‖ ^ 2 ≤ 50 / 3 := by
  obtain ⟨e, φ, S, hN, -, hg⟩ := goodMesh_exists (⟨"", false, [], ⟨0, [], fun _ => true, 0, [], []⟩, fun _ => 1, fun _ => "",
    fun K _ _ => [List.replicate K 1, List.replicate K 2], fun _ _ _ => 0, fun _ _ => 0⟩ : MeshClasses.MEnv (Fin 3))
  have hle := hg.le_K
  obtain ⟨out, e1, e2⟩ := C127_mesh_partial hg (s := fun p v => ∑ i, S ⟨p, lt_of_lt_of_le p.2 hle⟩ i * φ i v) (fun p q hq v => by
      have : q = ⟨p, lt_of_lt_of_le p.2 hle⟩ := Fin.ext hq
      rw [this]) [3, 4] [3, 4] (by
        rw [hN]
        intro p hp
        interval_cases p <;> simp) ⟨2, [[1, 1]]⟩ (by
        rw [hN]
        intro psi hpsi p hp
        simp only [List.mem_singleton] at hpsi
        subst hpsi
        interval_cases p <;> simp) (by simp [Array2.WF]) (by rw [hN]) (by rw [hN]; rfl) (by rw [hN]; rfl) (by
        rw [hN]
        intro p hp
        interval_cases p <;> simp) (by simp [UnseenLast]) 0 1
  refine ⟨e, _, out, hN, e1, e2.trans ?_⟩
  rw [hN]
  simp [powerOf]
  norm_num

end Sleplet.Props
