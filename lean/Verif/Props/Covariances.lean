import Verif.Lemmas.Experiments
import Verif.Lemmas.Rotation
import Verif.Lemmas.SampleVariance
import Verif.Props.RandomSignals

/-!
C91: the measured covariances of wavelet coefficients against the theoretical ones.
-/
namespace Sleplet.Props

open Complex MeasureTheory Noise Spec NumPy RandomSignals Experiments Functions

variable {Ω : Type} [MeasurableSpace Ω] {P : Measure Ω} {normals : Ω → ℕ → ℕ → ℝ}

/-! ### Wavelets on the whole sphere -/

/-- the factor of degree `l` in the coefficients of a wavelet. -/
private noncomputable def factor (r : List ℂ) (l : ℕ) : ℂ :=
  (Real.sqrt (4 * Real.pi / (2 * (l : ℝ) + 1)) : ℂ) * (starRingEnd ℂ) (r.getD (l ^ 2 + l) 0)

private noncomputable def filtered (L : ℕ) (f r : List ℂ) : List ℂ :=
  (List.range (L ^ 2)).map fun i => factor r (Nat.sqrt i) * f.getD i 0

private theorem forwardRow_eq (L : ℕ) (f r : List ℂ) (hf : f.length = L ^ 2) (hr : r.length = L ^ 2) :
    Wavelets.forwardRow L f r = .ok (filtered L f r) := by
  obtain ⟨W, h1, h2, h3⟩ := Wavelets.forwardRow_ok L f r hf hr
  rw [h1]
  congr 1
  apply ext_of_pairs h2 (by simp [filtered])
  intro l m hl hm
  rw [h3 l m hl hm]
  have hlt := (elm2ind_lt_sq hm L).2 hl
  rw [abs_le] at hm
  obtain ⟨t, rfl⟩ : ∃ t : ℕ, m = (t : ℤ) - l := ⟨(m + l).toNat, by omega⟩
  rw [elm2ind_block] at hlt ⊢
  have hs : Nat.sqrt (l ^ 2 + t) = l := by rw [sq, Nat.sqrt_add_eq l (by omega)]
  simp [filtered, factor, List.getD_eq_getElem?_getD, hlt, hs, elm2ind_zero]

/-- the row of data of one signal. -/
private noncomputable def dataRow (S : Setup) (f : List ℂ) : List ℂ :=
  S.wavelets.zipIdx.map fun c => if isErgodic S.jMin c.2 then (var (S.inverse (filtered S.L f c.1)) : ℂ) else (S.inverse (filtered S.L f c.1)).getD 0 0

private theorem axisymRun_ok (normals : ℕ → ℕ → ℝ) (S : Setup) (hpsi : ∀ r ∈ S.wavelets, r.length = S.L ^ 2) (hinv : ∀ c, S.inverse c ≠ [])
    (rng s k : ℕ) (w : World) (hw : w[rng]? = some (s, k)) :
    axisymRun normals S rng w = .ok (dataRow S (sig (normals s) (S.L ^ 2) k S.varFlm), w.set rng (s, k + 2 * S.L ^ 2)) := by
  unfold axisymRun
  have h0 : randomSignal normals S.L rng S.varFlm w = .ok (sig (normals s) (S.L ^ 2) k S.varFlm, w.set rng (s, k + 2 * S.L ^ 2)) :=
    randomSignal_ok normals S.L rng s k S.varFlm w hw
  rw [h0]
  simp only [bind, Except.bind]
  have h1 : Wavelets.axisymForward S.L (sig (normals s) (S.L ^ 2) k S.varFlm) S.wavelets =
      .ok (S.wavelets.map (filtered S.L (sig (normals s) (S.L ^ 2) k S.varFlm))) := by
    unfold Wavelets.axisymForward
    exact mapM_eq_ok _ _ _ fun r hr => forwardRow_eq S.L _ r (by simp [sig]) (hpsi r hr)
  rw [h1]
  simp only
  have h2 := mapM_eq_ok (fun c : List ℂ × ℕ => Experiments.measure (isErgodic S.jMin c.2) (S.inverse c.1))
    (fun c => if isErgodic S.jMin c.2 then (var (S.inverse c.1) : ℂ) else (S.inverse c.1).getD 0 0)
    (S.wavelets.map (filtered S.L (sig (normals s) (S.L ^ 2) k S.varFlm))).zipIdx (by
      intro c _
      unfold Experiments.measure
      split_ifs with h
      · rfl
      · have : 0 < (S.inverse c.1).length := List.length_pos_iff.2 (hinv c.1)
        rw [item_of_lt _ _ this]
        simp [List.getD_eq_getElem?_getD, this])
  rw [h2]
  simp only [pure, Except.pure, Except.ok.injEq, Prod.mk.injEq, and_true]
  rw [List.zipIdx_map, List.map_map]
  rfl

private theorem axisymRuns_ok (normals : ℕ → ℕ → ℝ) (S : Setup) (hpsi : ∀ r ∈ S.wavelets, r.length = S.L ^ 2) (hinv : ∀ c, S.inverse c ≠ [])
    (rng s n : ℕ) : ∀ (k : ℕ) (w : World), w[rng]? = some (s, k) →
    ∃ w', axisymRuns normals S rng n w =
      .ok ((List.range n).map fun i => dataRow S (sig (normals s) (S.L ^ 2) (k + i * (2 * S.L ^ 2)) S.varFlm), w') := by
  induction n with
  | zero => exact fun k w _ => ⟨w, rfl⟩
  | succ n ih =>
    intro k w hw
    have hr : rng < w.length := by
      by_contra hn
      rw [List.getElem?_eq_none (by omega)] at hw
      simp at hw
    obtain ⟨w', h⟩ := ih (k + 2 * S.L ^ 2) (w.set rng (s, k + 2 * S.L ^ 2)) (by simp [hr])
    refine ⟨w', ?_⟩
    unfold axisymRuns
    rw [axisymRun_ok normals S hpsi hinv rng s k w hw]
    simp only [bind, Except.bind]
    rw [h]
    simp only [pure, Except.pure, Except.ok.injEq, Prod.mk.injEq, and_true]
    rw [List.range_succ_eq_map, List.map_cons, List.map_map]
    refine List.cons_eq_cons.2 ⟨by simp, ?_⟩
    refine List.map_congr_left fun i _ => ?_
    simp only [Function.comp_apply, Nat.succ_eq_add_one]
    congr 2
    ring

private theorem dataRow_item (S : Setup) (f r : List ℂ) (j : ℕ) (hj : S.wavelets[j]? = some r) :
    (dataRow S f).getD j 0 = if isErgodic S.jMin j then (var (S.inverse (filtered S.L f r)) : ℂ) else (S.inverse (filtered S.L f r)).getD 0 0 := by
  simp [dataRow, List.getD_eq_getElem?_getD, hj]

/-- the samples of the field of a scale are linear in the random numbers. -/
private theorem field_linear (g : ℕ → ℝ) (L k : ℕ) (v : ℝ) (r : List ℂ) (th ph : ℝ) :
    synthesis L (filtered L (sig g (L ^ 2) k v) r) th ph =
      ∑ i ∈ Finset.range (L ^ 2), (sig g (L ^ 2) k v).getD i 0 * (factor r (Nat.sqrt i) * harm i th ph) := by
  rw [synthesis_eq]
  refine Finset.sum_congr rfl fun i hi => ?_
  rw [Finset.mem_range] at hi
  simp only [filtered, List.getD_eq_getElem?_getD, List.getElem?_map, List.getElem?_range hi, Option.map_some, Option.getD_some]
  ring

private theorem weight_sum {α : Type} (l : List α) (k n : ℕ) (s c : ℂ) (B : α → ℕ → ℂ) (j : ℕ) :
    (l.map fun x => signalWeight k n s (B x) j).sum / c = signalWeight k n s (fun i => (l.map fun x => B x i).sum / c) j := by
  have h : ∀ (a : ℂ) (i : ℕ), (l.map fun x => a * B x i).sum / c = a * ((l.map fun x => B x i).sum / c) := by
    intro a i
    rw [List.sum_map_mul_left, mul_div_assoc]
  unfold signalWeight
  split_ifs
  · simp
  · exact h _ _
  · exact h _ _
  · simp

private theorem weight_power (k n M : ℕ) (hM : k + n + n ≤ M) {v : ℝ} (hv : 0 ≤ v) (B : ℕ → ℂ) :
    ∑ j ∈ Finset.range M, ‖signalWeight k n (Real.sqrt (v / 2) : ℝ) B j‖ ^ 2 = v * ∑ i ∈ Finset.range n, ‖B i‖ ^ 2 := by
  have h2 := signal_inner k n M hM (Real.sqrt (v / 2)) B B
  rw [sqrt_half hv] at h2
  simp only [mul_conj, normSq_eq_norm_sq] at h2
  exact_mod_cast h2

/-- the variance over the samples, on average over the random numbers. -/
private theorem integral_field_var (s : ℕ) (h : StandardNormals P fun k ω => normals ω s k) (L k : ℕ) (v : ℝ) (hv : 0 ≤ v)
    (grid : List (ℝ × ℝ)) (hg : grid ≠ []) (r : List ℂ) :
    Integrable (fun ω => var (grid.map fun x => synthesis L (filtered L (sig (normals ω s) (L ^ 2) k v) r) x.1 x.2)) P ∧
    ∫ ω, var (grid.map fun x => synthesis L (filtered L (sig (normals ω s) (L ^ 2) k v) r) x.1 x.2) ∂P =
      v * ((grid.map fun x => ∑ i ∈ Finset.range (L ^ 2), ‖factor r (Nat.sqrt i) * harm i x.1 x.2‖ ^ 2).sum / grid.length) -
        v * ∑ i ∈ Finset.range (L ^ 2), ‖(grid.map fun x => factor r (Nat.sqrt i) * harm i x.1 x.2).sum / grid.length‖ ^ 2 := by
  simp only [field_linear, fun (ω : Ω) (x : ℝ × ℝ) => sig_sum (normals ω s) (L ^ 2) k _ (le_refl _) v fun i => factor r (Nat.sqrt i) * harm i x.1 x.2]
  obtain ⟨h1, h2⟩ := integral_var h grid hg (k + L ^ 2 + L ^ 2)
    fun x => signalWeight k (L ^ 2) (Real.sqrt (v / 2) : ℝ) fun i => factor r (Nat.sqrt i) * harm i x.1 x.2
  refine ⟨h1, h2.trans ?_⟩
  simp only [weight_power k (L ^ 2) _ (le_refl _) hv, weight_sum]
  rw [List.sum_map_mul_left, mul_div_assoc]

private theorem power_everywhere (L : ℕ) (r : List ℂ) (hr : r.length = L ^ 2) (hz : ∀ i, r.getD i 0 ≠ 0 → ∃ l, i = l ^ 2 + l) (th ph : ℝ) :
    ∑ i ∈ Finset.range (L ^ 2), ‖factor r (Nat.sqrt i) * harm i th ph‖ ^ 2 = (r.map fun x => ‖x‖ ^ 2).sum := by
  have hsqrt : ∀ l t, t < 2 * l + 1 → Nat.sqrt (l ^ 2 + t) = l := fun l t ht => by
    rw [sq, Nat.sqrt_add_eq l (by omega)]
  rw [list_sum_eq r (fun x => ‖x‖ ^ 2), hr, sum_sq_blocks, sum_sq_blocks]
  refine Finset.sum_congr rfl fun l hlL => ?_
  have h1 : ∑ t ∈ Finset.range (2 * l + 1), ‖factor r (Nat.sqrt (l ^ 2 + t)) * harm (l ^ 2 + t) th ph‖ ^ 2 =
      ‖factor r l‖ ^ 2 * ∑ t ∈ Finset.range (2 * l + 1), ‖harm (l ^ 2 + t) th ph‖ ^ 2 := by
    rw [Finset.mul_sum]
    refine Finset.sum_congr rfl fun t ht => ?_
    rw [Finset.mem_range] at ht
    rw [hsqrt l t ht, norm_mul, mul_pow]
  have h2 : ∑ t ∈ Finset.range (2 * l + 1), ‖r.getD (l ^ 2 + t) 0‖ ^ 2 = ‖r.getD (l ^ 2 + l) 0‖ ^ 2 := by
    apply Finset.sum_eq_single_of_mem l (by simp; omega)
    intro t ht htl
    rw [Finset.mem_range] at ht
    by_contra hne
    have hne' : r.getD (l ^ 2 + t) 0 ≠ 0 := by
      intro h0
      rw [h0] at hne
      simp at hne
    obtain ⟨l', hl'⟩ := hz _ hne'
    have e1 := hsqrt l t ht
    rw [hl', hsqrt l' l' (by omega)] at e1
    subst e1
    omega
  rw [h1, h2, sum_norm_harm]
  simp only [factor, norm_mul, mul_pow, RCLike.norm_conj]
  have hpos : (0 : ℝ) ≤ 4 * Real.pi / (2 * (l : ℝ) + 1) := by positivity
  rw [← Complex.normSq_eq_norm_sq, Complex.normSq_ofReal, Real.mul_self_sqrt hpos]
  have hpi := Real.pi_pos
  field_simp

private noncomputable def allData (g : ℕ → ℝ) (S : Setup) : List (List ℂ) :=
  (List.range S.runs).map fun i => dataRow S (sig g (S.L ^ 2) (i * (2 * S.L ^ 2)) S.varFlm)

private noncomputable def allMeasured (g : ℕ → ℝ) (S : Setup) : List ℂ :=
  if isErgodic S.jMin 0 then (columns (allData g S) S.wavelets.length).map Experiments.mean
  else ((columns (allData g S) S.wavelets.length).map Experiments.mean).set 0 (var (dataRow S (sig g (S.L ^ 2) 0 S.varFlm)) : ℂ)

private theorem axisymCovariance_ok (normals : ℕ → ℕ → ℝ) (S : Setup) (hpsi : ∀ r ∈ S.wavelets, r.length = S.L ^ 2) (hinv : ∀ c, S.inverse c ≠ [])
    (hruns : 0 < S.runs) (hne : S.wavelets ≠ []) (w : World) :
    axisymCovariance normals S w = .ok (allMeasured (normals 30) S, report S.jMin (allMeasured (normals 30) S)
      ((columns (allData (normals 30) S) S.wavelets.length).map std) (waveletCovariance S.wavelets S.varFlm)) := by
  have hlen : (waveletCovariance S.wavelets S.varFlm).length = S.wavelets.length := by simp [waveletCovariance]
  obtain ⟨w', h1⟩ := axisymRuns_ok normals S hpsi hinv w.length 30 S.runs 0 (w ++ [(30, 0)]) (by simp)
  simp only [Nat.zero_add] at h1
  have h2 : measured S.jMin (allData (normals 30) S) S.wavelets.length = .ok (allMeasured (normals 30) S) := by
    unfold measured allMeasured
    split_ifs with he
    · rfl
    · have : item (allData (normals 30) S) 0 = .ok (dataRow S (sig (normals 30) (S.L ^ 2) 0 S.varFlm)) := by
        rw [item_of_lt _ _ (by simpa [allData] using hruns)]
        simp [allData]
      rw [this]
      simp only [bind, Except.bind]
      rw [setItem_of_lt _ _ _ (by simpa [columns] using List.length_pos_iff.2 hne)]
  unfold axisymCovariance
  simp only [defaultRng, randomSeed, bind, Except.bind]
  rw [h1]
  simp only [hlen]
  have h2' := h2
  unfold allData at h2'
  rw [h2']
  rfl

private theorem measured_ergodic (g : ℕ → ℝ) (S : Setup) {j : ℕ} {r : List ℂ} (hj : S.wavelets[j]? = some r) (he : S.jMin ≠ 0 ∨ j ≠ 0) :
    (allMeasured g S).getD j 0 = ((((List.range S.runs).map fun i =>
      var (S.inverse (filtered S.L (sig g (S.L ^ 2) (i * (2 * S.L ^ 2)) S.varFlm) r))).sum / S.runs : ℝ) : ℂ) := by
  have hjl : j < S.wavelets.length := by
    by_contra hn
    rw [List.getElem?_eq_none (by omega)] at hj
    simp at hj
  have hcol : ((columns (allData g S) S.wavelets.length).map Experiments.mean).getD j 0 = ((((List.range S.runs).map fun i =>
      var (S.inverse (filtered S.L (sig g (S.L ^ 2) (i * (2 * S.L ^ 2)) S.varFlm) r))).sum / S.runs : ℝ) : ℂ) := by
    simp only [columns, List.getD_eq_getElem?_getD, List.getElem?_map, List.getElem?_range hjl, Option.map_some, Option.getD_some]
    have : (allData g S).map (fun r => r[j]?.getD 0) = (List.range S.runs).map fun i =>
        ((var (S.inverse (filtered S.L (sig g (S.L ^ 2) (i * (2 * S.L ^ 2)) S.varFlm) r)) : ℝ) : ℂ) := by
      unfold allData
      rw [List.map_map]
      refine List.map_congr_left fun i _ => ?_
      have := dataRow_item S (sig g (S.L ^ 2) (i * (2 * S.L ^ 2)) S.varFlm) r j hj
      rw [List.getD_eq_getElem?_getD] at this
      simp only [Function.comp_apply, this]
      rw [if_pos (by simpa [isErgodic] using he)]
    rw [this]
    unfold Experiments.mean
    rw [List.length_map, List.length_range, ofReal_div, ofReal_natCast]
    congr 1
    generalize List.range S.runs = l
    induction l with
    | nil => simp
    | cons a l ih => simp only [List.map_cons, List.sum_cons, ih, ofReal_add]
  unfold allMeasured
  split_ifs with h0
  · exact hcol
  · have hj0 : j ≠ 0 := by
      rcases he with he | he
      · exact absurd (by simp [isErgodic, he]) h0
      · exact he
    rw [← hcol, List.getD_eq_getElem?_getD, List.getD_eq_getElem?_getD, List.getElem?_set_ne (Ne.symm hj0)]

/-- C91.  Wavelets on the whole sphere: on average over the random numbers the covariance measured for a scale (not the scaling function when `j_min = 0`) is the theoretical
covariance minus `σ² ∑_lm 4π/(2l+1) |Ψ_l0|² |⟨Y_lm⟩|²`, where `⟨Y_lm⟩` is the average of the harmonic over the samples; that is, too small by at least
`σ² |Ψ_00|²`, however many runs are made. -/
theorem C91_axisymmetric_measured (h : StandardNormals P fun k ω => normals ω 30 k) (S : Setup) (hpsi : ∀ r ∈ S.wavelets, r.length = S.L ^ 2)
    (hzonal : ∀ r ∈ S.wavelets, ∀ i, r.getD i 0 ≠ 0 → ∃ l, i = l ^ 2 + l) (hne : S.wavelets ≠ []) (hL : 0 < S.L) (hruns : 0 < S.runs) (hv : 0 ≤ S.varFlm)
    (grid : List (ℝ × ℝ)) (hg : grid ≠ []) (hinv : ∀ c, S.inverse c = grid.map fun x => synthesis S.L c x.1 x.2) :
    ∃ (m : Ω → List ℂ) (rep : Ω → List Report), (∀ ω w, axisymCovariance (normals ω) S w = .ok (m ω, rep ω)) ∧
      ∀ (j : ℕ) (r : List ℂ) (c : ℝ), S.wavelets[j]? = some r → (waveletCovariance S.wavelets S.varFlm)[j]? = some c → (S.jMin ≠ 0 ∨ j ≠ 0) →
        (∀ ω, (m ω).getD j 0 = (‖(m ω).getD j 0‖ : ℝ)) ∧
        ∫ ω, ‖(m ω).getD j 0‖ ∂P = c - S.varFlm * ∑ l ∈ Finset.range S.L, 4 * Real.pi / (2 * (l : ℝ) + 1) * ‖r.getD (l ^ 2 + l) 0‖ ^ 2 *
          ∑ n ∈ Finset.Icc (-(l : ℤ)) l, ‖(grid.map fun x => sphHarm l n x.1 x.2).sum / grid.length‖ ^ 2 ∧
        ∫ ω, ‖(m ω).getD j 0‖ ∂P ≤ c - S.varFlm * ‖r.getD 0 0‖ ^ 2 := by
  refine ⟨fun ω => allMeasured (normals ω 30) S, fun ω => _, fun ω w => axisymCovariance_ok (normals ω) S hpsi (fun c => by rw [hinv]; simpa using hg) hruns hne w, ?_⟩
  intro j r c hj hc he
  have hr : r ∈ S.wavelets := List.mem_of_getElem? hj
  have hcv : c = S.varFlm * (r.map fun x => ‖x‖ ^ 2).sum := by
    simp only [waveletCovariance, List.getElem?_map, hj, Option.map_some, Option.some.injEq] at hc
    rw [← hc, mul_comm]
  have hm : ∀ ω, (allMeasured (normals ω 30) S).getD j 0 = ((((List.range S.runs).map fun i =>
      var (S.inverse (filtered S.L (sig (normals ω 30) (S.L ^ 2) (i * (2 * S.L ^ 2)) S.varFlm) r))).sum / S.runs : ℝ) : ℂ) :=
    fun ω => measured_ergodic (normals ω 30) S hj he
  have hnn : ∀ ω, 0 ≤ ((List.range S.runs).map fun i =>
      var (S.inverse (filtered S.L (sig (normals ω 30) (S.L ^ 2) (i * (2 * S.L ^ 2)) S.varFlm) r))).sum / S.runs := by
    intro ω
    apply div_nonneg _ (Nat.cast_nonneg _)
    apply List.sum_nonneg
    intro x hx
    obtain ⟨i, -, rfl⟩ := List.mem_map.1 hx
    exact var_nonneg _
  have hnorm : ∀ ω, ‖(allMeasured (normals ω 30) S).getD j 0‖ = ((List.range S.runs).map fun i =>
      var (S.inverse (filtered S.L (sig (normals ω 30) (S.L ^ 2) (i * (2 * S.L ^ 2)) S.varFlm) r))).sum / S.runs := by
    intro ω
    rw [hm ω, norm_real, Real.norm_of_nonneg (hnn ω)]
  have hone : ∀ k, Integrable (fun ω => var (S.inverse (filtered S.L (sig (normals ω 30) (S.L ^ 2) k S.varFlm) r))) P ∧
      ∫ ω, var (S.inverse (filtered S.L (sig (normals ω 30) (S.L ^ 2) k S.varFlm) r)) ∂P =
        c - S.varFlm * ∑ i ∈ Finset.range (S.L ^ 2), ‖(grid.map fun x => factor r (Nat.sqrt i) * harm i x.1 x.2).sum / grid.length‖ ^ 2 := by
    intro k
    simp only [hinv]
    obtain ⟨h1, h2⟩ := integral_field_var 30 h S.L k S.varFlm hv grid hg r
    refine ⟨h1, h2.trans ?_⟩
    simp only [power_everywhere S.L r (hpsi r hr) (hzonal r hr)]
    have hgl : (grid.length : ℝ) ≠ 0 := by
      rw [Nat.cast_ne_zero]
      exact fun h0 => hg (List.length_eq_zero_iff.1 h0)
    rw [List.map_const', List.sum_replicate, nsmul_eq_mul, mul_div_cancel_left₀ _ hgl, ← hcv]
  have hint : ∫ ω, ‖(allMeasured (normals ω 30) S).getD j 0‖ ∂P =
      c - S.varFlm * ∑ i ∈ Finset.range (S.L ^ 2), ‖(grid.map fun x => factor r (Nat.sqrt i) * harm i x.1 x.2).sum / grid.length‖ ^ 2 := by
    simp only [hnorm]
    rw [integral_div, (list_integral (P := P) (List.range S.runs) (fun i ω =>
      var (S.inverse (filtered S.L (sig (normals ω 30) (S.L ^ 2) (i * (2 * S.L ^ 2)) S.varFlm) r))) fun i _ => (hone _).1).2]
    simp only [fun k => (hone k).2]
    have hR : (S.runs : ℝ) ≠ 0 := by
      rw [Nat.cast_ne_zero]
      omega
    rw [List.map_const', List.sum_replicate, nsmul_eq_mul, List.length_range, mul_div_cancel_left₀ _ hR]
  have hsqrt : ∀ l t, t < 2 * l + 1 → Nat.sqrt (l ^ 2 + t) = l := fun l t ht => by
    rw [sq, Nat.sqrt_add_eq l (by omega)]
  have hblocks : ∑ i ∈ Finset.range (S.L ^ 2), ‖(grid.map fun x => factor r (Nat.sqrt i) * harm i x.1 x.2).sum / grid.length‖ ^ 2 =
      ∑ l ∈ Finset.range S.L, 4 * Real.pi / (2 * (l : ℝ) + 1) * ‖r.getD (l ^ 2 + l) 0‖ ^ 2 *
          ∑ n ∈ Finset.Icc (-(l : ℤ)) l, ‖(grid.map fun x => sphHarm l n x.1 x.2).sum / grid.length‖ ^ 2 := by
    rw [sum_sq_blocks]
    refine Finset.sum_congr rfl fun l _ => ?_
    rw [Gaunt.sum_orders l fun n => ‖(grid.map fun x => sphHarm l n x.1 x.2).sum / grid.length‖ ^ 2,
      Fin.sum_univ_eq_sum_range (fun t : ℕ => ‖(grid.map fun x => sphHarm l ((t : ℤ) - l) x.1 x.2).sum / grid.length‖ ^ 2), Finset.mul_sum]
    refine Finset.sum_congr rfl fun t ht => ?_
    rw [Finset.mem_range] at ht
    rw [hsqrt l t ht, List.sum_map_mul_left, mul_div_assoc, norm_mul, mul_pow]
    simp only [harm_block ht]
    congr 1
    simp only [factor, norm_mul, mul_pow, RCLike.norm_conj]
    have hpos : (0 : ℝ) ≤ 4 * Real.pi / (2 * (l : ℝ) + 1) := by positivity
    rw [← Complex.normSq_eq_norm_sq, Complex.normSq_ofReal, Real.mul_self_sqrt hpos]
  refine ⟨fun ω => by rw [hnorm, hm], by rw [hint, hblocks], ?_⟩
  rw [hint]
  have h0 : ‖r.getD 0 0‖ ^ 2 ≤ ∑ i ∈ Finset.range (S.L ^ 2), ‖(grid.map fun x => factor r (Nat.sqrt i) * harm i x.1 x.2).sum / grid.length‖ ^ 2 := by
    rw [hblocks]
    refine le_trans ?_ (Finset.single_le_sum (f := fun l : ℕ => 4 * Real.pi / (2 * (l : ℝ) + 1) * ‖r.getD (l ^ 2 + l) 0‖ ^ 2 *
      ∑ n ∈ Finset.Icc (-(l : ℤ)) l, ‖(grid.map fun x => sphHarm l n x.1 x.2).sum / grid.length‖ ^ 2) (fun l _ => by positivity) (Finset.mem_range.2 hL))
    have hgl : (grid.length : ℂ) ≠ 0 := by
      rw [Nat.cast_ne_zero]
      exact fun h0 => hg (List.length_eq_zero_iff.1 h0)
    have hY : ∀ x : ℝ × ℝ, sphHarm 0 0 x.1 x.2 = ((Real.sqrt (1 / (4 * Real.pi)) : ℝ) : ℂ) := by
      intro x
      simp [sphHarm, assocLegendre]
    simp only [Nat.cast_zero, neg_zero, Finset.Icc_self, Finset.sum_singleton, hY]
    rw [List.map_const', List.sum_replicate, nsmul_eq_mul, mul_div_cancel_left₀ _ hgl, norm_real, Real.norm_of_nonneg (Real.sqrt_nonneg _),
      Real.sq_sqrt (by positivity)]
    have hpi := Real.pi_pos
    simp only [mul_zero, zero_add, div_one, ne_eq, OfNat.ofNat_ne_zero, not_false_eq_true, zero_pow, add_zero]
    rw [mul_right_comm, mul_one_div_cancel (by positivity), one_mul]
  nlinarith [mul_le_mul_of_nonneg_left h0 hv]

/-- hypotheses met: a wavelet of two degrees with one sample at `(1, 2)` and 100 runs; with a single sample the variance is zero. -/
example : ∃ (Ω : Type) (_ : MeasurableSpace Ω) (P : Measure Ω) (m : Ω → List ℂ), ∫ ω, ‖(m ω).getD 0 0‖ ∂P ≤ 10 - 2 * 1 := by
  obtain ⟨Ω, mΩ, P, ξ, h⟩ := standardNormals_exist
  obtain ⟨m, rep, -, h1⟩ := C91_axisymmetric_measured (normals := fun ω _ k => ξ k ω) h
    ⟨2, 2, 100, 2, [[1, 0, 2, 0]], fun c => [synthesis 2 c 1 2]⟩ (by simp) (by
      intro r hr i hi
      have hr : r = [1, 0, 2, 0] := by simpa using hr
      subst hr
      match i with
      | 0 => exact ⟨0, rfl⟩
      | 1 => simp at hi
      | 2 => exact ⟨1, rfl⟩
      | 3 => simp at hi
      | i + 4 => simp at hi) (by simp) (by norm_num) (by norm_num) (by norm_num) [(1, 2)] (by simp) (fun c => rfl)
  obtain ⟨-, -, h2⟩ := h1 0 [1, 0, 2, 0] 10 rfl (by simp [waveletCovariance]; norm_num) (Or.inl (by norm_num))
  exact ⟨Ω, mΩ, P, m, by simpa using h2⟩

private theorem column_ergodic (g : ℕ → ℝ) (S : Setup) {j : ℕ} {r : List ℂ} (hj : S.wavelets[j]? = some r) (he : S.jMin ≠ 0 ∨ j ≠ 0) :
    (columns (allData g S) S.wavelets.length)[j]? = some ((List.range S.runs).map fun i =>
      ((var (S.inverse (filtered S.L (sig g (S.L ^ 2) (i * (2 * S.L ^ 2)) S.varFlm) r)) : ℝ) : ℂ)) := by
  have hjl : j < S.wavelets.length := (List.getElem?_eq_some_iff.1 hj).1
  simp only [columns, List.getElem?_map, List.getElem?_range hjl, Option.map_some, Option.some.injEq]
  unfold allData
  rw [List.map_map]
  refine List.map_congr_left fun i _ => ?_
  simp only [Function.comp_apply, dataRow_item S (sig g (S.L ^ 2) (i * (2 * S.L ^ 2)) S.varFlm) r j hj]
  rw [if_pos (by simpa [isErgodic] using he)]

/-- C91. What is reported: there are real numbers `x_0, x_1, …`, one for each run, not depending on how many runs are made, such that for any number `R` of runs the covariance
measured for a scale (not the scaling function when `j_min = 0`) is their average over the runs, and the number reported is the distance of this average from the theoretical
covariance in units of the standard deviation `√(∑ (x_i - x̄)²/R)` of the runs. -/
theorem C91_report (normals : ℕ → ℕ → ℝ) (S : Setup) (hpsi : ∀ r ∈ S.wavelets, r.length = S.L ^ 2) (hinv : ∀ c, S.inverse c ≠ []) (hne : S.wavelets ≠ [])
    (w : World) (j : ℕ) (hj : j < S.wavelets.length) (he : S.jMin ≠ 0 ∨ j ≠ 0) :
    ∃ (x : ℕ → ℝ) (c : ℝ), (waveletCovariance S.wavelets S.varFlm)[j]? = some c ∧ ∀ R, 0 < R → ∃ m rep,
      axisymCovariance normals { S with runs := R } w = .ok (m, rep) ∧ rep.length = S.wavelets.length ∧
      m.getD j 0 = (((∑ i ∈ Finset.range R, x i) / R : ℝ) : ℂ) ∧
      rep[j]? = some (.inStd (|(∑ i ∈ Finset.range R, x i) / R - c| / Real.sqrt ((∑ i ∈ Finset.range R, (x i - (∑ k ∈ Finset.range R, x k) / R) ^ 2) / R))) := by
  have hlen : (waveletCovariance S.wavelets S.varFlm).length = S.wavelets.length := by simp [waveletCovariance]
  have hjr := List.getElem?_eq_getElem hj
  set x : ℕ → ℝ := fun i => var (S.inverse (filtered S.L (sig (normals 30) (S.L ^ 2) (i * (2 * S.L ^ 2)) S.varFlm) S.wavelets[j])) with hx
  refine ⟨x, (waveletCovariance S.wavelets S.varFlm)[j]'(by omega), List.getElem?_eq_getElem _, fun R hR => ?_⟩
  have hsum : ∀ (y : ℕ → ℝ), ((List.range R).map y).sum = ∑ i ∈ Finset.range R, y i := fun y => by
    induction R with
    | zero => simp
    | succ n ih => 
      rw [List.range_succ, List.map_append, List.sum_append, Finset.sum_range_succ]
      rcases Nat.eq_zero_or_pos n with h0 | h0
      · subst h0; simp
      · rw [ih h0]; simp
  have h1 := axisymCovariance_ok normals { S with runs := R } hpsi hinv hR hne w
  have hm := measured_ergodic (normals 30) { S with runs := R } (j := j) hjr he
  have hcol := column_ergodic (normals 30) { S with runs := R } (j := j) hjr he
  dsimp only at hm hcol
  change _ = ((((List.range R).map x).sum / R : ℝ) : ℂ) at hm
  change _ = some ((List.range R).map fun i => (x i : ℂ)) at hcol
  rw [hsum] at hm
  refine ⟨_, _, h1, by simp [report, hlen], hm, ?_⟩
  set M := (∑ i ∈ Finset.range R, x i) / R with hM
  have hMnn : 0 ≤ M := div_nonneg (Finset.sum_nonneg fun i _ => var_nonneg _) (Nat.cast_nonneg _)
  have hstd : std ((List.range R).map fun i => (x i : ℂ)) = Real.sqrt ((∑ i ∈ Finset.range R, (x i - M) ^ 2) / R) := by
    have hmean : Experiments.mean ((List.range R).map fun i => (x i : ℂ)) = (M : ℂ) := by
      unfold Experiments.mean
      rw [List.length_map, List.length_range, hM, ← hsum, ofReal_div, ofReal_natCast]
      congr 1
      generalize List.range R = l
      induction l with
      | nil => simp
      | cons a l ih => simp only [List.map_cons, List.sum_cons, ih, ofReal_add]
    unfold std var
    rw [hmean, List.map_map, List.length_map, List.length_range, ← hsum]
    congr 3
    refine List.map_congr_left fun i _ => ?_
    simp only [Function.comp_apply]
    rw [← ofReal_sub, norm_real, Real.norm_eq_abs, sq_abs]
  unfold report
  rw [List.getElem?_map, List.getElem?_range (by simpa [hlen] using hj)]
  simp only [Option.map_some, Option.some.injEq]
  rw [if_pos (by simpa [isErgodic] using he), hm, norm_real, Real.norm_of_nonneg hMnn, List.getD_eq_getElem?_getD, List.getElem?_eq_getElem (by omega), List.getD_eq_getElem?_getD,
    List.getElem?_map, hcol]
  simp only [Option.map_some, Option.getD_some, hstd]

/-- two runs of one scale with one sample. -/
example (normals : ℕ → ℕ → ℝ) (w : World) : ∃ (x : ℕ → ℝ) (m : List ℂ) (rep : List Report), axisymCovariance normals
    { L := 1, jMin := 1, runs := 2, varFlm := 1, wavelets := [[2]], inverse := fun c => [synthesis 1 c 0 0, 0] } w = .ok (m, rep) ∧
    m.getD 0 0 = (((∑ i ∈ Finset.range 2, x i) / (2 : ℕ) : ℝ) : ℂ) ∧ rep.length = 1 := by
  obtain ⟨x, c, -, h⟩ := C91_report normals { L := 1, jMin := 1, runs := 2, varFlm := 1, wavelets := [[2]], inverse := fun c => [synthesis 1 c 0 0, 0] }
    (by simp) (by simp) (by simp) w 0 (by simp) (Or.inl (by norm_num))
  obtain ⟨m, rep, h1, h2, h3, -⟩ := h 2 (by norm_num)
  exact ⟨x, m, rep, h1, h3, h2⟩

/-- C91, violated: when `j_min = 0` the variance of the scaling function is to be taken over all runs, but it is taken over the scales of the first run.  So the number of runs
makes no difference, and when there is no other wavelet the measured covariance is always zero and the error reported is the whole theoretical covariance. -/
theorem C91_scaling_violation (normals : ℕ → ℕ → ℝ) (S : Setup) (hpsi : ∀ r ∈ S.wavelets, r.length = S.L ^ 2) (hinv : ∀ c, S.inverse c ≠ [])
    (hj : S.jMin = 0) (hne : S.wavelets ≠ []) (w : World) :
    ∃ (x : ℝ) (c : ℝ), (waveletCovariance S.wavelets S.varFlm)[0]? = some c ∧
      (∀ runs, 0 < runs → ∃ m rep, axisymCovariance normals { S with runs := runs } w = .ok (m, rep) ∧ m.getD 0 0 = (x : ℂ) ∧
        rep[0]? = some (.absolute |x - c|)) ∧
      (S.wavelets.length = 1 → x = 0) := by
  have hpos : 0 < S.wavelets.length := List.length_pos_iff.2 hne
  have hlen : (waveletCovariance S.wavelets S.varFlm).length = S.wavelets.length := by simp [waveletCovariance]
  have hnot : isErgodic S.jMin 0 = false := by simp [isErgodic, hj]
  refine ⟨var (dataRow S (sig (normals 30) (S.L ^ 2) 0 S.varFlm)), (waveletCovariance S.wavelets S.varFlm)[0]'(by omega),
    List.getElem?_eq_getElem _, fun runs hr => ?_, fun h1 => ?_⟩
  · have h1 := axisymCovariance_ok normals { S with runs := runs } hpsi hinv hr hne w
    have h2 : (allMeasured (normals 30) { S with runs := runs }).getD 0 0 = (var (dataRow S (sig (normals 30) (S.L ^ 2) 0 S.varFlm)) : ℂ) := by
      unfold allMeasured
      simp only [hnot]
      rw [if_neg (by simp), List.getD_eq_getElem?_getD, List.getElem?_set_self (by simpa [columns] using hpos)]
      rfl
    refine ⟨_, _, h1, h2, ?_⟩
    unfold report
    rw [List.getElem?_map, List.getElem?_range (by simpa [hlen] using hpos)]
    simp only [Option.map_some, hnot, Option.some.injEq]
    rw [if_neg (by simp), h2, norm_real, Real.norm_of_nonneg (var_nonneg _)]
    congr 3
    rw [List.getD_eq_getElem?_getD, List.getElem?_eq_getElem (by omega)]
    rfl
  · have : (dataRow S (sig (normals 30) (S.L ^ 2) 0 S.varFlm)).length = 1 := by simp [dataRow, h1]
    obtain ⟨a, ha⟩ := List.length_eq_one_iff.1 this
    rw [ha]
    simp [var, Experiments.mean]

/-- hypotheses met: the scaling function alone, one sample. -/
example (normals : ℕ → ℕ → ℝ) : ∃ m rep, axisymCovariance normals ⟨1, 0, 100, 1, [[3]], fun c => [c.getD 0 0]⟩ [] = .ok (m, rep) ∧ m.getD 0 0 = 0 ∧
    rep[0]? = some (.absolute 9) := by
  obtain ⟨x, c, h1, h2, h3⟩ := C91_scaling_violation normals ⟨1, 0, 100, 1, [[3]], fun c => [c.getD 0 0]⟩ (by simp) (by simp) rfl (by simp) []
  obtain ⟨m, rep, h4, h5, h6⟩ := h2 100 (by norm_num)
  obtain rfl := h3 rfl
  have hc : c = 9 := by
    have : (9 : ℝ) = c := by simpa [waveletCovariance, show (3 : ℝ) ^ 2 = 9 by norm_num] using h1
    exact this.symm
  subst hc
  exact ⟨m, rep, h4, by simpa using h5, by simpa using h6⟩

/-! ### Slepian wavelets -/

section
variable {L N : ℕ} {Pix : Type} [Fintype Pix] {e : SlepianEnv L Pix} {E : Fin N → Fin (L ^ 2) → ℂ}

/-- the field of the coefficients of a wavelet. -/
private noncomputable def waveletField (e : SlepianEnv L Pix) (E : Fin N → Fin (L ^ 2) → ℂ) (f κ : List ℂ) (x : Pix) : ℂ :=
  ∑ p : Fin N, κ.getD p 0 * (starRingEnd ℂ) (f.getD p 0) * e.synth (E p) x

open Classical in
private theorem slepianRun_ok (normals : ℕ → ℕ → ℝ) (hg : GoodSphere e E) (wavelets : Array2 ℂ) (hw : wavelets.WF) (hc : N ≤ wavelets.cols) (v : ℝ)
    (rng s k : ℕ) (w : World) (hwr : w[rng]? = some (s, k)) :
    slepianRun normals e.sl e.synth wavelets v rng w =
      .ok ((wavelets.rows.filter fun psi => decide (Seen (sig (normals s) (L ^ 2) k v) N psi)).map (waveletField e E (sig (normals s) (L ^ 2) k v)),
        w.set rng (s, k + 2 * L ^ 2)) := by
  set f := sig (normals s) (L ^ 2) k v with hf
  have hfl : f.length = L ^ 2 := by simp [hf, sig]
  have h0 : randomSignal normals L rng v w = .ok (f, w.set rng (s, k + 2 * L ^ 2)) := randomSignal_ok normals L rng s k v w hwr
  unfold slepianRun
  rw [h0]
  simp only [bind, Except.bind]
  rw [hg.number, slepianForward_eq f wavelets hw N (by rw [hfl]; exact hg.le) hc]
  simp only
  have h1 := mapM_eq_ok (Transform.slepianInverse e.sl e.synth) (fun l : List ℂ => fun x => ∑ p : Fin N, l.getD p 0 * e.synth (E p) x)
    ((wavelets.rows.filter fun psi => decide (Seen f N psi)).map (waveletRow f N)) (by
      intro l hl
      obtain ⟨psi, -, rfl⟩ := List.mem_map.1 hl
      have : waveletRow f N psi = List.ofFn fun p : Fin N => (waveletRow f N psi).getD p 0 := by
        apply List.ext_getElem
        · simp [waveletRow]
        · intro i h1 h2
          simp [List.getD_eq_getElem?_getD, h1]
      rw [this, Transform.slepianInverse_ok e.sl e.synth E hg.number hg.rows, ← this])
  rw [h1, List.map_map]
  simp only [pure, Except.pure, Except.ok.injEq, Prod.mk.injEq, and_true]
  refine List.map_congr_left fun psi _ => ?_
  funext x
  simp only [Function.comp_apply, waveletField]
  refine Finset.sum_congr rfl fun p _ => ?_
  simp [waveletRow, List.getD_eq_getElem?_getD]

open Classical in
private theorem slepianRuns_ok (normals : ℕ → ℕ → ℝ) (hg : GoodSphere e E) (wavelets : Array2 ℂ) (hw : wavelets.WF) (hc : N ≤ wavelets.cols) (v : ℝ)
    (rng s n : ℕ) : ∀ (k : ℕ) (w : World), w[rng]? = some (s, k) → ∃ w', slepianRuns normals e.sl e.synth wavelets v rng n w =
      .ok ((List.range n).map fun i =>
        (wavelets.rows.filter fun psi => decide (Seen (sig (normals s) (L ^ 2) (k + i * (2 * L ^ 2)) v) N psi)).map
          (waveletField e E (sig (normals s) (L ^ 2) (k + i * (2 * L ^ 2)) v)), w') := by
  induction n with
  | zero => exact fun k w _ => ⟨w, rfl⟩
  | succ n ih =>
    intro k w hwr
    have hr : rng < w.length := by
      by_contra hn
      rw [List.getElem?_eq_none (by omega)] at hwr
      simp at hwr
    obtain ⟨w', h⟩ := ih (k + 2 * L ^ 2) (w.set rng (s, k + 2 * L ^ 2)) (by simp [hr])
    refine ⟨w', ?_⟩
    unfold slepianRuns
    rw [slepianRun_ok normals hg wavelets hw hc v rng s k w hwr]
    simp only [bind, Except.bind]
    rw [h]
    simp only [pure, Except.pure, Except.ok.injEq, Prod.mk.injEq, and_true]
    rw [List.range_succ_eq_map, List.map_cons, List.map_map]
    refine List.cons_eq_cons.2 ⟨by simp, ?_⟩
    refine List.map_congr_left fun i _ => ?_
    have : k + 2 * L ^ 2 + i * (2 * L ^ 2) = k + (i + 1) * (2 * L ^ 2) := by ring
    simp only [Function.comp_apply, Nat.succ_eq_add_one, this]

/-- the variance over the runs, at a sample, for a wavelet. -/
private noncomputable def runsVar (e : SlepianEnv L Pix) (E : Fin N → Fin (L ^ 2) → ℂ) (g : ℕ → ℝ) (v : ℝ) (R : ℕ) (κ : List ℂ) (x : Pix) : ℝ :=
  var ((List.range R).map fun i => waveletField e E (sig g (L ^ 2) (i * (2 * L ^ 2)) v) κ x)

private theorem independent (hg : GoodSphere e E) (a : Fin N → ℂ) (h : ∀ x, ∑ p, a p * e.synth (E p) x = 0) : a = 0 := by
  obtain ⟨Y, hY⟩ := hg.linear
  have h1 : e.synth (fun i => ∑ p, a p * E p i) = e.synth (fun _ => 0) := by
    funext x
    rw [hY, hY]
    simp only [zero_mul, Finset.sum_const_zero]
    rw [← h x]
    simp only [hY, Finset.sum_mul, Finset.mul_sum]
    rw [Finset.sum_comm]
    exact Finset.sum_congr rfl fun p _ => Finset.sum_congr rfl fun i _ => by ring
  have h2 : (fun i => ∑ p, a p * E p i) = fun _ => 0 := by
    have := hg.exact (fun i => ∑ p, a p * E p i)
    rw [h1, hg.exact] at this
    exact (List.ofFn_injective this).symm
  funext q
  have h3 : ∑ i, (∑ p, a p * E p i) * (starRingEnd ℂ) (E q i) = a q := by
    have ho : ∀ p, ∑ i, E p i * (starRingEnd ℂ) (E q i) = if p = q then 1 else 0 := fun p => hg.orth p q
    simp only [Finset.sum_mul, mul_assoc]
    rw [Finset.sum_comm, Finset.sum_congr rfl fun p _ => (Finset.mul_sum _ _ _).symm]
    simp [ho]
  rw [← h3]
  simp [fun i => congrFun h2 i]

private theorem sig_ne_zero (g : ℕ → ℝ) (hg : ∀ k, g k ≠ 0) (n k : ℕ) {v : ℝ} (hv : 0 < v) {i : ℕ} (hi : i < n) : (sig g n k v).getD i 0 ≠ 0 := by
  have h1 : (Real.sqrt (v / 2) : ℂ) ≠ 0 := by
    rw [ofReal_ne_zero]
    exact (Real.sqrt_pos.2 (by positivity)).ne'
  simp only [sig, List.getD_eq_getElem?_getD, List.getElem?_map, List.getElem?_range hi, Option.map_some, Option.getD_some]
  refine mul_ne_zero h1 fun h => hg (k + i) ?_
  have := congrArg re h
  simpa using this

private theorem sig_ne (g : ℕ → ℝ) (hg : ∀ i j, i ≠ j → g i ≠ g j) (n k k' : ℕ) (hk : k ≠ k') {v : ℝ} (hv : 0 < v) {i : ℕ} (hi : i < n) :
    (sig g n k v).getD i 0 ≠ (sig g n k' v).getD i 0 := by
  have h1 : (Real.sqrt (v / 2) : ℂ) ≠ 0 := by
    rw [ofReal_ne_zero]
    exact (Real.sqrt_pos.2 (by positivity)).ne'
  simp only [sig, List.getD_eq_getElem?_getD, List.getElem?_map, List.getElem?_range hi, Option.map_some, Option.getD_some]
  intro h
  have h2 := congrArg re (mul_left_cancel₀ h1 h)
  refine hg (k + i) (k' + i) (by omega) ?_
  simpa using h2

private theorem seen_of (g : ℕ → ℝ) (hg : ∀ k, g k ≠ 0) (hN : N ≤ L ^ 2) (k : ℕ) {v : ℝ} (hv : 0 < v) (psi : List ℂ) :
    Seen (sig g (L ^ 2) k v) N psi ↔ ∃ p < N, psi.getD p 0 ≠ 0 := by
  constructor
  · rintro ⟨p, hp, h⟩
    exact ⟨p, hp, left_ne_zero_of_mul h⟩
  · rintro ⟨p, hp, h⟩
    exact ⟨p, hp, mul_ne_zero h (sig_ne_zero g hg _ k hv (by omega))⟩

private theorem var_conj (xs : List ℂ) : var (xs.map (starRingEnd ℂ)) = var xs := by
  unfold var Experiments.mean
  rw [List.map_map, List.length_map, ← map_list_sum]
  congr 3
  funext a
  have : (starRingEnd ℂ) a - (starRingEnd ℂ) xs.sum / xs.length = (starRingEnd ℂ) (a - xs.sum / xs.length) := by
    rw [map_sub, map_div₀, map_natCast]
  simp only [Function.comp_apply]
  rw [this, RCLike.norm_conj]

private theorem weight_support {k n : ℕ} {s : ℂ} {B : ℕ → ℂ} {j : ℕ} (h : signalWeight k n s B j ≠ 0) : k ≤ j ∧ j < k + 2 * n := by
  unfold signalWeight at h
  split_ifs at h <;> first | omega | simp at h

private theorem sum_list {β : Type} [AddCommMonoid β] (n : ℕ) (f : ℕ → β) : ∑ i ∈ Finset.range n, f i = ((List.range n).map f).sum := by
  induction n with
  | zero => simp
  | succ n ih => rw [Finset.sum_range_succ, ih, List.range_succ, List.map_append, List.sum_append]; simp

private theorem runsVar_integral (s : ℕ) (h : StandardNormals P fun k ω => normals ω s k) (hg : GoodSphere e E) (v : ℝ) (hv : 0 ≤ v) (R : ℕ) (hR : 0 < R)
    (κ : List ℂ) (x : Pix) :
    ∫ ω, runsVar e E (normals ω s) v R κ x ∂P = (1 - 1 / R) * (v * ∑ p : Fin N, ‖κ.getD p 0‖ ^ 2 * ‖e.synth (E p) x‖ ^ 2) := by
  let B : ℕ → ℂ := fun i => if hi : i < N then (starRingEnd ℂ) (κ.getD i 0 * e.synth (E ⟨i, hi⟩) x) else 0
  obtain ⟨r, hr⟩ : ∃ r, L ^ 2 = N + r := ⟨L ^ 2 - N, by have := hg.le; omega⟩
  have hf : ∀ f : List ℂ, waveletField e E f κ x = (starRingEnd ℂ) (∑ i ∈ Finset.range (L ^ 2), f.getD i 0 * B i) := by
    intro f
    rw [hr, Finset.sum_range_add]
    have h0 : ∑ i ∈ Finset.range r, f.getD (N + i) 0 * B (N + i) = 0 := by
      refine Finset.sum_eq_zero fun i _ => ?_
      simp [B]
    rw [h0, add_zero, Finset.sum_range, map_sum]
    refine Finset.sum_congr rfl fun p _ => ?_
    simp only [B, Fin.is_lt, dite_true, Fin.eta, map_mul, conj_conj]
    ring
  have hB : ∑ i ∈ Finset.range (L ^ 2), ‖B i‖ ^ 2 = ∑ p : Fin N, ‖κ.getD p 0‖ ^ 2 * ‖e.synth (E p) x‖ ^ 2 := by
    have h0 : ∑ i ∈ Finset.range r, ‖B (N + i)‖ ^ 2 = 0 := by
      refine Finset.sum_eq_zero fun i _ => ?_
      simp [B]
    rw [hr, Finset.sum_range_add, h0, add_zero, Finset.sum_range]
    refine Finset.sum_congr rfl fun p _ => ?_
    simp only [B, Fin.is_lt, dite_true, Fin.eta, RCLike.norm_conj, norm_mul, mul_pow]
  let M := R * (2 * L ^ 2)
  let c : ℕ → ℕ → ℂ := fun i => signalWeight (i * (2 * L ^ 2)) (L ^ 2) (Real.sqrt (v / 2) : ℝ) B
  have hM : ∀ i < R, i * (2 * L ^ 2) + L ^ 2 + L ^ 2 ≤ M := by
    intro i hi
    have : (i + 1) * (2 * L ^ 2) ≤ R * (2 * L ^ 2) := Nat.mul_le_mul_right _ hi
    simp only [M]
    nlinarith
  have hvar : ∀ ω, runsVar e E (normals ω s) v R κ x = var ((List.range R).map fun i => ∑ k ∈ Finset.range M, c i k * (normals ω s k : ℂ)) := by
    intro ω
    rw [← var_conj]
    unfold runsVar
    rw [List.map_map]
    congr 1
    refine List.map_congr_left fun i hi => ?_
    rw [List.mem_range] at hi
    rw [hf, sig_sum (normals ω s) (L ^ 2) _ M (hM i hi)]
    rfl
  simp only [hvar]
  rw [(integral_var h (List.range R) (by simp; omega) M c).2, List.length_range]
  have hp : ∀ i < R, ∑ k ∈ Finset.range M, ‖c i k‖ ^ 2 = v * ∑ i ∈ Finset.range (L ^ 2), ‖B i‖ ^ 2 :=
    fun i hi => weight_power _ _ _ (hM i hi) hv B
  have h1 : ((List.range R).map fun i => ∑ k ∈ Finset.range M, ‖c i k‖ ^ 2).sum = R * (v * ∑ i ∈ Finset.range (L ^ 2), ‖B i‖ ^ 2) := by
    rw [← sum_list, Finset.sum_congr rfl fun i hi => hp i (Finset.mem_range.1 hi)]
    simp
  have h2 : ∑ k ∈ Finset.range M, ‖((List.range R).map fun i => c i k).sum / R‖ ^ 2 =
      (R * (v * ∑ i ∈ Finset.range (L ^ 2), ‖B i‖ ^ 2)) / R ^ 2 := by
    rw [← h1, ← sum_list, Finset.sum_comm, Finset.sum_div]
    refine Finset.sum_congr rfl fun k _ => ?_
    rw [norm_div, div_pow, ← sum_list, RCLike.norm_natCast]
    congr 1
    by_cases hk : ∃ i ∈ Finset.range R, c i k ≠ 0
    · obtain ⟨i, hi, hne⟩ := hk
      have hz : ∀ i' ∈ Finset.range R, i' ≠ i → c i' k = 0 := by
        intro i' _ hii
        by_contra hne'
        have b1 := weight_support hne
        have b2 := weight_support hne'
        rcases Nat.lt_or_gt_of_ne hii with hlt | hlt
        · have : (i' + 1) * (2 * L ^ 2) ≤ i * (2 * L ^ 2) := Nat.mul_le_mul_right _ hlt
          nlinarith
        · have : (i + 1) * (2 * L ^ 2) ≤ i' * (2 * L ^ 2) := Nat.mul_le_mul_right _ hlt
          nlinarith
      rw [Finset.sum_eq_single_of_mem i hi hz, Finset.sum_eq_single_of_mem i hi fun i' h1 h2 => by rw [hz i' h1 h2]; simp]
    · push Not at hk
      rw [Finset.sum_eq_zero hk, Finset.sum_eq_zero fun i hi => by rw [hk i hi]; simp]
      simp
  rw [h1, h2, hB]
  have : (R : ℝ) ≠ 0 := by exact_mod_cast hR.ne'
  field_simp

open Classical in
/-- C91.  Slepian wavelets, at least two runs, positive variance.  Almost surely the experiment succeeds, the differences plotted are those between measurement and theory for the
same wavelet, for exactly the wavelets that are not zero on the first `N` ranks, in order; and on average the measured covariance is `1 - 1/R` times the theoretical one, where `R`
is the number of runs. -/
theorem C91_slepian_experiment (h : StandardNormals P fun k ω => normals ω 30 k) (hg : GoodSphere e E) (v : ℝ) (hv : 0 < v) (R : ℕ) (hR : 2 ≤ R)
    (wavelets : Array2 ℂ) (hw : wavelets.WF) (hc : N ≤ wavelets.cols) :
    ∃ (m : Ω → List ℂ → Pix → ℝ) (cov : List ℂ → Pix → ℝ),
      (∀ κ x, cov κ x = v * ∑ p : Fin N, ‖κ.getD p 0‖ ^ 2 * ‖e.synth (E p) x‖ ^ 2) ∧
      slepianWaveletCovariance e.sl e.synth wavelets.rows v = .ok (wavelets.rows.map cov) ∧
      (∀ κ x, ∫ ω, m ω κ x ∂P = (1 - 1 / R) * cov κ x) ∧
      ∀ᵐ ω ∂P, ∀ w, ∃ measured, slepianExperiment (normals ω) e.sl e.synth wavelets v R w =
        .ok (measured, (wavelets.rows.filter fun κ => decide (∃ p < N, κ.getD p 0 ≠ 0)).map fun κ x => |m ω κ x - cov κ x| / cov κ x) ∧
        measured.take (wavelets.rows.filter fun κ => decide (∃ p < N, κ.getD p 0 ≠ 0)).length =
          (wavelets.rows.filter fun κ => decide (∃ p < N, κ.getD p 0 ≠ 0)).map (m ω) := by
  set kept := wavelets.rows.filter fun κ => decide (∃ p < N, κ.getD p 0 ≠ 0) with hkept
  let cov : List ℂ → Pix → ℝ := fun κ x => v * ∑ p : Fin N, ‖κ.getD p 0‖ ^ 2 * ‖e.synth (E p) x‖ ^ 2
  have hcov : slepianWaveletCovariance e.sl e.synth wavelets.rows v = .ok (wavelets.rows.map cov) := by
    obtain ⟨c, h1, h2, h3⟩ := C83_slepian_covariance 30 h hg 0 v hv.le wavelets.rows fun r hr => by rw [hw r hr]; exact hc
    rw [h1]
    congr 1
    apply List.ext_getElem (by simpa using h2)
    intro j hj hj'
    rw [List.length_map] at hj'
    obtain ⟨f, -, hf⟩ := h3 j _ _ (List.getElem?_eq_getElem hj') (List.getElem?_eq_getElem hj)
    funext x
    rw [(hf x).2.2, List.getElem_map]
  refine ⟨fun ω => runsVar e E (normals ω 30) v R, cov, fun _ _ => rfl, hcov, fun κ x => runsVar_integral 30 h hg v hv.le R (by omega) κ x, ?_⟩
  filter_upwards [ae_ne_zero h, ae_ne h] with ω h0 h1 w
  have hseen : ∀ k, (wavelets.rows.filter fun psi => decide (Seen (sig (normals ω 30) (L ^ 2) k v) N psi)) = kept := by
    intro k
    refine List.filter_congr fun psi _ => ?_
    simp only [seen_of (normals ω 30) h0 hg.le k hv psi]
  obtain ⟨w', h2⟩ := slepianRuns_ok (normals ω) hg wavelets hw hc v w.length 30 R 0 (w ++ [(30, 0)]) (by simp)
  simp only [Nat.zero_add, hseen] at h2
  set data := (List.range R).map fun i => kept.map (waveletField e E (sig (normals ω 30) (L ^ 2) (i * (2 * L ^ 2)) v)) with hdata
  have hle : kept.length ≤ wavelets.rows.length := List.length_filter_le _ _
  have hmeas : varOverRuns wavelets.rows.length data =
      kept.map (runsVar e E (normals ω 30) v R) ++ List.replicate (wavelets.rows.length - kept.length) fun _ => 0 := by
    unfold varOverRuns
    apply List.ext_getElem (by simp; omega)
    intro j hj hj'
    simp only [List.getElem_map, List.getElem_range, hdata, List.map_map]
    funext x
    by_cases hjk : j < kept.length
    · rw [List.getElem_append_left (by simpa using hjk), List.getElem_map]
      unfold runsVar
      congr 1
      refine List.map_congr_left fun i _ => ?_
      simp [List.getD_eq_getElem?_getD, hjk]
    · rw [List.getElem_append_right (by simpa using hjk), List.getElem_replicate]
      rw [← var_zeros (List.range R)]
      congr 1
      refine List.map_congr_left fun i _ => ?_
      simp [List.getD_eq_getElem?_getD, List.getElem?_eq_none (show kept.length ≤ j by omega)]
  have hkp : ∀ κ ∈ kept, ∃ p : Fin N, κ.getD p 0 ≠ 0 := by
    intro κ hκ
    obtain ⟨p, hp, hne⟩ := of_decide_eq_true (List.mem_filter.1 hκ).2
    exact ⟨⟨p, hp⟩, hne⟩
  have hnz : nonZeroFields (varOverRuns wavelets.rows.length data) = kept.map (runsVar e E (normals ω 30) v R) := by
    rw [hmeas]
    unfold nonZeroFields
    rw [List.filter_append, List.filter_eq_self.2, List.filter_eq_nil_iff.2, List.append_nil]
    · intro f hf
      rw [List.eq_of_mem_replicate hf]
      simp
    · intro f hf
      obtain ⟨κ, hκ, rfl⟩ := List.mem_map.1 hf
      obtain ⟨p, hp⟩ := hkp κ hκ
      simp only [decide_eq_true_eq]
      by_contra hall
      push Not at hall
      have heq : ∀ x, waveletField e E (sig (normals ω 30) (L ^ 2) (0 * (2 * L ^ 2)) v) κ x =
          waveletField e E (sig (normals ω 30) (L ^ 2) (1 * (2 * L ^ 2)) v) κ x := fun x =>
        eq_of_var_zero _ (hall x) (List.mem_map.2 ⟨0, List.mem_range.2 (by omega), rfl⟩) (List.mem_map.2 ⟨1, List.mem_range.2 (by omega), rfl⟩)
      have hind := independent hg (fun p => κ.getD p 0 * ((starRingEnd ℂ) ((sig (normals ω 30) (L ^ 2) (0 * (2 * L ^ 2)) v).getD p 0) -
          (starRingEnd ℂ) ((sig (normals ω 30) (L ^ 2) (1 * (2 * L ^ 2)) v).getD p 0))) (by
        intro x
        have := sub_eq_zero.2 (heq x)
        unfold waveletField at this
        rw [← Finset.sum_sub_distrib] at this
        exact (Finset.sum_congr rfl fun p _ => by rw [mul_sub, sub_mul]).trans this)
      have hq := congrFun hind p
      simp only [Pi.zero_apply, mul_eq_zero, hp, false_or, sub_eq_zero] at hq
      have hlt : (p : ℕ) < L ^ 2 := lt_of_lt_of_le p.isLt hg.le
      exact sig_ne (normals ω 30) h1 (L ^ 2) _ _ (by omega) hv hlt ((starRingEnd ℂ).injective hq)
  have hnt : nonZeroFields (wavelets.rows.map cov) = kept.map cov := by
    unfold nonZeroFields
    rw [List.filter_map]
    congr 1
    refine List.filter_congr fun κ _ => ?_
    simp only [Function.comp_apply, decide_eq_decide]
    constructor
    · rintro ⟨x, hx⟩
      by_contra hall
      push Not at hall
      refine hx ?_
      simp only [cov]
      rw [Finset.sum_eq_zero, mul_zero]
      intro p _
      rw [hall p p.isLt]
      simp
    · rintro ⟨p, hp, hne⟩
      by_contra hall
      push Not at hall
      have hs : ∀ x, e.synth (E ⟨p, hp⟩) x = 0 := by
        intro x
        have hx := (mul_eq_zero.1 (hall x)).resolve_left hv.ne'
        rw [Finset.sum_eq_zero_iff_of_nonneg fun _ _ => by positivity] at hx
        have := hx ⟨p, hp⟩ (Finset.mem_univ _)
        rcases mul_eq_zero.1 this with h3 | h3
        · exact absurd (by simpa using h3) hne
        · simpa using h3
      have := independent hg (fun q => if q = ⟨p, hp⟩ then 1 else 0) fun x => by simpa using hs x
      simpa using congrFun this ⟨p, hp⟩
  refine ⟨varOverRuns wavelets.rows.length data, ?_, ?_⟩
  · unfold slepianExperiment
    rw [hcov]
    simp only [defaultRng, randomSeed, bind, Except.bind]
    rw [h2]
    simp only [List.length_map]
    rw [hnz, hnt, broadcast_of_length_eq _ _ _ (by simp)]
    simp only [pure, Except.pure, List.zipWith_map, List.zipWith_self]
  · rw [hmeas, List.take_left' (by simp)]

/-- hypotheses met for `L = 2`, `N = 2`, ten runs: of two wavelets the first is zero, and the covariance measured for the second at sample 1 is `9/10` of `3·4`. -/
example : ∃ (Ω : Type) (_ : MeasurableSpace Ω) (P : Measure Ω) (m : Ω → List ℂ → Fin (2 ^ 2) → ℝ), ∫ ω, m ω [2, 1, 0, 0] 1 ∂P = 9 / 10 * 12 := by
  obtain ⟨Ω, mΩ, P, ξ, h⟩ := standardNormals_exist
  let E : Fin 2 → Fin (2 ^ 2) → ℂ := fun p i => if (i : ℕ) = p + 1 then I else 0
  have hg : GoodSphere (L := 2) (N := 2) ⟨⟨2, [1, 1 / 2], [E 0, E 1]⟩, fun c x => c x, fun _ => 1, fun f => List.ofFn f⟩ E :=
    ⟨rfl, by norm_num, by intro p; fin_cases p <;> rfl, by
      intro p q
      fin_cases p <;> fin_cases q <;> simp [E, Fin.sum_univ_four],
      ⟨fun i x => if i = x then 1 else 0, by simp⟩, fun _ => rfl⟩
  obtain ⟨m, cov, h1, -, h2, -⟩ := C91_slepian_experiment (normals := fun ω _ k => ξ k ω) h hg 3 (by norm_num) 10 (by norm_num)
    ⟨4, [[0, 0, 5, 0], [2, 1, 0, 0]]⟩ (by simp [Array2.WF]) (by norm_num)
  refine ⟨Ω, mΩ, P, m, ?_⟩
  rw [h2, h1]
  simp [E, Fin.sum_univ_two]
  norm_num

end

end Sleplet.Props
