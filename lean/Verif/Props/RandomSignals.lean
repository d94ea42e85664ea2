import Verif.Lemmas.SlepianTransform
import Verif.Model.RandomSignals
import Verif.Props.SigmaJ

/-!
C83: random signals and the simulated CMB on average over the random numbers.
-/
namespace Sleplet.Props

open Complex MeasureTheory Noise Spec NumPy Functions RandomSignals

variable {Ω : Type} [MeasurableSpace Ω] {P : Measure Ω} {normals : Ω → ℕ → ℕ → ℝ}

/-- the signal for every outcome. -/
theorem randomSignal_ok (normals : ℕ → ℕ → ℝ) (L rng s k : ℕ) (v : ℝ) (w : World) (hw : w[rng]? = some (s, k)) :
    randomSignal normals L rng v w = .ok ((List.range (L ^ 2)).map fun i =>
      (Real.sqrt (v / 2) : ℂ) * ((normals s (k + i) : ℂ) + I * (normals s (k + L ^ 2 + i) : ℂ)), w.set rng (s, k + 2 * L ^ 2)) := by
  have hr := lt_of_get hw
  unfold randomSignal standardNormals
  simp only [hw, bind, Except.bind, List.getElem?_set_self hr]
  rw [broadcast_of_length_eq _ _ _ (by simp)]
  simp only [pure, Except.pure, Except.ok.injEq, Prod.mk.injEq, List.set_set]
  refine ⟨?_, by rw [two_mul, Nat.add_assoc]⟩
  rw [List.zipWith_map, List.zipWith_self, List.map_map]
  rfl

noncomputable def sig (g : ℕ → ℝ) (n k : ℕ) (v : ℝ) : List ℂ :=
  (List.range n).map fun i => (Real.sqrt (v / 2) : ℂ) * ((g (k + i) : ℂ) + I * (g (k + n + i) : ℂ))

theorem sig_sum (g : ℕ → ℝ) (n k M : ℕ) (hM : k + n + n ≤ M) (v : ℝ) (B : ℕ → ℂ) :
    ∑ i ∈ Finset.range n, (sig g n k v).getD i 0 * B i =
      ∑ j ∈ Finset.range M, signalWeight k n (Real.sqrt (v / 2) : ℝ) B j * (g j : ℂ) := by
  rw [sum_signalWeight k n M hM _ B fun j => (g j : ℂ)]
  refine Finset.sum_congr rfl fun i hi => ?_
  rw [Finset.mem_range] at hi
  simp [sig, List.getD_eq_getElem?_getD, hi]
  ring

private theorem sig_item (g : ℕ → ℝ) (n k M : ℕ) (hM : k + n + n ≤ M) (v : ℝ) {i : ℕ} (hi : i < n) :
    (sig g n k v).getD i 0 = ∑ j ∈ Finset.range M, signalWeight k n (Real.sqrt (v / 2) : ℝ) (fun a => if a = i then 1 else 0) j * (g j : ℂ) := by
  rw [← sig_sum g n k M hM]
  simp [hi]

theorem sqrt_half {v : ℝ} (hv : 0 ≤ v) : (2 : ℂ) * ((Real.sqrt (v / 2) : ℝ) : ℂ) ^ 2 = v := by
  rw [← ofReal_pow, Real.sq_sqrt (by positivity)]
  push_cast
  ring

/-- C83.  Signals drawn one after another from a generator: the coefficients have mean zero and variance `v`, different coefficients and
coefficients of different signals are uncorrelated, and real and imaginary parts are alike (`E[f_i f_j] = 0`). -/
theorem C83_random_signal (s : ℕ) (h : StandardNormals P fun k ω => normals ω s k) (L : ℕ) (v : ℝ) (hv : 0 ≤ v) :
    ∃ f : ℕ → Ω → List ℂ,
      (∀ k ω rng (w : World), w[rng]? = some (s, k) →
        randomSignal (normals ω) L rng v w = .ok (f k ω, w.set rng (s, k + 2 * L ^ 2))) ∧
      (∀ k ω, (f k ω).length = L ^ 2) ∧
      (∀ k i, ∫ ω, (f k ω).getD i 0 ∂P = 0) ∧
      (∀ k i j, i < L ^ 2 → j < L ^ 2 →
        ∫ ω, (f k ω).getD i 0 * (starRingEnd ℂ) ((f k ω).getD j 0) ∂P = (if i = j then v else 0 : ℝ) ∧
        ∫ ω, (f k ω).getD i 0 * (f k ω).getD j 0 ∂P = 0) ∧
      ∀ k k' i j, k + 2 * L ^ 2 ≤ k' → i < L ^ 2 → j < L ^ 2 →
        ∫ ω, (f k ω).getD i 0 * (starRingEnd ℂ) ((f k' ω).getD j 0) ∂P = 0 := by
  refine ⟨fun k ω => sig (normals ω s) (L ^ 2) k v, fun k ω rng w hw => randomSignal_ok (normals ω) L rng s k v w hw,
    fun k ω => by simp [sig], fun k i => ?_, fun k i j hi hj => ⟨?_, ?_⟩, fun k k' i j hk hi hj => ?_⟩
  · by_cases hi : i < L ^ 2
    · simp only [fun ω => sig_item (normals ω s) (L ^ 2) k _ (le_refl _) v hi]
      exact first h _ _
    · have : ∀ ω, (sig (normals ω s) (L ^ 2) k v).getD i 0 = 0 := fun ω =>
        List.getD_eq_default _ _ (by simp [sig]; omega)
      simp only [this, integral_zero]
  · simp only [fun ω => sig_item (normals ω s) (L ^ 2) k _ (le_refl _) v hi, fun ω => sig_item (normals ω s) (L ^ 2) k _ (le_refl _) v hj]
    rw [covariance h, signal_inner _ _ _ (le_refl _), sqrt_half hv]
    split_ifs with hij
    · subst hij
      simp [hi]
    · simp [hi, Ne.symm hij]
  · simp only [fun ω => sig_item (normals ω s) (L ^ 2) k _ (le_refl _) v hi, fun ω => sig_item (normals ω s) (L ^ 2) k _ (le_refl _) v hj]
    rw [product h, signal_pseudo _ _ _ (le_refl _)]
  · simp only [fun ω => sig_item (normals ω s) (L ^ 2) k (k' + L ^ 2 + L ^ 2) (by omega) v hi,
      fun ω => sig_item (normals ω s) (L ^ 2) k' (k' + L ^ 2 + L ^ 2) (le_refl _) v hj]
    rw [covariance h, signal_disjoint _ _ _ _ (by omega) (le_refl _)]

/-- hypotheses met: a signal of four coefficients of variance 3 from a generator which has already given ten values. -/
example : ∃ (Ω : Type) (_ : MeasurableSpace Ω) (P : Measure Ω) (normals : Ω → ℕ → ℕ → ℝ) (f : Ω → List ℂ),
    (∀ ω, randomSignal (normals ω) 2 1 3 [(30, 5), (7, 10)] = .ok (f ω, [(30, 5), (7, 18)])) ∧
      ∫ ω, (f ω).getD 3 0 * (starRingEnd ℂ) ((f ω).getD 3 0) ∂P = (3 : ℝ) := by
  obtain ⟨Ω, m, P, ξ, h⟩ := standardNormals_exist
  obtain ⟨f, h1, -, -, h2, -⟩ := C83_random_signal (normals := fun ω _ k => ξ k ω) 7 h 2 3 (by norm_num)
  refine ⟨Ω, m, P, fun ω _ k => ξ k ω, f 10, fun ω => h1 10 ω 1 _ rfl, ?_⟩
  simpa using (h2 10 3 3 (by norm_num) (by norm_num)).1

/-- the coefficients of the simulated CMB. -/
private theorem wmap_family (normals : ℕ → ℕ → ℝ) (cl : List ℝ) (L : ℕ) (hcl : L ≤ cl.length + 2) :
    ∃ flm, (∀ w, createWmap normals cl L w = .ok (flm, w ++ [(30, L ^ 2 - 4)])) ∧ flm.length = L ^ 2 ∧
      ∀ (l : ℕ) (m : ℤ), l < L → |m| ≤ l → flm.getD (elm2ind l m) 0 = coeff (normals 30)
        (if l < 2 then 0 else Real.sqrt (2 * Real.pi / ((l : ℝ) * ((l : ℝ) + 1)) * cl.getD (l - 2) 0)) (l ^ 2 - 4) m := by
  obtain ⟨flm, h1, ⟨h2, h3⟩, h4, h5⟩ := C22_wmap_real normals cl L hcl
  refine ⟨flm, h1, h2, ?_⟩
  have hnn : ∀ l m : ℕ, l < L → m ≤ l → flm.getD (elm2ind l m) 0 = coeff (normals 30)
        (if l < 2 then 0 else Real.sqrt (2 * Real.pi / ((l : ℝ) * ((l : ℝ) + 1)) * cl.getD (l - 2) 0)) (l ^ 2 - 4) m := by
    intro l m hl hm
    rw [elm2ind_nat hm]
    by_cases h : l < 2
    · have h9 : l ^ 2 + l + m < 4 := by
        interval_cases l <;> omega
      rw [h4 _ h9, if_pos h]
      rcases Nat.eq_zero_or_pos m with rfl | h0
      · simp [coeff]
      · rw [coeff, if_neg (by omega), if_pos (by omega)]
        simp [drawn]
    · obtain ⟨σ, hσ, ha, hb⟩ := h5 l (by omega) hl
      rw [if_neg h, ← hσ]
      rcases Nat.eq_zero_or_pos m with rfl | h0
      · rw [Nat.add_zero, ha]; simp [coeff]
      · rw [coeff, if_neg (by omega), if_pos (by omega), Int.toNat_natCast, drawn, hb m h0 hm,
          show l ^ 2 - 4 + (2 * m - 1) = l ^ 2 - 4 + 2 * m - 1 from by omega]
  intro l m hl hm
  rcases le_total 0 m with h0 | h0
  · obtain ⟨n, rfl⟩ : ∃ n : ℕ, m = n := ⟨m.toNat, by omega⟩
    exact hnn l n hl (by rw [abs_le] at hm; omega)
  · obtain ⟨n, rfl⟩ : ∃ n : ℕ, m = -(n : ℤ) := ⟨(-m).toNat, by omega⟩
    have hn : n ≤ l := by rw [abs_le] at hm; omega
    rw [h3 l n hl (by rw [abs_le]; omega), hnn l n hl hn, coeff_neg]

private theorem shifted_sum (L : ℕ) (c : ℕ → ℂ) (hc : ∀ k < 4, k < L ^ 2 → c k = 0) (F : ℕ → ℂ) :
    ∑ k ∈ Finset.range (L ^ 2), c k * F (k - 4) = ∑ k ∈ Finset.range (L ^ 2 - 4), c (k + 4) * F k := by
  rcases Nat.lt_or_ge (L ^ 2) 4 with h | h
  · rw [show L ^ 2 - 4 = 0 by omega, Finset.sum_range_zero]
    refine Finset.sum_eq_zero fun k hk => ?_
    rw [Finset.mem_range] at hk
    rw [hc k (by omega) hk, zero_mul]
  · obtain ⟨r, hr⟩ : ∃ r, L ^ 2 = 4 + r := ⟨L ^ 2 - 4, by omega⟩
    rw [hr, Finset.sum_range_add, Nat.add_sub_cancel_left]
    have : ∑ k ∈ Finset.range 4, c k * F (k - 4) = 0 := by
      refine Finset.sum_eq_zero fun k hk => ?_
      rw [Finset.mem_range] at hk
      rw [hc k hk (by omega), zero_mul]
    rw [this, zero_add]
    refine Finset.sum_congr rfl fun k _ => ?_
    rw [Nat.add_comm 4 k, Nat.add_sub_cancel]

/-- means and covariances of linear functionals of the simulated CMB. -/
private theorem wmap_functionals (h : StandardNormals P fun k ω => normals ω 30 k) (cl : List ℝ) (L : ℕ) (hpos : ∀ c ∈ cl, 0 ≤ c)
    (flm : Ω → List ℂ) (hv : ∀ (ω : Ω) (l : ℕ) (m : ℤ), l < L → |m| ≤ l → (flm ω).getD (elm2ind l m) 0 = coeff (normals ω 30)
        (if l < 2 then 0 else Real.sqrt (2 * Real.pi / ((l : ℝ) * ((l : ℝ) + 1)) * cl.getD (l - 2) 0)) (l ^ 2 - 4) m)
    (B B' : ℕ → ℂ) :
    ∫ ω, ∑ i ∈ Finset.range (L ^ 2), (flm ω).getD i 0 * B i ∂P = 0 ∧
    ∫ ω, (∑ i ∈ Finset.range (L ^ 2), (flm ω).getD i 0 * B i) * (starRingEnd ℂ) (∑ i ∈ Finset.range (L ^ 2), (flm ω).getD i 0 * B' i) ∂P =
      ∑ l ∈ Finset.range L, ((if l < 2 then 0 else 2 * Real.pi * cl.getD (l - 2) 0 / (l * (l + 1)) : ℝ) : ℂ) *
        ∑ t ∈ Finset.range (2 * l + 1), B (l ^ 2 + t) * (starRingEnd ℂ) (B' (l ^ 2 + t)) := by
  set σ : ℕ → ℝ := fun l => if l < 2 then 0 else Real.sqrt (2 * Real.pi / ((l : ℝ) * ((l : ℝ) + 1)) * cl.getD (l - 2) 0) with hσ
  have hlow : ∀ (B : ℕ → ℂ), ∀ k < 4, k < L ^ 2 → spectrumWeight σ B k = 0 := by
    intro B k hk _
    have : Nat.sqrt k < 2 := by rw [Nat.sqrt_lt]; omega
    have h0 : σ (Nat.sqrt k) = 0 := by simp only [hσ]; rw [if_pos this]
    simp [spectrumWeight, h0, weight]
  have hlin : ∀ ω (B : ℕ → ℂ), ∑ i ∈ Finset.range (L ^ 2), (flm ω).getD i 0 * B i =
      ∑ k ∈ Finset.range (L ^ 2 - 4), spectrumWeight σ B (k + 4) * ((normals ω 30 k : ℝ) : ℂ) := by
    intro ω B
    rw [spectrum_linear L σ B (normals ω 30) 4 (flm ω) ?_ (hv ω), shifted_sum L _ (hlow B) fun k => ((normals ω 30 k : ℝ) : ℂ)]
    intro l _ hne
    have : 2 ≤ l := by
      by_contra hlt
      exact hne (by simp only [hσ]; rw [if_pos (by omega)])
    nlinarith
  have hin := spectrum_inner L σ B B'
  simp only [hlin]
  refine ⟨first h _ _, ?_⟩
  rw [covariance h]
  have h1 := shifted_sum L (fun k => spectrumWeight σ B k * (starRingEnd ℂ) (spectrumWeight σ B' k))
    (fun k hk hk' => by simp [hlow B k hk hk']) (fun _ => 1)
  simp only [mul_one] at h1
  rw [← h1, hin]
  refine Finset.sum_congr rfl fun l _ => ?_
  congr 1
  rw [← ofReal_pow]
  congr 1
  simp only [hσ]
  split_ifs with hl
  · simp
  · rw [Real.sq_sqrt]
    · ring
    · have : 0 ≤ cl.getD (l - 2) 0 := by
        rw [List.getD_eq_getElem?_getD]
        rcases hg : cl[l - 2]? with _ | c
        · simp
        · exact hpos c (List.mem_of_getElem? hg)
      have := Real.pi_pos
      positivity

/-- C83.  The simulated CMB: every coefficient has mean zero; the coefficient of degree `l ≥ 2` has mean square `2π C_l / l(l+1)`, where `C_l` is entry
`l - 2` of the file, and there is nothing below degree 2; different coefficients are uncorrelated. -/
theorem C83_cmb_spectrum (h : StandardNormals P fun k ω => normals ω 30 k) (cl : List ℝ) (L : ℕ) (hcl : L ≤ cl.length + 2)
    (hpos : ∀ c ∈ cl, 0 ≤ c) :
    ∃ flm : Ω → List ℂ, (∀ ω w, createWmap (normals ω) cl L w = .ok (flm ω, w ++ [(30, L ^ 2 - 4)])) ∧
      (∀ i, ∫ ω, (flm ω).getD i 0 ∂P = 0) ∧
      ∀ (l l' : ℕ) (m m' : ℤ), l < L → |m| ≤ l → l' < L → |m'| ≤ l' →
        ∫ ω, (flm ω).getD ((l : ℤ) ^ 2 + l + m).toNat 0 * (starRingEnd ℂ) ((flm ω).getD ((l' : ℤ) ^ 2 + l' + m').toNat 0) ∂P =
          (if l = l' ∧ m = m' ∧ 2 ≤ l then 2 * Real.pi * cl.getD (l - 2) 0 / (l * (l + 1)) else 0 : ℝ) := by
  choose flm hf hlen hv using fun ω => wmap_family (normals ω) cl L hcl
  have hitem : ∀ ω i, i < L ^ 2 → (flm ω).getD i 0 = ∑ a ∈ Finset.range (L ^ 2), (flm ω).getD a 0 * (if a = i then 1 else 0) := by
    intro ω i hi
    simp [hi]
  refine ⟨flm, hf, fun i => ?_, fun l l' m m' hl hm hl' hm' => ?_⟩
  · by_cases hi : i < L ^ 2
    · simp only [fun ω => hitem ω i hi]
      exact (wmap_functionals h cl L hpos flm hv _ (fun _ => 0)).1
    · have : ∀ ω, (flm ω).getD i 0 = 0 := fun ω => List.getD_eq_default _ _ (by rw [hlen]; omega)
      simp only [this, integral_zero]
  · rw [abs_le] at hm hm'
    obtain ⟨t, rfl⟩ : ∃ t : ℕ, m = (t : ℤ) - l := ⟨(m + l).toNat, by omega⟩
    obtain ⟨t', rfl⟩ : ∃ t : ℕ, m' = (t : ℤ) - l' := ⟨(m' + l').toNat, by omega⟩
    have e : ∀ l t : ℕ, ((l : ℤ) ^ 2 + l + ((t : ℤ) - l)).toNat = l ^ 2 + t := by
      intro l t
      rw [show (l : ℤ) ^ 2 + l + ((t : ℤ) - l) = ((l ^ 2 + t : ℕ) : ℤ) from by push_cast; ring, Int.toNat_natCast]
    have hb : ∀ l t : ℕ, l < L → t < 2 * l + 1 → l ^ 2 + t < L ^ 2 := by
      intro l t h1 h2
      have := Nat.pow_le_pow_left (show l + 1 ≤ L by omega) 2
      nlinarith
    have inj : ∀ l t l' t' : ℕ, t < 2 * l + 1 → t' < 2 * l' + 1 → (l ^ 2 + t = l' ^ 2 + t' ↔ l = l' ∧ t = t') := by
      intro l t l' t' h1 h2
      constructor
      · intro h
        have a1 : Nat.sqrt (l ^ 2 + t) = l := by rw [sq, Nat.sqrt_add_eq l (by omega)]
        have a2 : Nat.sqrt (l' ^ 2 + t') = l' := by rw [sq, Nat.sqrt_add_eq l' (by omega)]
        have : l = l' := by rw [← a1, h, a2]
        subst this
        exact ⟨rfl, by omega⟩
      · rintro ⟨rfl, rfl⟩
        rfl
    have ht : t < 2 * l + 1 := by omega
    have ht' : t' < 2 * l' + 1 := by omega
    rw [e, e]
    simp only [fun ω => hitem ω _ (hb l t hl ht), fun ω => hitem ω _ (hb l' t' hl' ht')]
    rw [(wmap_functionals h cl L hpos flm hv _ _).2, Finset.sum_eq_single_of_mem l (by simpa using hl)]
    · rw [Finset.sum_eq_single_of_mem t (by simpa using ht)]
      · rw [if_pos rfl, one_mul]
        by_cases hc : l = l' ∧ t = t'
        · obtain ⟨rfl, rfl⟩ := hc
          by_cases h2 : l < 2
          · rw [if_pos h2, if_pos rfl, if_neg (by omega)]; simp
          · rw [if_neg h2, if_pos rfl, if_pos ⟨rfl, rfl, by omega⟩]; simp
        · rw [if_neg (fun hh => hc ((inj l t l' t' ht ht').1 hh)), map_zero, mul_zero, if_neg]
          · simp
          · rintro ⟨rfl, hh, -⟩
            exact hc ⟨rfl, by omega⟩
      · intro t2 h2 hne
        rw [if_neg (by omega), zero_mul]
    · intro l2 h2 hne
      rw [Finset.sum_eq_zero, mul_zero]
      intro t2 ht2
      rw [Finset.mem_range] at ht2
      rw [if_neg (fun hh => hne ((inj l2 t2 l t ht2 ht).1 hh).1), zero_mul]

/-- C83.  The field of the simulated CMB has mean zero and the same mean square `∑_l (2l+1) C_l / 2l(l+1)` at every point.  Assumed of
`ssht.inverse`: it sums spherical harmonics. -/
theorem C83_cmb_field (h : StandardNormals P fun k ω => normals ω 30 k) (cl : List ℝ) (L : ℕ) (hcl : L ≤ cl.length + 2)
    (hpos : ∀ c ∈ cl, 0 ≤ c) :
    ∃ flm : Ω → List ℂ, (∀ ω w, createWmap (normals ω) cl L w = .ok (flm ω, w ++ [(30, L ^ 2 - 4)])) ∧
      ∀ th ph, ∫ ω, synthesis L (flm ω) th ph ∂P = 0 ∧
        ∫ ω, ‖synthesis L (flm ω) th ph‖ ^ 2 ∂P =
          ∑ l ∈ Finset.Ico 2 L, (2 * l + 1) * cl.getD (l - 2) 0 / (2 * l * (l + 1)) := by
  choose flm hf hlen hv using fun ω => wmap_family (normals ω) cl L hcl
  refine ⟨flm, hf, fun th ph => ?_⟩
  have hfun := wmap_functionals h cl L hpos flm hv (fun i => harm i th ph) (fun i => harm i th ph)
  simp only [synthesis_eq]
  refine ⟨hfun.1, ?_⟩
  have h2 := hfun.2
  simp only [mul_conj, normSq_eq_norm_sq] at h2
  rw [integral_complex_ofReal] at h2
  have h3 : ∫ ω, ‖∑ i ∈ Finset.range (L ^ 2), (flm ω).getD i 0 * harm i th ph‖ ^ 2 ∂P =
      ∑ l ∈ Finset.range L, (if l < 2 then 0 else 2 * Real.pi * cl.getD (l - 2) 0 / (l * (l + 1))) *
        ∑ t ∈ Finset.range (2 * l + 1), ‖harm (l ^ 2 + t) th ph‖ ^ 2 := by
    exact_mod_cast h2
  rw [h3]
  simp only [sum_norm_harm]
  rw [Finset.range_eq_Ico, ← Finset.sum_subset (s₁ := Finset.Ico 2 L)]
  · refine Finset.sum_congr rfl fun l hl => ?_
    rw [Finset.mem_Ico] at hl
    rw [if_neg (by omega)]
    have h1 : (0 : ℝ) < l := by exact_mod_cast (by omega : 0 < l)
    have hpi := Real.pi_pos
    field_simp
    ring
  · intro l hl
    rw [Finset.mem_Ico] at hl ⊢
    omega
  · intro l hl hn
    rw [Finset.mem_Ico] at hl hn
    rw [if_pos (by omega), zero_mul]

/-- hypotheses met: bandlimit 4 and two powers; the mean square is `(5/12)·6 + (7/24)·12 = 6` everywhere. -/
example : ∃ (Ω : Type) (_ : MeasurableSpace Ω) (P : Measure Ω) (normals : Ω → ℕ → ℕ → ℝ) (flm : Ω → List ℂ),
    (∀ ω, createWmap (normals ω) [6, 12] 4 [] = .ok (flm ω, [(30, 12)])) ∧
      ∀ th ph, ∫ ω, ‖synthesis 4 (flm ω) th ph‖ ^ 2 ∂P = 6 := by
  obtain ⟨Ω, m, P, ξ, h⟩ := standardNormals_exist
  obtain ⟨flm, h1, h2⟩ := C83_cmb_field (normals := fun ω _ k => ξ k ω) h [6, 12] 4 (by simp) (by simp)
  refine ⟨Ω, m, P, _, flm, fun ω => h1 ω [], fun th ph => ?_⟩
  rw [(h2 th ph).2]
  simp [Finset.sum_Ico_eq_sum_range, Finset.sum_range_succ]
  norm_num

/-- the mean square of a linear functional of a random signal. -/
theorem signal_power (s : ℕ) (h : StandardNormals P fun k ω => normals ω s k) (n k : ℕ) (v : ℝ) (hv : 0 ≤ v) (B : ℕ → ℂ) :
    ∫ ω, ∑ i ∈ Finset.range n, (sig (normals ω s) n k v).getD i 0 * B i ∂P = 0 ∧
    ∫ ω, ‖∑ i ∈ Finset.range n, (sig (normals ω s) n k v).getD i 0 * B i‖ ^ 2 ∂P = v * ∑ i ∈ Finset.range n, ‖B i‖ ^ 2 := by
  simp only [fun ω => sig_sum (normals ω s) n k _ (le_refl _) v B]
  refine ⟨first h _ _, ?_⟩
  have h2 := covariance h (k + n + n) (signalWeight k n (Real.sqrt (v / 2) : ℝ) B) (signalWeight k n (Real.sqrt (v / 2) : ℝ) B)
  rw [signal_inner _ _ _ (le_refl _), sqrt_half hv] at h2
  simp only [mul_conj, normSq_eq_norm_sq] at h2
  rw [integral_complex_ofReal] at h2
  exact_mod_cast h2

/-- C83.  Wavelets on the whole sphere: the wavelet coefficients of random signals of variance `v` have mean zero at every sample, and their variance
is the theoretical covariance `v ∑_l |Ψ_l0|²`.  Assumed of `ssht.inverse`: it sums spherical harmonics at the samples `(θ, φ)`. -/
theorem C83_axisymmetric_covariance {Pix : Type} (s : ℕ) (h : StandardNormals P fun k ω => normals ω s k) (L k : ℕ) (v : ℝ) (hv : 0 ≤ v)
    (sshtInverse : List ℂ → Pix → ℂ) (th ph : Pix → ℝ) (hssht : ∀ c x, sshtInverse c x = synthesis L c (th x) (ph x))
    (psi : List (List ℂ)) (hpsi : ∀ r ∈ psi, r.length = L ^ 2)
    (hzonal : ∀ r ∈ psi, ∀ i, r.getD i 0 ≠ 0 → ∃ l, i = l ^ 2 + l) :
    (waveletCovariance psi v).length = psi.length ∧
    ∀ (j : ℕ) (c : ℝ), (waveletCovariance psi v)[j]? = some c → ∃ f : Ω → Pix → ℂ,
      (∀ ω rng (w : World), w[rng]? = some (s, k) → ∃ flm w' ws W, randomSignal (normals ω) L rng v w = .ok (flm, w') ∧
        Wavelets.axisymForward L flm psi = .ok ws ∧ ws[j]? = some W ∧ f ω = sshtInverse W) ∧
      ∀ x, ∫ ω, f ω x ∂P = 0 ∧ ∫ ω, ‖f ω x‖ ^ 2 ∂P = c := by
  refine ⟨by simp [waveletCovariance], fun j c hc => ?_⟩
  obtain ⟨r, hr, hrc⟩ : ∃ r, psi[j]? = some r ∧ (r.map fun x => ‖x‖ ^ 2).sum * v = c := by
    simp only [waveletCovariance, List.getElem?_map] at hc
    rcases hp : psi[j]? with _ | r
    · simp [hp] at hc
    · exact ⟨r, rfl, by simpa [hp] using hc⟩
  have hrmem : r ∈ psi := List.mem_of_getElem? hr
  let n : Ω → List ℂ := fun ω => sig (normals ω s) (L ^ 2) k v
  have hl : ∀ ω, (n ω).length = L ^ 2 := fun ω => by simp [n, sig]
  have hW : ∀ ω (row : List ℂ), ∃ W : List ℂ, row.length = L ^ 2 → Wavelets.forwardRow L (n ω) row = .ok W ∧ W.length = L ^ 2 ∧
      ∀ (l : ℕ) (m : ℤ), l < L → |m| ≤ l → W.getD (elm2ind l m) 0 =
        (Real.sqrt (4 * Real.pi / (2 * (l : ℝ) + 1)) : ℂ) * (starRingEnd ℂ) (row.getD (elm2ind l 0) 0) *
          (n ω).getD (elm2ind l m) 0 := by
    intro ω row
    by_cases hp : row.length = L ^ 2
    · obtain ⟨W, hW⟩ := Wavelets.forwardRow_ok L (n ω) row (hl ω) hp
      exact ⟨W, fun _ => hW⟩
    · exact ⟨[], fun h => absurd h hp⟩
  choose W hWs using hW
  refine ⟨fun ω => sshtInverse (W ω r), fun ω rng w hw => ?_, fun x => ?_⟩
  · refine ⟨n ω, _, psi.map (W ω), W ω r, randomSignal_ok (normals ω) L rng s k v w hw, ?_, ?_, rfl⟩
    · unfold Wavelets.axisymForward
      exact mapM_eq_ok _ _ _ fun row hrow => (hWs ω row (hpsi row hrow)).1
    · simp [hr]
  · let a : ℕ → ℂ := fun l => (Real.sqrt (4 * Real.pi / (2 * (l : ℝ) + 1)) : ℂ) * (starRingEnd ℂ) (r.getD (l ^ 2 + l) 0)
    let B : ℕ → ℂ := fun i => a (Nat.sqrt i) * harm i (th x) (ph x)
    have hsqrt : ∀ l t, t < 2 * l + 1 → Nat.sqrt (l ^ 2 + t) = l := fun l t ht => by
      rw [sq, Nat.sqrt_add_eq l (by omega)]
    have hf : ∀ ω, sshtInverse (W ω r) x = ∑ i ∈ Finset.range (L ^ 2), (n ω).getD i 0 * B i := by
      intro ω
      rw [hssht, synthesis_eq, sum_sq_blocks, sum_sq_blocks]
      refine Finset.sum_congr rfl fun l hlL => Finset.sum_congr rfl fun t ht => ?_
      rw [Finset.mem_range] at hlL ht
      have := (hWs ω r (hpsi r hrmem)).2.2 l ((t : ℤ) - l) hlL (by rw [abs_le]; omega)
      rw [elm2ind_block, elm2ind_zero] at this
      simp only [B, hsqrt l t ht, this, a]
      ring
    have hpow : ∑ i ∈ Finset.range (L ^ 2), ‖B i‖ ^ 2 = (r.map fun x => ‖x‖ ^ 2).sum := by
      rw [list_sum_eq r (fun x => ‖x‖ ^ 2), hpsi r hrmem, sum_sq_blocks, sum_sq_blocks]
      refine Finset.sum_congr rfl fun l hlL => ?_
      have h1 : ∑ t ∈ Finset.range (2 * l + 1), ‖B (l ^ 2 + t)‖ ^ 2 =
          ‖a l‖ ^ 2 * ∑ t ∈ Finset.range (2 * l + 1), ‖harm (l ^ 2 + t) (th x) (ph x)‖ ^ 2 := by
        rw [Finset.mul_sum]
        refine Finset.sum_congr rfl fun t ht => ?_
        rw [Finset.mem_range] at ht
        simp only [B, hsqrt l t ht, norm_mul, mul_pow]
      have h2 : ∑ t ∈ Finset.range (2 * l + 1), ‖r.getD (l ^ 2 + t) 0‖ ^ 2 = ‖r.getD (l ^ 2 + l) 0‖ ^ 2 := by
        apply Finset.sum_eq_single_of_mem l (by simp; omega)
        intro t ht htl
        rw [Finset.mem_range] at ht
        by_contra hne
        have hne' : r.getD (l ^ 2 + t) 0 ≠ 0 := by
          intro h0
          rw [h0] at hne
          simp at hne
        obtain ⟨l', hl'⟩ := hzonal r hrmem _ hne'
        have e1 := hsqrt l t ht
        rw [hl', hsqrt l' l' (by omega)] at e1
        subst e1
        omega
      rw [h1, h2, sum_norm_harm]
      simp only [a, norm_mul, mul_pow, RCLike.norm_conj]
      have hpos : (0 : ℝ) ≤ 4 * Real.pi / (2 * (l : ℝ) + 1) := by positivity
      rw [← Complex.normSq_eq_norm_sq, Complex.normSq_ofReal, Real.mul_self_sqrt hpos]
      have hpi := Real.pi_pos
      field_simp
    simp only [hf]
    have := signal_power s h (L ^ 2) k v hv B
    refine ⟨this.1, ?_⟩
    rw [this.2, hpow, mul_comm]
    exact hrc

/-- hypotheses met: a wavelet of two degrees, at the sample `(1, 2)`: the variance is `2 (1 + 4) = 10`. -/
example : ∃ (Ω : Type) (_ : MeasurableSpace Ω) (P : Measure Ω) (f : Ω → Unit → ℂ), ∫ ω, ‖f ω ()‖ ^ 2 ∂P = 10 := by
  obtain ⟨Ω, m, P, ξ, h⟩ := standardNormals_exist
  obtain ⟨-, h1⟩ := C83_axisymmetric_covariance (normals := fun ω _ k => ξ k ω) 30 h 2 0 2 (by norm_num)
    (fun c _ => synthesis 2 c 1 2) (fun _ : Unit => 1) (fun _ => 2) (fun _ _ => rfl) [[1, 0, 2, 0]] (by simp) (by
      intro r hr i hi
      have hr : r = [1, 0, 2, 0] := by simpa using hr
      subst hr
      match i with
      | 0 => exact ⟨0, rfl⟩
      | 1 => simp at hi
      | 2 => exact ⟨1, rfl⟩
      | 3 => simp at hi
      | i + 4 => simp at hi)
  obtain ⟨f, -, hf⟩ := h1 0 10 (by simp [waveletCovariance]; norm_num)
  exact ⟨Ω, m, P, f, (hf ()).2⟩

private theorem sift_row (κ n : List ℂ) (N : ℕ) (hκ : N ≤ κ.length) (hn : N ≤ n.length) :
    Wavelets.sift κ n (some N) = .ok (List.ofFn fun p : Fin N => κ.getD p 0 * (starRingEnd ℂ) (n.getD p 0)) := by
  unfold Wavelets.sift
  rw [broadcast_of_length_eq _ _ _ (by simp [upTo, hκ, hn])]
  congr 1
  apply List.ext_getElem
  · simp [upTo, hκ, hn]
  · intro i h1 h2
    simp at h2
    have h3 : i < κ.length := by omega
    have h4 : i < n.length := by omega
    simp [upTo, List.getD_eq_getElem?_getD, h3, h4]

/-- C83.  Slepian wavelets: with random Slepian coefficients of variance `v`, the field of the coefficients of a wavelet has mean zero, and its variance at
every sample is the theoretical covariance `v ∑_p |Ψ_p|² |S_p|²`. -/
theorem C83_slepian_covariance {L N : ℕ} {Pix : Type} [Fintype Pix] {e : SlepianEnv L Pix} {E : Fin N → Fin (L ^ 2) → ℂ} (s : ℕ)
    (h : StandardNormals P fun k ω => normals ω s k) (hg : GoodSphere e E) (k : ℕ) (v : ℝ) (hv : 0 ≤ v)
    (psi : List (List ℂ)) (hpsi : ∀ r ∈ psi, N ≤ r.length) :
    ∃ cov : List (Pix → ℝ), slepianWaveletCovariance e.sl e.synth psi v = .ok cov ∧ cov.length = psi.length ∧
      ∀ (j : ℕ) (κ : List ℂ) (c : Pix → ℝ), psi[j]? = some κ → cov[j]? = some c → ∃ f : Ω → Pix → ℂ,
        (∀ ω rng (w : World), w[rng]? = some (s, k) → ∃ fp w' W, randomSignal (normals ω) L rng v w = .ok (fp, w') ∧
          Wavelets.sift κ fp (some N) = .ok W ∧ Transform.slepianInverse e.sl e.synth W = .ok (f ω)) ∧
        ∀ x, ∫ ω, f ω x ∂P = 0 ∧ ∫ ω, ‖f ω x‖ ^ 2 ∂P = c x ∧ c x = v * ∑ p : Fin N, ‖κ.getD p 0‖ ^ 2 * ‖e.synth (E p) x‖ ^ 2 := by
  let s2 : ℕ → Pix → ℂ := fun p => e.synth (if hp : p < N then E ⟨p, hp⟩ else fun _ => 0)
  have hsp : Transform.computeSp e.sl e.synth (List.range e.sl.N) = .ok ((List.range N).map s2) := by
    rw [hg.number, Transform.computeSp_ok e.sl e.synth (fun p => if hp : p < N then E ⟨p, hp⟩ else fun _ => 0)]
    intro p hp
    have hp : p < N := by simpa using hp
    simp only [hp, dite_true]
    exact hg.rows ⟨p, hp⟩
  refine ⟨psi.map fun κ x => (∑ p : Fin N, ‖κ.getD p 0‖ ^ 2 * ‖e.synth (E p) x‖ ^ 2) * v, ?_, by simp, ?_⟩
  · unfold slepianWaveletCovariance
    simp only [hsp, bind, Except.bind]
    refine mapM_eq_ok _ _ _ fun κ hκ => ?_
    rw [hg.number, List.map_map, Function.comp_def, SigmaJ.waveletPower_ok κ N (hpsi κ hκ) (fun p x => ‖s2 p x‖ ^ 2)]
    simp [s2, pure, Except.pure]
  · intro j κ c hκ hc
    have hκl : N ≤ κ.length := hpsi κ (List.mem_of_getElem? hκ)
    simp only [List.getElem?_map, hκ, Option.map_some, Option.some.injEq] at hc
    subst hc
    let n : Ω → List ℂ := fun ω => sig (normals ω s) (L ^ 2) k v
    have hl : ∀ ω, (n ω).length = L ^ 2 := fun ω => by simp [n, sig]
    refine ⟨fun ω x => ∑ p : Fin N, κ.getD p 0 * (starRingEnd ℂ) ((n ω).getD p 0) * e.synth (E p) x, fun ω rng w hw =>
      ⟨n ω, _, _, randomSignal_ok (normals ω) L rng s k v w hw, sift_row κ _ N hκl (by rw [hl]; exact hg.le), ?_⟩, fun x => ?_⟩
    · rw [Transform.slepianInverse_ok e.sl e.synth E hg.number hg.rows]
    · let B : ℕ → ℂ := fun i => if hi : i < N then (starRingEnd ℂ) (κ.getD i 0 * e.synth (E ⟨i, hi⟩) x) else 0
      have hf : ∀ ω, ∑ p : Fin N, κ.getD p 0 * (starRingEnd ℂ) ((n ω).getD p 0) * e.synth (E p) x =
          (starRingEnd ℂ) (∑ i ∈ Finset.range (L ^ 2), (n ω).getD i 0 * B i) := by
        intro ω
        obtain ⟨r, hr⟩ : ∃ r, L ^ 2 = N + r := ⟨L ^ 2 - N, by have := hg.le; omega⟩
        rw [hr, Finset.sum_range_add]
        have h0 : ∑ i ∈ Finset.range r, (n ω).getD (N + i) 0 * B (N + i) = 0 := by
          refine Finset.sum_eq_zero fun i _ => ?_
          simp [B]
        rw [h0, add_zero, Finset.sum_range, map_sum]
        refine Finset.sum_congr rfl fun p _ => ?_
        simp only [B, Fin.is_lt, dite_true, Fin.eta, map_mul, conj_conj]
        ring
      have hB : ∑ i ∈ Finset.range (L ^ 2), ‖B i‖ ^ 2 = ∑ p : Fin N, ‖κ.getD p 0‖ ^ 2 * ‖e.synth (E p) x‖ ^ 2 := by
        obtain ⟨r, hr⟩ : ∃ r, L ^ 2 = N + r := ⟨L ^ 2 - N, by have := hg.le; omega⟩
        have h0 : ∑ i ∈ Finset.range r, ‖B (N + i)‖ ^ 2 = 0 := by
          refine Finset.sum_eq_zero fun i _ => ?_
          simp [B]
        rw [hr, Finset.sum_range_add, h0, add_zero, Finset.sum_range]
        refine Finset.sum_congr rfl fun p _ => ?_
        simp only [B, Fin.is_lt, dite_true, Fin.eta, RCLike.norm_conj, norm_mul, mul_pow]
      have := signal_power s h (L ^ 2) k v hv B
      simp only [hf]
      refine ⟨?_, ?_, mul_comm _ _⟩
      · rw [integral_conj, this.1, map_zero]
      · simp only [RCLike.norm_conj]
        rw [this.2, hB, mul_comm]

/-- hypotheses met for `L = 2`, `N = 2`: eigenvectors `i·e₁`, `i·e₂` on a grid of four samples; the variance at sample 1 is `3·4`. -/
example : ∃ (Ω : Type) (_ : MeasurableSpace Ω) (P : Measure Ω) (f : Ω → Fin (2 ^ 2) → ℂ), ∫ ω, ‖f ω 1‖ ^ 2 ∂P = 12 := by
  obtain ⟨Ω, m, P, ξ, h⟩ := standardNormals_exist
  let E : Fin 2 → Fin (2 ^ 2) → ℂ := fun p i => if (i : ℕ) = p + 1 then I else 0
  have hg : GoodSphere (L := 2) (N := 2) ⟨⟨2, [1, 1 / 2], [E 0, E 1]⟩, fun c x => c x, fun _ => 1, fun f => List.ofFn f⟩ E :=
    ⟨rfl, by norm_num, by intro p; fin_cases p <;> rfl, by
      intro p q
      fin_cases p <;> fin_cases q <;> simp [E, Fin.sum_univ_four],
      ⟨fun i x => if i = x then 1 else 0, by simp⟩, fun _ => rfl⟩
  obtain ⟨cov, h1, h2, h3⟩ := C83_slepian_covariance (normals := fun ω _ k => ξ k ω) 30 h hg 0 3 (by norm_num) [[2, 1, 0, 0]] (by simp)
  obtain ⟨f, -, hf⟩ := h3 0 _ (cov[0]'(by rw [h2]; simp)) rfl (List.getElem?_eq_getElem _)
  refine ⟨Ω, m, P, f, ?_⟩
  rw [(hf 1).2.1, (hf 1).2.2]
  simp [E, Fin.sum_univ_two]
  norm_num

end Sleplet.Props
