import Verif.Props.BestConcentrated
import Verif.Props.Convolution
import Verif.Props.SlepianClasses
import Verif.Props.SlepianWavelets
import Verif.Spec.SlepianField

/-!
C92: Slepian translation, the Slepian Dirac delta and Slepian wavelet coefficients are operations on fields, on the sphere and in the
region.
-/
namespace Sleplet.Props

open Complex Sleplet.Spec Sleplet.Gaunt Functions

variable {L : ℕ} {Pix : Type} {S : Fin (L ^ 2) → Fin (L ^ 2) → ℂ} {ev : Fin (L ^ 2) → ℝ} {region : (ℝ → ℝ → ℂ) → ℝ}

/-- What is assumed of the Slepian object and of `ssht.inverse`: the eigenvectors solve the concentration problem of the region (C88), there are
enough of them, and the synthesis evaluates fields at the samples. -/
structure SlepianOn (region : (ℝ → ℝ → ℂ) → ℝ) (S : Fin (L ^ 2) → Fin (L ^ 2) → ℂ) (ev : Fin (L ^ 2) → ℝ) (e : SlepianEnv L Pix)
    (point : Pix → ℝ × ℝ) : Prop where
  best : BestConcentrated (bandlimited L) sphereInner region (fun p => synthesis L (List.ofFn (S p))) ev
  le : e.sl.N ≤ L ^ 2
  rows : ∀ p : Fin (L ^ 2), p.val < e.sl.N → e.sl.evecs[(p : ℕ)]? = some (S p)
  samples : ∀ c x, e.synth c x = synthesis L (List.ofFn c) (point x).1 (point x).2

private theorem field_full (S : Fin (L ^ 2) → Fin (L ^ 2) → ℂ) (N : ℕ) (c : ℕ → ℂ) :
    slepianField S N c = fun th ph => ∑ p : Fin (L ^ 2), (if p.val < N then c p else 0) * synthesis L (List.ofFn (S p)) th ph := by
  funext th ph
  unfold slepianField
  rw [Finset.sum_filter]
  exact Finset.sum_congr rfl fun p _ => by split_ifs <;> simp

private theorem field_mem (S : Fin (L ^ 2) → Fin (L ^ 2) → ℂ) (N : ℕ) (c : ℕ → ℂ) : slepianField S N c ∈ bandlimited L := by
  refine ⟨List.ofFn fun i => ∑ p : Fin (L ^ 2), (if p.val < N then c p else 0) * S p i, ?_⟩
  rw [field_full]
  funext th ph
  simp only [synthesis_eq, Finset.mul_sum]
  rw [Finset.sum_comm]
  refine Finset.sum_congr rfl fun i _ => ?_
  simp only [List.getD_eq_getElem?_getD, List.getElem?_ofFn, i.2, dif_pos, Option.getD_some, Finset.sum_mul]
  exact Finset.sum_congr rfl fun p _ => by ring

private theorem rows_orth (hb : BestConcentrated (bandlimited L) sphereInner region (fun p => synthesis L (List.ofFn (S p))) ev) :
    OrthonormalRows S := by
  intro p q
  have := hb.orthonormal p q
  rw [inner_synthesis] at this
  simpa [List.getD_eq_getElem?_getD] using this

private theorem inner_fields (hS : OrthonormalRows S) (N : ℕ) (a b : ℕ → ℂ) :
    sphereInner (slepianField S N a) (slepianField S N b) = ∑ p : Fin (L ^ 2) with p.val < N, a p * (starRingEnd ℂ) (b p) := by
  rw [field_full, field_full, inner_rows S hS, Finset.sum_filter]
  exact Finset.sum_congr rfl fun p _ => by split_ifs <;> simp

private theorem component (hS : OrthonormalRows S) (N : ℕ) (c : ℕ → ℂ) (q : Fin (L ^ 2)) :
    sphereInner (slepianField S N c) (synthesis L (List.ofFn (S q))) = if q.val < N then c q else 0 := by
  have h1 : synthesis L (List.ofFn (S q)) = fun th ph => ∑ p : Fin (L ^ 2), (if p = q then 1 else 0) * synthesis L (List.ofFn (S p)) th ph := by
    funext th ph
    simp
  rw [h1, field_full, inner_rows S hS]
  simp

private theorem component' (hS : OrthonormalRows S) (N : ℕ) (b : ℕ → ℂ) (f : ℝ → ℝ → ℂ) (hf : f ∈ bandlimited L) :
    sphereInner f (slepianField S N b) = ∑ p : Fin (L ^ 2) with p.val < N, sphereInner f (synthesis L (List.ofFn (S p))) * (starRingEnd ℂ) (b p) := by
  obtain ⟨c, rfl⟩ := hf
  have h0 : slepianField S N b = synthesis L (List.ofFn fun i => ∑ p : Fin (L ^ 2), (if p.val < N then b p else 0) * S p i) := by
    rw [field_full]
    funext th ph
    simp only [synthesis_eq, Finset.mul_sum]
    rw [Finset.sum_comm]
    refine Finset.sum_congr rfl fun i _ => ?_
    simp only [List.getD_eq_getElem?_getD, List.getElem?_ofFn, i.2, dif_pos, Option.getD_some, Finset.sum_mul]
    exact Finset.sum_congr rfl fun p _ => by ring
  rw [h0, inner_synthesis, Finset.sum_filter]
  simp only [inner_synthesis, List.getD_eq_getElem?_getD, List.getElem?_ofFn, Fin.is_lt, dif_pos, Option.getD_some, Fin.eta, map_sum, map_mul,
    Finset.mul_sum]
  rw [Finset.sum_comm]
  refine Finset.sum_congr rfl fun p _ => ?_
  split_ifs
  · rw [Finset.sum_mul]
    exact Finset.sum_congr rfl fun i _ => by ring
  · simp

/-- the inverse transform evaluates the field of the coefficients at the samples. -/
private theorem inverse_field {e : SlepianEnv L Pix} {point : Pix → ℝ × ℝ} (h : SlepianOn region S ev e point) (c : List ℂ) (hc : e.sl.N ≤ c.length) :
    Transform.slepianInverse e.sl e.synth c = .ok fun x => slepianField S e.sl.N (fun p => c.getD p 0) (point x).1 (point x).2 := by
  have h1 : Transform.slepianInverse e.sl e.synth c =
      Transform.slepianInverse e.sl e.synth (List.ofFn fun p : Fin e.sl.N => c.getD p 0) := by
    have : c.take e.sl.N = (List.ofFn fun p : Fin e.sl.N => c.getD p 0).take e.sl.N := by
      apply List.ext_getElem
      · simp [hc]
      · intro i h1 h2
        have : i < c.length := by simp at h1; omega
        simp [List.getD_eq_getElem?_getD, this]
    unfold Transform.slepianInverse
    rw [this]
  have hle := h.le
  rw [h1, Transform.slepianInverse_ok e.sl e.synth (fun p : Fin e.sl.N => S ⟨p, by omega⟩) rfl fun p => h.rows ⟨p, by omega⟩ p.2]
  congr 1
  funext x
  unfold slepianField
  symm
  refine Finset.sum_bij' (i := fun p hp => (⟨p.val, (Finset.mem_filter.1 hp).2⟩ : Fin e.sl.N)) (j := fun p _ => ⟨p.val, by omega⟩) ?_ ?_ ?_ ?_ ?_
  · intros; exact Finset.mem_univ _
  · intro p _; simp
  · intros; rfl
  · intros; rfl
  · intro p hp
    rw [h.samples]

variable {e : SlepianEnv L Pix} {point : Pix → ℝ × ℝ}

private theorem hasRows (h : SlepianOn region S ev e point) : HasRows e.sl := by
  refine ⟨h.le, ?_⟩
  by_contra hn
  have hle := h.le
  have := h.rows ⟨e.sl.evecs.length, by omega⟩ (by simpa using hn)
  simp at this

private theorem helper (h : SlepianOn region S ev e point) (x : Pix) :
    ∃ g, fpHelper e x = .ok g ∧ g.length = L ^ 2 ∧ ∀ p : Fin (L ^ 2), g.getD p 0 =
      if p.val < e.sl.N then (starRingEnd ℂ) (synthesis L (List.ofFn (S p)) (point x).1 (point x).2) else 0 := by
  obtain ⟨g, h1, h2, h3⟩ := fpHelper_ok e (hasRows h) x
  refine ⟨g, h1, h2, fun p => ?_⟩
  rw [h3 p]
  split_ifs with hp
  · have := h.rows p hp
    rw [List.getElem?_eq_getElem (lt_of_lt_of_le hp (hasRows h).2), Option.some.injEq] at this
    rw [this, h.samples]
  · rfl

/-- C92. Translating a Slepian function to a sample multiplies each Slepian function by its value there. -/
theorem C92_translation (h : SlepianOn region S ev e point) (o : Obj) (hl : e.sl.N ≤ o.coefficients.length)
    (hn : contains "dirac_delta" o.name = false) (x : Pix) :
    ∃ t, translate o (fpHelper e x) (some e.sl.N) = (.ok t, false) ∧ t.length = e.sl.N ∧
      Transform.slepianInverse e.sl e.synth t = .ok fun y =>
        slepianTranslated S e.sl.N (fun p => o.coefficients.getD p 0) (point x).1 (point x).2 (point y).1 (point y).2 := by
  obtain ⟨g, h1, h2, h3⟩ := helper h x
  have hle := h.le
  obtain ⟨t, h4, h5, h6⟩ := (C25_value o.coefficients g e.sl.N).2 hl (by omega)
  refine ⟨t, ?_, h5, ?_⟩
  · simp only [translate, h1, hn, Bool.false_eq_true, if_false, convolve, h4]
  · rw [inverse_field h t h5.ge]
    congr 1
    funext y
    unfold slepianField slepianTranslated
    refine Finset.sum_congr rfl fun p hp => ?_
    dsimp only
    rw [h6 p (Finset.mem_filter.1 hp).2, h3 p, if_pos (Finset.mem_filter.1 hp).2, conj_conj]
    ring

/-- C92. The Slepian Dirac delta, translated to a sample (or made at it).  Integrating a field of the bandlimit against it gives the value at the sample of
the field's part in the first `N` Slepian functions, so the value of the field if it has no other part; no field of that kind with the same energy has a
greater modulus there; its energy is its value there, which is real, and its energy in the region is `∑ μ_p |S_p(x)|²`; and convolving with it translates. -/
theorem C92_dirac_delta (h : SlepianOn region S ev e point) (o : Obj) (hn : contains "dirac_delta" o.name = true) (x : Pix) (shannon : Option ℤ) :
    ∃ (t : List ℂ) (δ : ℝ → ℝ → ℂ), translate o (fpHelper e x) shannon = (.ok t, o.reality) ∧ t.length = L ^ 2 ∧ δ ∈ bandlimited L ∧
      Transform.slepianInverse e.sl e.synth t = .ok (fun y => δ (point y).1 (point y).2) ∧
      (∀ f ∈ bandlimited L, sphereInner f δ =
        slepianField S e.sl.N (fun p => if hp : p < L ^ 2 then sphereInner f (synthesis L (List.ofFn (S ⟨p, hp⟩))) else 0) (point x).1 (point x).2) ∧
      (∀ c, sphereInner (slepianField S e.sl.N c) δ = slepianField S e.sl.N c (point x).1 (point x).2) ∧
      (∀ c, ‖slepianField S e.sl.N c (point x).1 (point x).2‖ ^ 2 * (sphereInner δ δ).re ≤
        ‖δ (point x).1 (point x).2‖ ^ 2 * (sphereInner (slepianField S e.sl.N c) (slepianField S e.sl.N c)).re) ∧
      sphereInner δ δ = δ (point x).1 (point x).2 ∧
      δ (point x).1 (point x).2 = ((∑ p : Fin (L ^ 2) with p.val < e.sl.N, ‖synthesis L (List.ofFn (S p)) (point x).1 (point x).2‖ ^ 2 : ℝ) : ℂ) ∧
      region δ = ∑ p : Fin (L ^ 2) with p.val < e.sl.N, ev p * ‖synthesis L (List.ofFn (S p)) (point x).1 (point x).2‖ ^ 2 ∧
      ∀ f : List ℂ, e.sl.N ≤ f.length → ∃ g, convolve f t (some e.sl.N) = (.ok g, false) ∧ g.length = e.sl.N ∧
        slepianField S e.sl.N (fun p => g.getD p 0) = slepianTranslated S e.sl.N (fun p => f.getD p 0) (point x).1 (point x).2 := by
  obtain ⟨g, h1, h2, h3⟩ := helper h x
  have hle := h.le
  have hS := rows_orth h.best
  set s : Fin (L ^ 2) → ℂ := fun p => synthesis L (List.ofFn (S p)) (point x).1 (point x).2 with hs
  set δ := slepianField S e.sl.N fun p => g.getD p 0 with hδ
  have hg : ∀ p ∈ Finset.univ.filter fun p : Fin (L ^ 2) => p.val < e.sl.N, g.getD p 0 = (starRingEnd ℂ) (s p) := fun p hp => by
    rw [h3 p, if_pos (Finset.mem_filter.1 hp).2]
  have hval : ∀ c, sphereInner (slepianField S e.sl.N c) δ = slepianField S e.sl.N c (point x).1 (point x).2 := by
    intro c
    rw [inner_fields hS]
    exact Finset.sum_congr rfl fun p hp => by rw [hg p hp, conj_conj]
  have hpow : δ (point x).1 (point x).2 = ((∑ p : Fin (L ^ 2) with p.val < e.sl.N, ‖s p‖ ^ 2 : ℝ) : ℂ) := by
    rw [hδ]
    unfold slepianField
    rw [ofReal_sum]
    refine Finset.sum_congr rfl fun p hp => ?_
    dsimp only
    rw [hg p hp, mul_comm, mul_conj, normSq_eq_norm_sq]
  refine ⟨g, δ, by simp only [translate, h1, hn, if_true], h2, field_mem _ _ _, inverse_field h g (by omega), ?_, hval, ?_, hval _, hpow, ?_, ?_⟩
  · intro f hf
    rw [hδ, component' hS _ _ f hf]
    unfold slepianField
    refine Finset.sum_congr rfl fun p hp => ?_
    rw [hg p hp, conj_conj]
    simp [hs]
  · intro c
    rw [hval (fun p => g.getD p 0), ← hδ, inner_fields hS]
    have h4 : slepianField S e.sl.N c (point x).1 (point x).2 = ∑ p : Fin (L ^ 2) with p.val < e.sl.N, c p * s p := rfl
    have h5 : ‖slepianField S e.sl.N c (point x).1 (point x).2‖ ^ 2 ≤
        (∑ p : Fin (L ^ 2) with p.val < e.sl.N, ‖c p‖ ^ 2) * ∑ p : Fin (L ^ 2) with p.val < e.sl.N, ‖s p‖ ^ 2 := by
      rw [h4]
      calc ‖∑ p : Fin (L ^ 2) with p.val < e.sl.N, c p * s p‖ ^ 2 ≤ (∑ p : Fin (L ^ 2) with p.val < e.sl.N, ‖c p‖ * ‖s p‖) ^ 2 := by
            gcongr
            exact (norm_sum_le _ _).trans (Finset.sum_le_sum fun p _ => (norm_mul _ _).le)
        _ ≤ _ := Finset.sum_mul_sq_le_sq_mul_sq _ _ _
    have h6 : (∑ p : Fin (L ^ 2) with p.val < e.sl.N, c p * (starRingEnd ℂ) (c p)) = ((∑ p : Fin (L ^ 2) with p.val < e.sl.N, ‖c p‖ ^ 2 : ℝ) : ℂ) := by
      rw [ofReal_sum]
      exact Finset.sum_congr rfl fun p _ => by rw [mul_conj, normSq_eq_norm_sq]
    set A := ∑ p : Fin (L ^ 2) with p.val < e.sl.N, ‖s p‖ ^ 2 with hA
    have hA0 : 0 ≤ A := Finset.sum_nonneg fun p _ => by positivity
    rw [h6, hpow, ofReal_re, ofReal_re, norm_real, Real.norm_of_nonneg hA0]
    nlinarith
  · rw [h.best.energyIn δ (field_mem _ _ _), Finset.sum_filter]
    refine Finset.sum_congr rfl fun p _ => ?_
    rw [hδ, component hS]
    split_ifs with hp
    · rw [hg p (by simpa using hp), RCLike.norm_conj]
    · simp
  · intro f hf
    obtain ⟨t, h4, h5, h6⟩ := (C25_value f g e.sl.N).2 hf (by omega)
    refine ⟨t, by simp only [convolve, h4], h5, ?_⟩
    funext th ph
    unfold slepianField slepianTranslated
    refine Finset.sum_congr rfl fun p hp => ?_
    dsimp only
    rw [h6 p (Finset.mem_filter.1 hp).2, hg p hp, conj_conj]
    ring

open Classical in
/-- C92. Slepian wavelet coefficients.  The coefficients of a signal are those of the wavelets that see it, in order; their field at a point is the integral of
the wavelet translated to that point against the signal; and for wavelets whose squares add up to one their energies add up to the energy of the (first `N`
coefficients of the) signal, on the whole sphere and in the region. -/
theorem C92_wavelet_coefficients (h : SlepianOn region S ev e point) (f : List ℂ) (hf : e.sl.N ≤ f.length) (wavelets : NumPy.Array2 ℂ) (hw : wavelets.WF)
    (hc : e.sl.N ≤ wavelets.cols) :
    ∃ w, Wavelets.slepianForward f wavelets e.sl.N = .ok w ∧
      w.rows.length = (wavelets.rows.filter fun psi => decide (Seen f e.sl.N psi)).length ∧
      (∀ (j : ℕ) (psi c : List ℂ), (wavelets.rows.filter fun psi => decide (Seen f e.sl.N psi))[j]? = some psi → w.rows[j]? = some c → c.length = e.sl.N ∧
        Transform.slepianInverse e.sl e.synth c = .ok (fun x => slepianField S e.sl.N (fun p => c.getD p 0) (point x).1 (point x).2) ∧
        ∀ th ph, slepianField S e.sl.N (fun p => c.getD p 0) th ph =
          sphereInner (slepianTranslated S e.sl.N (fun p => psi.getD p 0) th ph) (slepianField S e.sl.N fun p => f.getD p 0)) ∧
      ((∀ p < e.sl.N, (wavelets.rows.map fun psi => ‖psi.getD p 0‖ ^ 2).sum = 1) →
        (w.rows.map fun c => sphereInner (slepianField S e.sl.N fun p => c.getD p 0) (slepianField S e.sl.N fun p => c.getD p 0)).sum =
          sphereInner (slepianField S e.sl.N fun p => f.getD p 0) (slepianField S e.sl.N fun p => f.getD p 0) ∧
        (w.rows.map fun c => region (slepianField S e.sl.N fun p => c.getD p 0)).sum = region (slepianField S e.sl.N fun p => f.getD p 0)) := by
  have hS := rows_orth h.best
  set N := e.sl.N with hN
  set kept := wavelets.rows.filter fun psi => decide (Seen f N psi) with hkept
  have hrow : ∀ psi, ∀ p < N, (waveletRow f N psi).getD p 0 = psi.getD p 0 * (starRingEnd ℂ) (f.getD p 0) := by
    intro psi p hp
    simp [waveletRow, List.getD_eq_getElem?_getD, hp]
  refine ⟨_, slepianForward_eq f wavelets hw N hf hc, by simp [hkept], ?_, ?_⟩
  · intro j psi c hj hcj
    rw [List.getElem?_map, hj, Option.map_some, Option.some.injEq] at hcj
    subst hcj
    refine ⟨by simp [waveletRow], inverse_field h _ (by simp [waveletRow, hN]), fun th ph => ?_⟩
    have h1 : slepianTranslated S N (fun p => psi.getD p 0) th ph =
        slepianField S N fun p => psi.getD p 0 * if hp : p < L ^ 2 then synthesis L (List.ofFn (S ⟨p, hp⟩)) th ph else 0 := by
      funext a b
      unfold slepianTranslated slepianField
      refine Finset.sum_congr rfl fun p _ => ?_
      simp only [p.2, dif_pos, Fin.eta]
      ring
    rw [h1, inner_fields hS]
    unfold slepianField
    refine Finset.sum_congr rfl fun p hp => ?_
    dsimp only
    rw [hrow psi p (Finset.mem_filter.1 hp).2]
    simp only [p.2, dif_pos, Fin.eta]
    ring
  · intro hadm
    -- sums over the wavelets that see the signal, with weights
    have key : ∀ d : Fin (L ^ 2) → ℝ, (kept.map fun psi => ∑ p : Fin (L ^ 2) with p.val < N, d p * ‖(waveletRow f N psi).getD p 0‖ ^ 2).sum =
        ∑ p : Fin (L ^ 2) with p.val < N, d p * ‖f.getD p 0‖ ^ 2 := by
      intro d
      have h1 : ∀ rows : List (List ℂ), ((rows.filter fun psi => decide (Seen f N psi)).map fun psi =>
          ∑ p : Fin (L ^ 2) with p.val < N, d p * ‖(waveletRow f N psi).getD p 0‖ ^ 2).sum =
          ∑ p : Fin (L ^ 2) with p.val < N, d p * (‖f.getD p 0‖ ^ 2 * (rows.map fun psi => ‖psi.getD p 0‖ ^ 2).sum) := by
        intro rows
        induction rows with
        | nil => simp
        | cons psi rows ih =>
          have h2 : ∑ p : Fin (L ^ 2) with p.val < N, d p * ‖(waveletRow f N psi).getD p 0‖ ^ 2 =
              ∑ p : Fin (L ^ 2) with p.val < N, d p * (‖f.getD p 0‖ ^ 2 * ‖psi.getD p 0‖ ^ 2) := by
            refine Finset.sum_congr rfl fun p hp => ?_
            rw [hrow psi p (Finset.mem_filter.1 hp).2, norm_mul, RCLike.norm_conj]
            ring
          simp only [List.map_cons, List.sum_cons, mul_add, Finset.sum_add_distrib]
          rw [← ih, ← h2]
          by_cases hs : Seen f N psi
          · rw [List.filter_cons_of_pos (by simpa using hs), List.map_cons, List.sum_cons]
          · rw [List.filter_cons_of_neg (by simpa using hs)]
            have : ∑ p : Fin (L ^ 2) with p.val < N, d p * ‖(waveletRow f N psi).getD p 0‖ ^ 2 = 0 := by
              refine Finset.sum_eq_zero fun p hp => ?_
              have hz : psi.getD p 0 * f.getD p 0 = 0 := by
                by_contra hne
                exact hs ⟨p, (Finset.mem_filter.1 hp).2, hne⟩
              rw [hrow psi p (Finset.mem_filter.1 hp).2, norm_mul, RCLike.norm_conj, ← norm_mul, hz]
              simp
            rw [this, zero_add]
      rw [hkept, h1]
      refine Finset.sum_congr rfl fun p hp => ?_
      rw [hadm p (Finset.mem_filter.1 hp).2, mul_one]
    have hself : ∀ c : ℕ → ℂ, sphereInner (slepianField S N c) (slepianField S N c) = ((∑ p : Fin (L ^ 2) with p.val < N, 1 * ‖c p‖ ^ 2 : ℝ) : ℂ) := by
      intro c
      rw [inner_fields hS, ofReal_sum]
      exact Finset.sum_congr rfl fun p _ => by rw [mul_conj, normSq_eq_norm_sq, one_mul]
    have hreg : ∀ c : ℕ → ℂ, region (slepianField S N c) = ∑ p : Fin (L ^ 2) with p.val < N, ev p * ‖c p‖ ^ 2 := by
      intro c
      rw [h.best.energyIn _ (field_mem _ _ _), Finset.sum_filter]
      refine Finset.sum_congr rfl fun p _ => ?_
      rw [component hS]
      split_ifs <;> simp
    constructor
    · simp only [hself, List.map_map]
      rw [← key fun _ => 1, ← ofRealHom_eq_coe, map_list_sum, List.map_map]
      rfl
    · simp only [hreg, List.map_map]
      rw [← key ev]
      rfl

/-- the hypotheses are met for every polar cap, with three Slepian functions of four, together with two wavelets of which only one sees the signal. -/
example (gap : Bool) (t : ℝ) (ht0 : 0 ≤ t) (htpi : t ≤ Real.pi) (point : Fin 5 → ℝ × ℝ) :
    ∃ (S : Fin (2 ^ 2) → Fin (2 ^ 2) → ℂ) (ev : Fin (2 ^ 2) → ℝ) (e : SlepianEnv 2 (Fin 5)) (wavelets : NumPy.Array2 ℂ) (f : List ℂ),
    SlepianOn (fun f => (capIntegral gap t fun th ph => f th ph * (starRingEnd ℂ) (f th ph)).re) S ev e point ∧ e.sl.N = 3 ∧ f.length = 3 ∧
    wavelets.WF ∧ wavelets.cols = 3 ∧ (∀ p < 3, (wavelets.rows.map fun psi => ‖psi.getD p 0‖ ^ 2).sum = 1) ∧
    ¬ Seen f 3 (wavelets.rows.getD 0 []) ∧ Seen f 3 (wavelets.rows.getD 1 []) := by
  obtain ⟨plm, M, sol, r, h1, h2, h3, h4, h5⟩ := C50_polar_runs_exist 2 gap t
  obtain ⟨e, v, o, -, -, -, hb⟩ := C88_polar 2 gap t ht0 htpi plm h1 h2 M h3 sol h4 r h5
  let S : Fin (2 ^ 2) → Fin (2 ^ 2) → ℂ := fun p i => (v.getD p []).getD i 0
  have hsyn : ∀ p : Fin (2 ^ 2), synthesis 2 (v.getD p []) = synthesis 2 (List.ofFn (S p)) := by
    intro p
    funext th ph
    rw [Gaunt.synthesis_eq, Gaunt.synthesis_eq]
    refine Finset.sum_congr rfl fun i _ => ?_
    simp only [S, List.getD_eq_getElem?_getD, List.getElem?_ofFn, i.2, dif_pos, Option.getD_some]
  simp only [hsyn] at hb
  refine ⟨S, fun p => e.getD p 0, ⟨⟨3, [], List.ofFn S⟩, fun c x => synthesis 2 (List.ofFn c) (point x).1 (point x).2, fun _ => 1, fun _ => []⟩,
    ⟨3, [[3 / 5, 0, 1], [4 / 5, 1, 0]]⟩, [0, 2, 0], ⟨hb, by norm_num, fun p _ => ?_, fun _ _ => rfl⟩, rfl, rfl, ?_, rfl, ?_, ?_, ?_⟩
  · change (List.ofFn S)[(p : ℕ)]? = _
    rw [List.getElem?_ofFn, dif_pos p.2]
  · intro r hr
    fin_cases hr <;> rfl
  · intro p hp
    interval_cases p <;> norm_num
  · rintro ⟨p, hp, hne⟩
    interval_cases p <;> simp at hne
  · exact ⟨1, by norm_num, by norm_num⟩

end Sleplet.Props
