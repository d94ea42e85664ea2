import Mathlib.LinearAlgebra.FiniteDimensional.Lemmas
import Mathlib.LinearAlgebra.Dimension.Constructions
import Verif.Props.BestConcentrated

/-!
C88, continued: no other `N` numbers allow a better reconstruction in the region.
-/
namespace Sleplet.Props

open Complex Sleplet.Spec Sleplet.Gaunt

private theorem synthesis_ofFn {L : ℕ} (c : Fin (L ^ 2) → ℂ) :
    synthesis L (List.ofFn c) = fun th ph => ∑ i : Fin (L ^ 2), c i * harm i th ph := by
  funext th ph
  rw [Gaunt.synthesis_eq]
  refine Finset.sum_congr rfl fun i _ => ?_
  simp only [List.getD_eq_getElem?_getD, List.getElem?_ofFn, i.2, dif_pos, Option.getD_some]

/-- C88.  Let the Slepian functions solve the concentration problem (as C88 proves), and energies of signals in the region be
not negative.
(1) However signals of the bandlimit are described by `N` numbers, linear in the signal, and whatever is done with these numbers to
get a signal back, some signal of energy one is reconstructed with an error of at least `e_N` of energy in the region.
(2) With the `N` Slepian coefficients of the program no signal of energy one is reconstructed with a greater error than that. -/
theorem C88_optimal {L : ℕ} {Pix : Type} [Fintype Pix] (region : (ℝ → ℝ → ℂ) → ℝ) (hpos : ∀ f ∈ bandlimited L, 0 ≤ region f)
    (S : Fin (L ^ 2) → Fin (L ^ 2) → ℂ) (e : Fin (L ^ 2) → ℝ)
    (hbest : BestConcentrated (bandlimited L) sphereInner region (fun p => synthesis L (List.ofFn (S p))) e)
    (sl : Transform.Slepian (L ^ 2)) (hN : sl.N < L ^ 2) (hev : ∀ p : Fin (L ^ 2), p.val < sl.N → sl.evecs[(p : ℕ)]? = some (S p))
    (point : Pix → ℝ × ℝ) (synth : (Fin (L ^ 2) → ℂ) → Pix → ℂ)
    (hY : ∀ c x, synth c x = synthesis L (List.ofFn c) (point x).1 (point x).2) (w : Pix → ℝ) :
    (∀ (describe : (Fin (L ^ 2) → ℂ) →ₗ[ℂ] (Fin sl.N → ℂ)) (rebuild : (Fin sl.N → ℂ) → Fin (L ^ 2) → ℂ),
      ∃ flm : Fin (L ^ 2) → ℂ, (sphereInner (synthesis L (List.ofFn flm)) (synthesis L (List.ofFn flm))).re = 1 ∧
        e ⟨sl.N, hN⟩ ≤ region (synthesis L (List.ofFn flm) - synthesis L (List.ofFn (rebuild (describe flm))))) ∧
    ∀ flm : Fin (L ^ 2) → ℂ, (sphereInner (synthesis L (List.ofFn flm)) (synthesis L (List.ofFn flm))).re = 1 →
      ∃ (cs : List ℂ) (g : ℝ → ℝ → ℂ), g ∈ bandlimited L ∧ cs.length = sl.N ∧
        Transform.slepianForward sl synth w { flm := some flm } none = .ok cs ∧
        Transform.slepianInverse sl synth cs = .ok (fun x => g (point x).1 (point x).2) ∧
        region (synthesis L (List.ofFn flm) - g) ≤ e ⟨sl.N, hN⟩ := by
  have hinner : ∀ a b : Fin (L ^ 2) → ℂ, sphereInner (synthesis L (List.ofFn a)) (synthesis L (List.ofFn b)) =
      ∑ i, a i * (starRingEnd ℂ) (b i) := by
    intro a b
    rw [synthesis_ofFn, synthesis_ofFn, inner_sums]
  have hS : ∀ p q, ∑ i, S p i * (starRingEnd ℂ) (S q i) = if p = q then (1 : ℂ) else 0 := by
    intro p q
    rw [← hinner]
    exact hbest.orthonormal p q
  have he : ∀ p, 0 ≤ e p := fun p => by rw [← hbest.attained p]; exact hpos _ (hbest.mem p)
  have hdec : ∀ p q, p ≤ q → e q ≤ e p := by
    intro p q hpq
    rcases eq_or_lt_of_le hpq with rfl | hlt
    · exact le_rfl
    · have h1 := hbest.best p _ (hbest.mem q) fun r hr => by
        rw [hbest.orthonormal, if_neg]
        rintro rfl
        exact absurd (hr.trans hlt) (lt_irrefl _)
      rw [hbest.attained, hbest.orthonormal, if_pos rfl] at h1
      simpa using h1
  -- components along the Slepian functions
  let comp : Fin (L ^ 2) → (Fin (L ^ 2) → ℂ) → ℂ := fun p c => ∑ i, c i * (starRingEnd ℂ) (S p i)
  have hreg : ∀ c, region (synthesis L (List.ofFn c)) = ∑ p, e p * ‖comp p c‖ ^ 2 := by
    intro c
    rw [hbest.energyIn _ ⟨_, rfl⟩]
    refine Finset.sum_congr rfl fun p _ => ?_
    rw [hinner]
  have hen : ∀ c, (sphereInner (synthesis L (List.ofFn c)) (synthesis L (List.ofFn c))).re = ∑ p, ‖comp p c‖ ^ 2 := by
    intro c
    have := hbest.energy _ ⟨List.ofFn c, rfl⟩
    rw [RCLike.re_eq_complex_re] at this
    rw [this]
    refine Finset.sum_congr rfl fun p _ => ?_
    rw [hinner]
  have hsub : ∀ a b : Fin (L ^ 2) → ℂ, synthesis L (List.ofFn a) - synthesis L (List.ofFn b) = synthesis L (List.ofFn (a - b)) := by
    intro a b
    funext th ph
    simp only [Pi.sub_apply, synthesis_ofFn, ← Finset.sum_sub_distrib, sub_mul]
  constructor
  · intro describe rebuild
    -- a combination of the first `N + 1` Slepian functions which the numbers do not see
    let mix : (Fin (sl.N + 1) → ℂ) →ₗ[ℂ] (Fin (L ^ 2) → ℂ) :=
      { toFun := fun a i => ∑ p : Fin (sl.N + 1), a p * S ⟨p, by omega⟩ i
        map_add' := fun a b => by funext i; simp [add_mul, Finset.sum_add_distrib]
        map_smul' := fun c a => by funext i; simp [Finset.mul_sum, mul_assoc] }
    have hker : LinearMap.ker (describe ∘ₗ mix) ≠ ⊥ := LinearMap.ker_ne_bot_of_finrank_lt (by simp)
    obtain ⟨a, ha, ha0⟩ := (Submodule.ne_bot_iff _).1 hker
    rw [LinearMap.mem_ker, LinearMap.comp_apply] at ha
    have hcomp : ∀ (b : Fin (sl.N + 1) → ℂ) (q : Fin (L ^ 2)), comp q (mix b) = if h : q.val < sl.N + 1 then b ⟨q, h⟩ else 0 := by
      intro b q
      change ∑ i, (∑ p : Fin (sl.N + 1), b p * S ⟨p, by omega⟩ i) * (starRingEnd ℂ) (S q i) = _
      simp only [Finset.sum_mul]
      rw [Finset.sum_comm]
      simp only [mul_assoc, ← Finset.mul_sum, hS, Fin.ext_iff]
      split
      · rename_i h
        rw [Finset.sum_eq_single ⟨q, h⟩]
        · simp
        · intro p _ hp
          rw [if_neg, mul_zero]
          intro hpq
          exact hp (Fin.ext hpq)
        · simp
      · rename_i h
        refine Finset.sum_eq_zero fun p _ => ?_
        rw [if_neg, mul_zero]
        omega
    have hnorm : ∀ b : Fin (sl.N + 1) → ℂ, ∑ q, ‖comp q (mix b)‖ ^ 2 = ∑ p, ‖b p‖ ^ 2 := by
      intro b
      symm
      have h1 : ∀ q : Fin (L ^ 2), q ∉ Finset.univ.image (fun p : Fin (sl.N + 1) => (⟨p, by omega⟩ : Fin (L ^ 2))) →
          ‖comp q (mix b)‖ ^ 2 = 0 := by
        intro q hq
        rw [hcomp, dif_neg, norm_zero, zero_pow two_ne_zero]
        intro h
        exact hq (Finset.mem_image.2 ⟨⟨q, h⟩, Finset.mem_univ _, rfl⟩)
      rw [← Finset.sum_subset (Finset.subset_univ (Finset.univ.image (fun p : Fin (sl.N + 1) => (⟨p, by omega⟩ : Fin (L ^ 2)))))
        (fun q _ hq => h1 q hq), Finset.sum_image]
      · refine Finset.sum_congr rfl fun p _ => ?_
        rw [hcomp, dif_pos p.2]
      · intro p _ q _ h
        exact Fin.ext (by simpa using h)
    -- of energy one
    set r : ℝ := ∑ p, ‖a p‖ ^ 2 with hr
    have hrpos : 0 < r := by
      obtain ⟨p, hp⟩ := Function.ne_iff.1 ha0
      have h2 : 0 < ‖a p‖ ^ 2 := by have : a p ≠ 0 := hp; positivity
      exact lt_of_lt_of_le h2 (Finset.single_le_sum (f := fun p => ‖a p‖ ^ 2) (fun q _ => sq_nonneg _) (Finset.mem_univ p))
    let u : Fin (sl.N + 1) → ℂ := ((Real.sqrt r : ℂ)⁻¹) • a
    have hu : ∑ p, ‖u p‖ ^ 2 = 1 := by
      have : ∀ p, ‖u p‖ ^ 2 = r⁻¹ * ‖a p‖ ^ 2 := by
        intro p
        simp only [u, Pi.smul_apply, smul_eq_mul, norm_mul, norm_inv, Complex.norm_real, Real.norm_eq_abs, mul_pow, inv_pow, sq_abs,
          Real.sq_sqrt hrpos.le]
      simp only [this, ← Finset.mul_sum]
      exact inv_mul_cancel₀ hrpos.ne'
    have hdu : describe (mix u) = 0 := by
      simp only [u, map_smul, ha, smul_zero]
    set f := mix u with hf
    set d := rebuild 0 with hd
    have hfe : e ⟨sl.N, hN⟩ ≤ ∑ p, e p * ‖comp p f‖ ^ 2 := by
      calc e ⟨sl.N, hN⟩ = ∑ p, e ⟨sl.N, hN⟩ * ‖comp p f‖ ^ 2 := by rw [← Finset.mul_sum, hnorm, hu, mul_one]
        _ ≤ _ := by
          refine Finset.sum_le_sum fun p _ => ?_
          by_cases hp : p.val < sl.N + 1
          · exact mul_le_mul_of_nonneg_right (hdec _ _ (by rw [Fin.le_def]; simp only; omega)) (sq_nonneg _)
          · rw [hcomp, dif_neg hp, norm_zero]
            simp
    have hneg : ∀ c, ∀ p, comp p (-c) = - comp p c := by
      intro c p
      simp [comp]
    have hsubc : ∀ b c, ∀ p, comp p (b - c) = comp p b - comp p c := by
      intro b c p
      simp [comp, sub_mul, Finset.sum_sub_distrib]
    have hpar : region (synthesis L (List.ofFn (f - d))) + region (synthesis L (List.ofFn (-f - d))) =
        2 * (∑ p, e p * ‖comp p f‖ ^ 2) + 2 * region (synthesis L (List.ofFn d)) := by
      rw [hreg, hreg, hreg, Finset.mul_sum, Finset.mul_sum, ← Finset.sum_add_distrib, ← Finset.sum_add_distrib]
      refine Finset.sum_congr rfl fun p _ => ?_
      rw [hsubc, hsubc, hneg]
      have h3 : ‖-comp p f - comp p d‖ = ‖comp p f + comp p d‖ := by
        rw [← norm_neg]
        congr 1
        ring
      have h4 := parallelogram_law_with_norm ℝ (comp p f) (comp p d)
      rw [h3]
      have h5 : ‖comp p f - comp p d‖ ^ 2 + ‖comp p f + comp p d‖ ^ 2 = 2 * ‖comp p f‖ ^ 2 + 2 * ‖comp p d‖ ^ 2 := by
        nlinarith [h4]
      rw [← mul_add, h5]
      ring
    by_cases hcase : e ⟨sl.N, hN⟩ ≤ region (synthesis L (List.ofFn (f - d)))
    · refine ⟨f, ?_, ?_⟩
      · rw [hen, hnorm, hu]
      · rw [hdu, hsub]
        exact hcase
    · refine ⟨-f, ?_, ?_⟩
      · rw [hen]
        simp only [hneg, norm_neg]
        rw [hnorm, hu]
      · rw [map_neg, hdu, neg_zero, hsub]
        have := hpos (synthesis L (List.ofFn d)) ⟨_, rfl⟩
        push Not at hcase
        linarith
  · intro flm hflm
    obtain ⟨cs, f, g, rfl, hg, hF, hI, h1, h2⟩ := C88_reconstruction region S e hbest sl hN hev point synth hY w flm
    refine ⟨cs, g, hg, ?_, hF, hI, ?_⟩
    · have := forward_flm (N := sl.N) (E := fun p : Fin sl.N => S ⟨p, by omega⟩) sl synth w rfl hN.le (fun p => hev ⟨p, by omega⟩ p.2) flm
      rw [this] at hF
      have := Except.ok.inj hF
      rw [← this]
      simp
    · rw [hflm] at h2
      refine h1.trans ?_
      have := mul_le_mul_of_nonneg_left h2 (he ⟨sl.N, hN⟩)
      rwa [mul_one] at this

/-- the hypotheses are met by the runs of the program for every cap or gap, with one coefficient kept. -/
example (gap : Bool) (t : ℝ) (ht0 : 0 ≤ t) (htpi : t ≤ Real.pi) : ∃ (region : (ℝ → ℝ → ℂ) → ℝ) (S : Fin (2 ^ 2) → Fin (2 ^ 2) → ℂ)
    (e : Fin (2 ^ 2) → ℝ) (sl : Transform.Slepian (2 ^ 2)),
    region = (fun f => (capIntegral gap t fun th ph => f th ph * (starRingEnd ℂ) (f th ph)).re) ∧
    (∀ f ∈ bandlimited 2, 0 ≤ region f) ∧
    BestConcentrated (bandlimited 2) sphereInner region (fun p => synthesis 2 (List.ofFn (S p))) e ∧ sl.N = 1 ∧ sl.N < 2 ^ 2 ∧
    ∀ p : Fin (2 ^ 2), p.val < sl.N → sl.evecs[(p : ℕ)]? = some (S p) := by
  obtain ⟨plm, M, sol, r, h1, h2, h3, h4, h5⟩ := C50_polar_runs_exist 2 gap t
  obtain ⟨e, v, o, hr, -, -, hb⟩ := C88_polar 2 gap t ht0 htpi plm h1 h2 M h3 sol h4 r h5
  obtain ⟨e', v', o', hr', -, -, -, -, hpos, -⟩ := C50_polar_energy_ratio 2 gap t ht0 htpi plm h1 h2 M h3 sol h4 r h5
  rw [hr] at hr'
  have he : e = e' := by
    have := Except.ok.inj hr'
    exact (Prod.mk.inj this).1
  subst he
  let S : Fin (2 ^ 2) → Fin (2 ^ 2) → ℂ := fun p i => (v.getD p []).getD i 0
  have hsyn : ∀ p : Fin (2 ^ 2), synthesis 2 (v.getD p []) = synthesis 2 (List.ofFn (S p)) := by
    intro p
    rw [synthesis_ofFn]
    funext th ph
    rw [Gaunt.synthesis_eq]
  simp only [hsyn] at hb
  refine ⟨_, S, fun p => e.getD p 0, ⟨1, [1], [S 0]⟩, rfl, fun f hf => ?_, hb, rfl, by norm_num, fun p hp => ?_⟩
  · rw [hb.energyIn f hf]
    exact Finset.sum_nonneg fun p _ => mul_nonneg (hpos p p.2) (sq_nonneg _)
  · have : p = 0 := Fin.ext (by simpa using hp)
    subst this
    rfl

end Sleplet.Props
