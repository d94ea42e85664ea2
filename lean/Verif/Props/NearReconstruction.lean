import Verif.Lemmas.NearReconstruction
import Verif.Props.EndToEnd
import Verif.Props.MatrixErrors

/-!
C141: errors in the entries of the concentration matrix, and reconstructions.  `P` is the signal rebuilt from the first `N` coefficients
with the exact functions, `P'` with those of the matrix in error.
-/
namespace Sleplet.Props

open Complex Sleplet.Spec Sleplet.Gaunt Sleplet.RealMat Sleplet.Eigen Sleplet.LatLon

theorem synthesis_sum {L : ℕ} (c : Fin (L ^ 2) → ℂ) : synthesis L (List.ofFn c) = fun th ph => ∑ i : Fin (L ^ 2), c i * harm i th ph := by
  funext th ph
  rw [Gaunt.synthesis_eq]
  refine Finset.sum_congr rfl fun i _ => ?_
  simp only [List.getD_eq_getElem?_getD, List.getElem?_ofFn, i.2, dif_pos, Option.getD_some]

theorem inner_synthesis {L : ℕ} (a b : Fin (L ^ 2) → ℂ) :
    sphereInner (synthesis L (List.ofFn a)) (synthesis L (List.ofFn b)) = ∑ i, a i * (starRingEnd ℂ) (b i) := by
  rw [synthesis_sum, synthesis_sum, inner_sums]

private theorem energy {L : ℕ} (a : Fin (L ^ 2) → ℂ) :
    (sphereInner (synthesis L (List.ofFn a)) (synthesis L (List.ofFn a))).re = ∑ i, ‖a i‖ ^ 2 := by
  rw [inner_synthesis, Complex.re_sum]
  refine Finset.sum_congr rfl fun i _ => ?_
  rw [Complex.mul_conj, Complex.ofReal_re, Complex.normSq_eq_norm_sq]

/-- the transforms with orthonormal rows give the sum of the components along the first `N`. -/
private theorem recon {L : ℕ} (e : List ℝ) (v : List (List ℂ)) (N : ℕ) (hN : N ≤ L ^ 2) (hv : N ≤ v.length)
    (C : Fin (L ^ 2) → Fin (L ^ 2) → ℂ) (hC : ∀ p i : Fin (L ^ 2), p.val < N → (v.getD p []).getD i 0 = C p i) (hO : OrthonormalRows C)
    {Pix : Type} [Fintype Pix] (point : Pix → ℝ × ℝ) (synth : (Fin (L ^ 2) → ℂ) → Pix → ℂ)
    (hY : ∀ c x, synth c x = synthesis L (List.ofFn c) (point x).1 (point x).2) (weight : Pix → ℝ) (flm : Fin (L ^ 2) → ℂ) :
    ∃ cs, Transform.slepianForward (asObject L N e v) synth weight { flm := some flm } none = .ok cs ∧
      Transform.slepianInverse (asObject L N e v) synth cs = .ok fun x => synthesis L (List.ofFn (firstPart C N flm)) (point x).1 (point x).2 := by
  let E : Fin N → Fin (L ^ 2) → ℂ := fun p => C ⟨p, by omega⟩
  have hE : OrthonormalRows E := by
    intro p q
    refine (hO ⟨p, by omega⟩ ⟨q, by omega⟩).trans ?_
    simp only [Fin.ext_iff]
  have hev : ∀ p : Fin N, (asObject L N e v).evecs[(p : ℕ)]? = some (E p) := by
    intro p
    have hp : (p : ℕ) < v.length := by omega
    simp only [asObject, List.getElem?_map, List.getElem?_eq_getElem hp, Option.map_some, Option.some.injEq]
    funext i
    refine Eq.trans ?_ (hC ⟨p, by omega⟩ i p.2)
    simp only [List.getD_eq_getElem?_getD, List.getElem?_eq_getElem hp, Option.getD_some]
  obtain ⟨F, g, hF, hg, ⟨a, ha⟩, hperp, -, -⟩ := C32_round_trip_projection (asObject L N e v) synth weight
    (fun i x => harm i (point x).1 (point x).2) (fun c x => by rw [hY, synthesis_sum]) E (by simp [asObject]) hN hev hE flm
  refine ⟨_, hF, ?_⟩
  rw [hg]
  congr 1
  funext x
  rw [hY]
  have haq : ∀ q : Fin N, a q = ∑ i, flm i * (starRingEnd ℂ) (E q i) := by
    intro q
    have h1 := hperp q
    simp only [sub_mul, Finset.sum_sub_distrib, sub_eq_zero] at h1
    rw [h1]
    simp only [ha, Finset.sum_mul]
    rw [Finset.sum_comm]
    have : ∀ p, ∑ i, a p * E p i * (starRingEnd ℂ) (E q i) = if p = q then a p else 0 := by
      intro p
      simp only [mul_assoc]
      rw [← Finset.mul_sum, hE p q]
      simp
    simp only [this, Finset.sum_ite_eq', Finset.mem_univ, if_true]
  have hfp : g = firstPart C N flm := by
    funext i
    rw [ha i, firstPart]
    refine Finset.sum_bij (fun p _ => ⟨p, by omega⟩) (fun p _ => ?_) (fun p _ q _ hpq => ?_) (fun q hq => ?_) (fun p _ => by rw [haq])
    · simp only [Finset.mem_filter, Finset.mem_univ, true_and]
      exact p.2
    · exact Fin.ext (by simpa using hpq)
    · simp only [Finset.mem_filter, Finset.mem_univ, true_and] at hq
      exact ⟨⟨q, hq⟩, Finset.mem_univ _, rfl⟩
  rw [hfp]

/-- signals rebuilt with two orthonormal families of functions. -/
theorem near_signals {L : ℕ} (e e' : List ℝ) (v v' : List (List ℂ)) (N : ℕ) (hN : N ≤ L ^ 2) (hv : N ≤ v.length) (hv' : N ≤ v'.length)
    (C C' : Fin (L ^ 2) → Fin (L ^ 2) → ℂ) (hC : ∀ p i : Fin (L ^ 2), p.val < N → (v.getD p []).getD i 0 = C p i)
    (hC' : ∀ p i : Fin (L ^ 2), p.val < N → (v'.getD p []).getD i 0 = C' p i) (hO : OrthonormalRows C) (hO' : OrthonormalRows C')
    {Pix : Type} [Fintype Pix] (point : Pix → ℝ × ℝ) (synth : (Fin (L ^ 2) → ℂ) → Pix → ℂ)
    (hY : ∀ c x, synth c x = synthesis L (List.ofFn c) (point x).1 (point x).2) (weight : Pix → ℝ) (flm : Fin (L ^ 2) → ℂ) :
    ∃ cs cs' P P', P ∈ bandlimited L ∧ P' ∈ bandlimited L ∧
      Transform.slepianForward (asObject L N e v) synth weight { flm := some flm } none = .ok cs ∧
      Transform.slepianInverse (asObject L N e v) synth cs = .ok (fun x => P (point x).1 (point x).2) ∧
      Transform.slepianForward (asObject L N e' v') synth weight { flm := some flm } none = .ok cs' ∧
      Transform.slepianInverse (asObject L N e' v') synth cs' = .ok (fun x => P' (point x).1 (point x).2) ∧
      ∀ g B : ℝ, 0 ≤ g → g * ∑ q : Fin (L ^ 2) with q.val < N, ∑ p : Fin (L ^ 2) with N ≤ p.val,
        ‖sphereInner (synthesis L (List.ofFn (C' q))) (synthesis L (List.ofFn (C p)))‖ ^ 2 ≤ B →
        g * (sphereInner (P - P') (P - P')).re ≤ B * (sphereInner (synthesis L (List.ofFn flm)) (synthesis L (List.ofFn flm))).re := by
  obtain ⟨cs, h1, h2⟩ := recon e v N hN hv C hC hO point synth hY weight flm
  obtain ⟨cs', h1', h2'⟩ := recon e' v' N hN hv' C' hC' hO' point synth hY weight flm
  have hmem : ∀ c : Fin (L ^ 2) → ℂ, synthesis L (List.ofFn c) ∈ bandlimited L := fun c => by
    rw [mem_bandlimited_iff]
    exact ⟨c, by rw [synthesis_sum]; rfl⟩
  refine ⟨cs, cs', _, _, hmem _, hmem _, h1, h2, h1', h2', fun g B hg hw => ?_⟩
  have hsub : synthesis L (List.ofFn (firstPart C N flm)) - synthesis L (List.ofFn (firstPart C' N flm)) =
      synthesis L (List.ofFn fun i => firstPart C N flm i - firstPart C' N flm i) := by
    rw [synthesis_sum, synthesis_sum, synthesis_sum]
    funext th ph
    simp only [Pi.sub_apply, sub_mul, Finset.sum_sub_distrib]
  rw [hsub, energy, energy]
  simp only [inner_synthesis] at hw
  have hk := first_parts_near C C' hO hO' N flm
  have h3 : 0 ≤ ∑ i, ‖flm i‖ ^ 2 := Finset.sum_nonneg fun i _ => sq_nonneg _
  calc _ ≤ g * ((∑ q : Fin (L ^ 2) with q.val < N, ∑ p : Fin (L ^ 2) with N ≤ p.val,
        ‖∑ i, C' q i * (starRingEnd ℂ) (C p i)‖ ^ 2) * ∑ i, ‖flm i‖ ^ 2) := mul_le_mul_of_nonneg_left hk hg
    _ ≤ _ := by
        rw [← mul_assoc]
        exact mul_le_mul_of_nonneg_right hw h3

/-- the same for results given as functions. -/
private theorem near_ofFn {L n : ℕ} (hn : n = L ^ 2) (e e' : Fin n → ℝ) (S S' : Fin n → Fin n → ℂ) (hO : OrthonormalRows S)
    (hO' : OrthonormalRows S') (N : ℕ) (hN : N ≤ n)
    {Pix : Type} [Fintype Pix] (point : Pix → ℝ × ℝ) (synth : (Fin (L ^ 2) → ℂ) → Pix → ℂ)
    (hY : ∀ c x, synth c x = synthesis L (List.ofFn c) (point x).1 (point x).2) (weight : Pix → ℝ) (flm : Fin (L ^ 2) → ℂ) :
    let out := asObject L N (List.ofFn e) (List.ofFn fun p => List.ofFn (S p))
    let out' := asObject L N (List.ofFn e') (List.ofFn fun p => List.ofFn (S' p))
    ∃ cs cs' P P', P ∈ bandlimited L ∧ P' ∈ bandlimited L ∧
      Transform.slepianForward out synth weight { flm := some flm } none = .ok cs ∧
      Transform.slepianInverse out synth cs = .ok (fun x => P (point x).1 (point x).2) ∧
      Transform.slepianForward out' synth weight { flm := some flm } none = .ok cs' ∧
      Transform.slepianInverse out' synth cs' = .ok (fun x => P' (point x).1 (point x).2) ∧
      ∀ g B : ℝ, 0 ≤ g → g * ∑ q : Fin n with q.val < N, ∑ p : Fin n with N ≤ p.val,
        ‖sphereInner (synthesis L (List.ofFn (S' q))) (synthesis L (List.ofFn (S p)))‖ ^ 2 ≤ B →
        g * (sphereInner (P - P') (P - P')).re ≤ B * (sphereInner (synthesis L (List.ofFn flm)) (synthesis L (List.ofFn flm))).re := by
  subst hn
  refine near_signals _ _ _ _ N hN (hN.trans_eq List.length_ofFn.symm) (hN.trans_eq List.length_ofFn.symm) S S' ?_ ?_ hO hO' point synth hY weight flm
  all_goals
    intro p i _
    simp only [List.getD_eq_getElem?_getD, List.getElem?_ofFn, p.2, i.2, dif_pos, Option.getD_some]

/-- C141, latitude-longitude regions: when the first `N` exact eigenvalues are greater than the others by `g` and every entry of the matrix
handed to the solver is within `ε` of the exact one, the energy over the sphere of the difference of the signals rebuilt from the first
`N` coefficients is at most `2 N L² ε / g` and at most `N (L² ε / (g - L² ε))²` times the energy of the signal. -/
theorem C141_lat_lon (L : ℕ) (n : ℕ) (hn : n + 1 = L ^ 2) (B : Bounds) (dl : Table) (hdl : IsWigner L dl)
    (hB0 : B.tmin ∈ Set.Icc 0 Real.pi) (hB1 : B.tmax ∈ Set.Icc 0 Real.pi) (we : ℕ → Option Err) (K : Mat) (h : CreatesK L B dl we (.ok K))
    (w : Fin (n + 1) → ℂ) (V : Fin (n + 1) → Fin (n + 1) → ℂ) (hD : IsEigh (fun r c : Fin (n + 1) => K r c) w V)
    (e : Fin (n + 1) → ℝ) (S : Fin (n + 1) → Fin (n + 1) → ℂ) (hS : CleansLatLon w V e S)
    (K' : Fin (n + 1) → Fin (n + 1) → ℂ) (ε : ℝ) (hε : ∀ r c : Fin (n + 1), ‖K' r c - K r c‖ ≤ ε)
    (w' : Fin (n + 1) → ℂ) (V' : Fin (n + 1) → Fin (n + 1) → ℂ) (hD' : IsEigh K' w' V')
    (e' : Fin (n + 1) → ℝ) (S' : Fin (n + 1) → Fin (n + 1) → ℂ) (hS' : CleansLatLon w' V' e' S')
    (N : ℕ) (hN : N ≤ n + 1)
    {Pix : Type} [Fintype Pix] (point : Pix → ℝ × ℝ) (synth : (Fin (L ^ 2) → ℂ) → Pix → ℂ)
    (hY : ∀ c x, synth c x = synthesis L (List.ofFn c) (point x).1 (point x).2) (weight : Pix → ℝ) (flm : Fin (L ^ 2) → ℂ) :
    let f := synthesis L (List.ofFn flm)
    let out := asObject L N (List.ofFn e) (List.ofFn fun p => List.ofFn (S p))
    let out' := asObject L N (List.ofFn e') (List.ofFn fun p => List.ofFn (S' p))
    ∃ cs cs' P P', P ∈ bandlimited L ∧ P' ∈ bandlimited L ∧
      Transform.slepianForward out synth weight { flm := some flm } none = .ok cs ∧
      Transform.slepianInverse out synth cs = .ok (fun x => P (point x).1 (point x).2) ∧
      Transform.slepianForward out' synth weight { flm := some flm } none = .ok cs' ∧
      Transform.slepianInverse out' synth cs' = .ok (fun x => P' (point x).1 (point x).2) ∧
      (∀ g : ℝ, 0 ≤ g → (∀ p q : Fin (n + 1), p.val < N → N ≤ q.val → g ≤ e p - e q) →
        g * (sphereInner (P - P') (P - P')).re ≤ 2 * N * (L ^ 2 * ε) * (sphereInner f f).re) ∧
      ∀ g : ℝ, L ^ 2 * ε ≤ g → (∀ p q : Fin (n + 1), p.val < N → N ≤ q.val → g ≤ e p - e q) →
        (g - L ^ 2 * ε) ^ 2 * (sphereInner (P - P') (P - P')).re ≤ N * (L ^ 2 * ε) ^ 2 * (sphereInner f f).re := by
  obtain ⟨cs, cs', P, P', a1, a2, a3, a4, a5, a6, key⟩ := near_ofFn hn e e' S S' (C18_lat_lon_orthonormal_eigenvectors _ w V hD e S hS).2
    (C18_lat_lon_orthonormal_eigenvectors _ w' V' hD' e' S' hS').2 N hN point synth hY weight flm
  obtain ⟨-, -, -, k4, k5, -⟩ := C139_lat_lon L n hn B dl hdl hB0 hB1 we K h w V hD e S hS K' ε hε w' V' hD' e' S' hS'
  exact ⟨cs, cs', P, P', a1, a2, a3, a4, a5, a6, fun g hg hgap => key g _ hg (k4 N g hN hgap),
    fun g hg hgap => key _ _ (sq_nonneg _) (k5 N g hN hg hgap)⟩

/-- C141, regions given by a mask. -/
theorem C141_masks (L n : ℕ) (hn : n + 1 = L ^ 2) (m : Integration.Grid (2 * L) → Bool) (P₀ : Arb.Params (Integration.Grid (2 * L)))
    (hP : OnGrid L m P₀) (ncpu : ℕ) (hpos : 1 ≤ ncpu) (we : ℕ → Option Err) (M : ℕ → ℕ → ℂ) (h : Arb.CreatesD P₀ ncpu we (.ok M))
    (w : Fin (n + 1) → ℂ) (V : Fin (n + 1) → Fin (n + 1) → ℂ) (hD : IsEigh (fun r c : Fin (n + 1) => M r c) w V)
    (e : Fin (n + 1) → ℝ) (S : Fin (n + 1) → Fin (n + 1) → ℂ) (hS : CleansArbitrary w V e S)
    (M' : Fin (n + 1) → Fin (n + 1) → ℂ) (ε : ℝ) (hε : ∀ r c : Fin (n + 1), ‖M' r c - M r c‖ ≤ ε)
    (w' : Fin (n + 1) → ℂ) (V' : Fin (n + 1) → Fin (n + 1) → ℂ) (hD' : IsEigh M' w' V')
    (e' : Fin (n + 1) → ℝ) (S' : Fin (n + 1) → Fin (n + 1) → ℂ) (hS' : CleansArbitrary w' V' e' S')
    (N : ℕ) (hN : N ≤ n + 1)
    {Pix : Type} [Fintype Pix] (point : Pix → ℝ × ℝ) (synth : (Fin (L ^ 2) → ℂ) → Pix → ℂ)
    (hY : ∀ c x, synth c x = synthesis L (List.ofFn c) (point x).1 (point x).2) (weight : Pix → ℝ) (flm : Fin (L ^ 2) → ℂ) :
    let f := synthesis L (List.ofFn flm)
    let out := asObject L N (List.ofFn e) (List.ofFn fun p => List.ofFn (S p))
    let out' := asObject L N (List.ofFn e') (List.ofFn fun p => List.ofFn (S' p))
    ∃ cs cs' P P', P ∈ bandlimited L ∧ P' ∈ bandlimited L ∧
      Transform.slepianForward out synth weight { flm := some flm } none = .ok cs ∧
      Transform.slepianInverse out synth cs = .ok (fun x => P (point x).1 (point x).2) ∧
      Transform.slepianForward out' synth weight { flm := some flm } none = .ok cs' ∧
      Transform.slepianInverse out' synth cs' = .ok (fun x => P' (point x).1 (point x).2) ∧
      (∀ g : ℝ, 0 ≤ g → (∀ p q : Fin (n + 1), p.val < N → N ≤ q.val → g ≤ e p - e q) →
        g * (sphereInner (P - P') (P - P')).re ≤ 2 * N * (L ^ 2 * ε) * (sphereInner f f).re) ∧
      ∀ g : ℝ, L ^ 2 * ε ≤ g → (∀ p q : Fin (n + 1), p.val < N → N ≤ q.val → g ≤ e p - e q) →
        (g - L ^ 2 * ε) ^ 2 * (sphereInner (P - P') (P - P')).re ≤ N * (L ^ 2 * ε) ^ 2 * (sphereInner f f).re := by
  obtain ⟨cs, cs', P, P', a1, a2, a3, a4, a5, a6, key⟩ := near_ofFn hn e e' S S' (C18_arbitrary_orthonormal_eigenvectors _ w V hD e S hS).2
    (C18_arbitrary_orthonormal_eigenvectors _ w' V' hD' e' S' hS').2 N hN point synth hY weight flm
  obtain ⟨-, -, -, k4, k5, -⟩ := C139_masks L n hn m P₀ hP ncpu hpos we M h w V hD e S hS M' ε hε w' V' hD' e' S' hS'
  exact ⟨cs, cs', P, P', a1, a2, a3, a4, a5, a6, fun g hg hgap => key g _ hg (k4 N g hN hgap),
    fun g hg hgap => key _ _ (sq_nonneg _) (k5 N g hN hg hgap)⟩

/-- C141, polar caps and gaps. -/
theorem C141_polar (L : ℕ) (gap : Bool) (t : ℝ) (ht0 : 0 ≤ t) (htpi : t ≤ Real.pi)
    (plm : List ℝ) (hlen : plm.length = (2 * L) ^ 2) (hplm : ∀ n < 2 * L, plm.getD (elm2ind n 0) 0 = (sphHarm n 0 t 0).re)
    (M : ℤ → ℕ → ℕ → ℝ) (hM : ∀ m : ℤ, m.natAbs < L → ∃ ncpu we, 1 ≤ ncpu ∧ CreatesOrder L gap plm m ncpu we (.ok (M m)))
    (sol : ℤ → OrderSolution) (hsol : ∀ m : ℤ, m.natAbs < L → IsEighOrder (L - m.natAbs) (M m) (sol m))
    (e : List ℝ) (v : List (List ℂ)) (o : List ℤ) (h : SolvesAll L sol (.ok (e, v, o)))
    (M' : ℤ → ℕ → ℕ → ℝ) (ε : ℝ) (hε : ∀ m : ℤ, m.natAbs < L → ∀ i < L - m.natAbs, ∀ j < L - m.natAbs, |M' m i j - M m i j| ≤ ε)
    (sol' : ℤ → OrderSolution) (hsol' : ∀ m : ℤ, m.natAbs < L → IsEighOrder (L - m.natAbs) (M' m) (sol' m))
    (e' : List ℝ) (v' : List (List ℂ)) (o' : List ℤ) (h' : SolvesAll L sol' (.ok (e', v', o')))
    (N : ℕ) (hN : N ≤ L ^ 2)
    {Pix : Type} [Fintype Pix] (point : Pix → ℝ × ℝ) (synth : (Fin (L ^ 2) → ℂ) → Pix → ℂ)
    (hY : ∀ c x, synth c x = synthesis L (List.ofFn c) (point x).1 (point x).2) (weight : Pix → ℝ) (flm : Fin (L ^ 2) → ℂ) :
    let f := synthesis L (List.ofFn flm)
    ∃ cs cs' P P', P ∈ bandlimited L ∧ P' ∈ bandlimited L ∧
      Transform.slepianForward (asObject L N e v) synth weight { flm := some flm } none = .ok cs ∧
      Transform.slepianInverse (asObject L N e v) synth cs = .ok (fun x => P (point x).1 (point x).2) ∧
      Transform.slepianForward (asObject L N e' v') synth weight { flm := some flm } none = .ok cs' ∧
      Transform.slepianInverse (asObject L N e' v') synth cs' = .ok (fun x => P' (point x).1 (point x).2) ∧
      (∀ g : ℝ, 0 ≤ g → (∀ p < N, ∀ q, N ≤ q → q < L ^ 2 → g ≤ e.getD p 0 - e.getD q 0) →
        g * (sphereInner (P - P') (P - P')).re ≤ 2 * N * (L ^ 2 * ε) * (sphereInner f f).re) ∧
      ∀ g : ℝ, L ^ 2 * ε ≤ g → (∀ p < N, ∀ q, N ≤ q → q < L ^ 2 → g ≤ e.getD p 0 - e.getD q 0) →
        (g - L ^ 2 * ε) ^ 2 * (sphereInner (P - P') (P - P')).re ≤ N * (L ^ 2 * ε) ^ 2 * (sphereInner f f).re := by
  obtain ⟨k1, -, -, k4, k5, -⟩ := C139_polar L gap t ht0 htpi plm hlen hplm M hM sol hsol e v o h M' ε hε sol' hsol' e' v' o' h'
  obtain ⟨e₁, v₁, o₁, hr, -, hv, b⟩ := C88_polar L gap t ht0 htpi plm hlen hplm M hM sol hsol _ h
  injection hr with hr
  simp only [Prod.mk.injEq] at hr
  obtain ⟨rfl, rfl, rfl⟩ := hr
  obtain ⟨e₂, v₂, o₂, hr, -, hv', -⟩ := polar_all_orders L M' sol' hsol' _ h'
  injection hr with hr
  simp only [Prod.mk.injEq] at hr
  obtain ⟨rfl, rfl, rfl⟩ := hr
  have hsyn : ∀ c : List ℂ, synthesis L (List.ofFn fun i : Fin (L ^ 2) => c.getD i 0) = synthesis L c := by
    intro c
    funext th ph
    rw [synthesis_eq, synthesis_eq]
    refine Finset.sum_congr rfl fun i _ => ?_
    simp only [List.getD_eq_getElem?_getD, List.getElem?_ofFn, i.2, dif_pos, Option.getD_some]
  have hO : OrthonormalRows fun p i : Fin (L ^ 2) => (v.getD p []).getD i 0 := by
    intro p q
    have := b.orthonormal p q
    rw [← hsyn (v.getD p []), ← hsyn (v.getD q []), inner_synthesis] at this
    exact this
  have hO' : OrthonormalRows fun p i : Fin (L ^ 2) => (v'.getD p []).getD i 0 := by
    intro p q
    have := k1 p p.2 q q.2
    dsimp only at this
    rw [← hsyn (v'.getD p []), ← hsyn (v'.getD q []), inner_synthesis] at this
    simpa only [Fin.ext_iff] using this
  obtain ⟨cs, cs', P, P', a1, a2, a3, a4, a5, a6, key⟩ := near_signals e e' v v' N hN (hN.trans_eq hv.symm) (hN.trans_eq hv'.symm) _ _ (fun p i _ => rfl) (fun p i _ => rfl) hO hO' point synth hY
    weight flm
  simp only [hsyn] at key
  have hA : ∀ F : ℕ → ℝ, ∑ q : Fin (L ^ 2) with q.val < N, F q = ∑ q ∈ Finset.range N, F q := by
    intro F
    rw [Finset.sum_filter, Fin.sum_univ_eq_sum_range (fun q => if q < N then F q else 0), ← Finset.sum_filter]
    congr 1
    ext x
    simp only [Finset.mem_filter, Finset.mem_range]
    omega
  have hB : ∀ F : ℕ → ℝ, ∑ q : Fin (L ^ 2) with N ≤ q.val, F q = ∑ q ∈ Finset.Ico N (L ^ 2), F q := by
    intro F
    rw [Finset.sum_filter, Fin.sum_univ_eq_sum_range (fun q => if N ≤ q then F q else 0), ← Finset.sum_filter]
    congr 1
    ext x
    simp only [Finset.mem_filter, Finset.mem_range, Finset.mem_Ico]
    omega
  have hAB : ∑ q : Fin (L ^ 2) with q.val < N, ∑ p : Fin (L ^ 2) with N ≤ p.val,
      ‖sphereInner (synthesis L (v'.getD q [])) (synthesis L (v.getD p []))‖ ^ 2 =
      ∑ q ∈ Finset.range N, ∑ p ∈ Finset.Ico N (L ^ 2), ‖sphereInner (synthesis L (v'.getD q [])) (synthesis L (v.getD p []))‖ ^ 2 := by
    rw [← hA fun q => ∑ p ∈ Finset.Ico N (L ^ 2), ‖sphereInner (synthesis L (v'.getD q [])) (synthesis L (v.getD p []))‖ ^ 2]
    refine Finset.sum_congr rfl fun q _ => ?_
    exact hB fun p => ‖sphereInner (synthesis L (v'.getD q [])) (synthesis L (v.getD p []))‖ ^ 2
  rw [hAB] at key
  exact ⟨cs, cs', P, P', a1, a2, a3, a4, a5, a6, fun g hg hgap => key g _ hg (k4 N g hN hgap),
    fun g hg hgap => key _ _ (sq_nonneg _) (k5 N g hN hg hgap)⟩

/-- the mesh transforms with the first `N` functions, one after the other. -/
theorem mesh_recon {V : Type} [Fintype V] {K : ℕ} (ms : MeshT.MeshSlepian V) (φ : Fin K → V → ℝ) (hb : ms.basis = List.ofFn φ)
    (hK : ms.numBasis = K) (hN : ms.N ≤ K) (e : Fin K → ℝ) (S : Fin K → Fin K → ℝ)
    (hrow : ∀ p : Fin K, p.val < ms.N → ms.evecs[(p : ℕ)]? = some (List.ofFn (S p)) ∧ ms.evals[(p : ℕ)]? = some (e p)) (u : V → ℝ) :
    ∃ cs, MeshT.slepianMeshForward ms ⟨some u, none, false⟩ none = .ok cs ∧
      MeshT.slepianMeshInverse ms cs = .ok fun v => ∑ i, firstPart S ms.N (fun i => ∑ v, u v * φ i v) i * φ i v := by
  let s : Fin ms.N → V → ℝ := fun p v => ∑ i, S ⟨p, by omega⟩ i * φ i v
  have hinv := MeshT.slepianMeshInverse_ok (N := ms.N) ms rfl φ hb (fun p => S ⟨p, by omega⟩)
    (fun p => (hrow ⟨p, by omega⟩ p.2).1) (fun p => ∑ v, u v * s p v)
  refine ⟨List.ofFn fun p => ∑ v, u v * s p v, ?_, ?_⟩
  · unfold MeshT.slepianMeshForward
    simp only [MeshT.detectMethod, Option.isSome_some, Option.isSome_none, Bool.false_eq_true, if_true, if_false, bind,
      Except.bind, Option.getD_none]
    rw [MeshT.decomposeAll_ok ms _ (fun r => if hr : r < ms.N then ∑ v, u v * s ⟨r, hr⟩ v else 0)]
    · congr 1
      apply List.ext_getElem
      · simp
      · intro i h1 h2
        simp at h2
        simp [h2]
    · intro r hr
      have hr : r < ms.N := by simpa using hr
      have h1 := hrow ⟨r, by omega⟩ hr
      have := (MeshT.decompose_values ms φ hb r (by rw [hK]; omega) _ _ h1.1 h1.2).2.2 u
      rw [this]
      simp only [hr, dite_true, s]
  · rw [hinv]
    congr 1
    funext v
    have hF : ∀ p : Fin ms.N, ∑ v, u v * s p v = ∑ i, (∑ v, u v * φ i v) * S ⟨p, by omega⟩ i := by
      intro p
      simp only [s, Finset.mul_sum, Finset.sum_mul]
      rw [Finset.sum_comm]
      exact Finset.sum_congr rfl fun i _ => Finset.sum_congr rfl fun v _ => by ring
    simp only [firstPart, conj_trivial, hF]
    calc ∑ p : Fin ms.N, (∑ i, (∑ v, u v * φ i v) * S ⟨p, by omega⟩ i) * ∑ i, S ⟨p, by omega⟩ i * φ i v
        = ∑ p : Fin K with p.val < ms.N, (∑ i, (∑ v, u v * φ i v) * S p i) * ∑ i, S p i * φ i v := by
          refine Finset.sum_bij (fun p _ => ⟨p, by omega⟩) (fun p _ => ?_) (fun p _ q _ hpq => ?_) (fun q hq => ?_) (fun p _ => rfl)
          · simp only [Finset.mem_filter, Finset.mem_univ, true_and]
            exact p.2
          · exact Fin.ext (by simpa using hpq)
          · simp only [Finset.mem_filter, Finset.mem_univ, true_and] at hq
            exact ⟨⟨q, hq⟩, Finset.mem_univ _, rfl⟩
      _ = _ := by
          simp only [Finset.sum_mul (s := Finset.univ.filter _), Finset.mul_sum (s := Finset.univ) (f := fun i => S _ i * φ i v)]
          rw [Finset.sum_comm]
          exact Finset.sum_congr rfl fun i _ => Finset.sum_congr rfl fun p _ => by ring

/-- C141, meshes, with `K` basis functions. -/
theorem C141_mesh {Vert : Type} [Fintype Vert] {K : ℕ} (ms : MeshT.MeshSlepian Vert) (φ : Fin K → Vert → ℝ) (e : Fin K → ℝ)
    (S : Fin K → Fin K → ℝ) (rows : ℕ) (h : BuiltMesh ms φ e S rows)
    (M' : Fin K → Fin K → ℝ) (ε : ℝ) (hε : ∀ r c, |M' r c - ∑ v with ms.region v = true, φ r v * φ c v| ≤ ε)
    (w' : Fin K → ℝ) (W' : Fin K → Fin K → ℝ) (hD' : IsEighReal M' w' W') (e' : Fin K → ℝ) (S' : Fin K → Fin K → ℝ)
    (hS' : CleansMesh w' W' e' S') (u : Vert → ℝ) :
    let ms' : MeshT.MeshSlepian Vert := { ms with evals := List.ofFn e', evecs := List.ofFn fun p => List.ofFn (S' p) }
    ∃ cs cs' P P', MeshT.slepianMeshForward ms ⟨some u, none, false⟩ none = .ok cs ∧ MeshT.slepianMeshInverse ms cs = .ok P ∧
      MeshT.slepianMeshForward ms' ⟨some u, none, false⟩ none = .ok cs' ∧ MeshT.slepianMeshInverse ms' cs' = .ok P' ∧
      (∀ g : ℝ, 0 ≤ g → (∀ p q : Fin K, p.val < ms.N → ms.N ≤ q.val → g ≤ e p - e q) →
        g * ∑ v, (P v - P' v) ^ 2 ≤ 2 * ms.N * (K * ε) * ∑ v, u v ^ 2) ∧
      ∀ g : ℝ, K * ε ≤ g → (∀ p q : Fin K, p.val < ms.N → ms.N ≤ q.val → g ≤ e p - e q) →
        (g - K * ε) ^ 2 * ∑ v, (P v - P' v) ^ 2 ≤ ms.N * (K * ε) ^ 2 * ∑ v, u v ^ 2 := by
  intro ms'
  have hNK : ms.N ≤ K := h.le_rows.trans h.rows_le
  obtain ⟨cs, h1, h2⟩ := mesh_recon ms φ h.basis h.number hNK e S (fun p hp => h.row p (by have := h.le_rows; omega)) u
  obtain ⟨cs', h1', h2'⟩ := mesh_recon ms' φ h.basis h.number hNK e' S' (fun p hp => by simp [ms']) u
  obtain ⟨-, -, -, k4, k5, -⟩ := C139_mesh ms φ e S rows h M' ε hε w' W' hD' e' S' hS'
  have hO := h.eigen.2
  have hO' := (C18_mesh_orthonormal_eigenvectors M' w' W' hD' e' S' hS').2
  set a : Fin K → ℝ := fun i => ∑ v, u v * φ i v with ha
  have hin : ∀ b c : Fin K → ℝ, ∑ v, (∑ i, b i * φ i v) * ∑ i, c i * φ i v = ∑ i, b i * c i := by
    intro b c
    exact MeshT.comb_comb φ h.orth b c
  have hk := first_parts_near (𝕜 := ℝ) S S' (fun p q => by simpa using hO p q) (fun p q => by simpa using hO' p q) ms.N a
  simp only [conj_trivial, Real.norm_eq_abs, sq_abs] at hk
  have hl : ∑ v, ((∑ i, firstPart S ms.N a i * φ i v) - ∑ i, firstPart S' ms'.N a i * φ i v) ^ 2 =
      ∑ i, (firstPart S ms.N a i - firstPart S' ms.N a i) ^ 2 := by
    simp only [← Finset.sum_sub_distrib, ← sub_mul, sq]
    exact hin _ _
  have hb : ∑ i, a i ^ 2 ≤ ∑ v, u v ^ 2 := MeshT.bessel φ h.orth u
  have key : ∀ g B : ℝ, 0 ≤ g → g * ∑ q : Fin K with q.val < ms.N, ∑ p : Fin K with ms.N ≤ p.val, (∑ i, S' q i * S p i) ^ 2 ≤ B →
      g * ∑ v, ((∑ i, firstPart S ms.N a i * φ i v) - ∑ i, firstPart S' ms'.N a i * φ i v) ^ 2 ≤ B * ∑ v, u v ^ 2 := by
    intro g B hg hw
    rw [hl]
    have hB : 0 ≤ B := by
      refine le_trans (mul_nonneg hg ?_) hw
      exact Finset.sum_nonneg fun q _ => Finset.sum_nonneg fun p _ => sq_nonneg _
    calc _ ≤ g * ((∑ q : Fin K with q.val < ms.N, ∑ p : Fin K with ms.N ≤ p.val, (∑ i, S' q i * S p i) ^ 2) * ∑ i, a i ^ 2) :=
          mul_le_mul_of_nonneg_left hk hg
      _ ≤ B * ∑ i, a i ^ 2 := by
          rw [← mul_assoc]
          exact mul_le_mul_of_nonneg_right hw (Finset.sum_nonneg fun i _ => sq_nonneg _)
      _ ≤ _ := mul_le_mul_of_nonneg_left hb hB
  simp only [hin] at k4 k5
  exact ⟨cs, cs', _, _, h1, h2, h1', h2', fun g hg hgap => key g _ hg (k4 ms.N g hNK hgap),
    fun g hg hgap => key _ _ (sq_nonneg _) (k5 ms.N g hNK hg hgap)⟩

/-- a region with a matrix entry on the diagonal too large by a hundredth, a signal rebuilt from one coefficient. -/
example (flm : Fin (3 ^ 2) → ℂ) : ∃ (dl : Table) (we : ℕ → Option Err) (K : Mat) (w : Fin 9 → ℂ) (V : Fin 9 → Fin 9 → ℂ)
    (e : Fin 9 → ℝ) (S : Fin 9 → Fin 9 → ℂ) (K' : Fin 9 → Fin 9 → ℂ) (w' : Fin 9 → ℂ)
    (e' : Fin 9 → ℝ) (S' : Fin 9 → Fin 9 → ℂ), IsWigner 3 dl ∧ CreatesK 3 ⟨1, 2, 0, 1⟩ dl we (.ok K) ∧
    IsEigh (fun r c : Fin 9 => K r c) w V ∧ CleansLatLon w V e S ∧ (∀ r c : Fin 9, ‖K' r c - K r c‖ ≤ 1 / 100) ∧
    (K' 0 0 ≠ K 0 0) ∧ IsEigh K' w' V ∧ CleansLatLon w' V e' S' ∧ ∃ (cs cs' : List ℂ) (P P' : ℝ → ℝ → ℂ), P ∈ bandlimited 3 ∧ P' ∈ bandlimited 3 ∧
    Transform.slepianInverse (asObject 3 1 (List.ofFn e) (List.ofFn fun p => List.ofFn (S p)))
      (fun c (x : Fin 2) => synthesis 3 (List.ofFn c) ((x : ℕ) : ℝ) 1) cs = .ok (fun x => P ((x : ℕ) : ℝ) 1) ∧
    Transform.slepianInverse (asObject 3 1 (List.ofFn e') (List.ofFn fun p => List.ofFn (S' p)))
      (fun c (x : Fin 2) => synthesis 3 (List.ofFn c) ((x : ℕ) : ℝ) 1) cs' = .ok (fun x => P' ((x : ℕ) : ℝ) 1) ∧
    (e 0 - e 1) * (sphereInner (P - P') (P - P')).re ≤
      18 / 100 * (sphereInner (synthesis 3 (List.ofFn flm)) (synthesis 3 (List.ofFn flm))).re := by
  have hpi := Real.pi_gt_three
  have h1 : (1 : ℝ) ∈ Set.Icc 0 Real.pi := ⟨by linarith, by linarith⟩
  have h2 : (2 : ℝ) ∈ Set.Icc 0 Real.pi := ⟨by linarith, by linarith⟩
  obtain ⟨-, n, dl, we, K, w, V, e, S, hn, hdl, hK, hD, hS, -⟩ := (C111_runs_exist 3 (by norm_num)).2 ⟨1, 2, 0, 1⟩ h1 h2
  obtain rfl : n = 8 := by omega
  have hD' : IsEigh (fun r c : Fin 9 => K r c + if r = c then ((1 / 100 : ℝ) : ℂ) else 0) (fun k => w k + ((1 / 100 : ℝ) : ℂ)) V := by
    obtain ⟨h1, h2, h3⟩ := hD
    refine ⟨fun k => by simp [h1 k], fun k r => ?_, h3⟩
    simp only [add_mul, Finset.sum_add_distrib, h2, ite_mul, zero_mul, Finset.sum_ite_eq, Finset.mem_univ, if_true]
  obtain ⟨σ, hσ, -⟩ := id hS
  have hS' : CleansLatLon (fun k => w k + ((1 / 100 : ℝ) : ℂ)) V (cleanLatLon σ (fun k => w k + ((1 / 100 : ℝ) : ℂ)) V).1
      (cleanLatLon σ (fun k => w k + ((1 / 100 : ℝ) : ℂ)) V).2 := by
    refine ⟨σ, fun i j hij => ?_, rfl⟩
    have := hσ hij
    simp only [Function.comp, add_re, ofReal_re] at this ⊢
    linarith
  have hε : ∀ r c : Fin 9, ‖(K r c + if r = c then (((1 / 100 : ℝ)) : ℂ) else 0) - K r c‖ ≤ 1 / 100 := by
    intro r c
    rw [add_sub_cancel_left]
    split
    · rw [norm_real, Real.norm_eq_abs, abs_of_pos (by norm_num)]
    · rw [norm_zero]; norm_num
  have ha := (C17_lat_lon_sorted_and_paired w V e S hS).1
  have hgap : ∀ p q : Fin 9, p.val < 1 → 1 ≤ q.val → e 0 - e 1 ≤ e p - e q := by
    intro p q hp hq
    obtain rfl : p = 0 := Fin.ext (by simpa using hp)
    have : e q ≤ e 1 := ha (by rw [Fin.le_def]; exact hq)
    linarith
  obtain ⟨cs, cs', P, P', hP, hP', -, hi, -, hi', hb, -⟩ := C141_lat_lon 3 8 hn ⟨1, 2, 0, 1⟩ dl hdl h1 h2 we K hK w V hD e S hS _ (1 / 100) hε _ V hD' _ _ hS'
    1 (by norm_num) (fun x : Fin 2 => (((x : ℕ) : ℝ), (1 : ℝ))) (fun c x => synthesis 3 (List.ofFn c) ((x : ℕ) : ℝ) 1) (fun c x => rfl) (fun _ => 1) flm
  refine ⟨dl, we, K, w, V, e, S, _, _, _, _, hdl, hK, hD, hS, hε, ?_, hD', hS', cs, cs', P, P', hP, hP', hi, hi', (hb (e 0 - e 1) (sub_nonneg.2 (ha (by decide))) hgap).trans (le_of_eq ?_)⟩
  · change K 0 0 + (if (0 : Fin 9) = 0 then ((1 / 100 : ℝ) : ℂ) else 0) ≠ K 0 0
    rw [if_pos rfl, ne_eq, add_eq_left]
    norm_num
  · norm_num

/-- two basis functions on three vertices, one kept, the matrix with entries outside its diagonal: the first eigenvalue is greater than the
other by `9 / 25`. -/
example (u : Fin 3 → ℝ) : ∃ (ms : MeshT.MeshSlepian (Fin 3)) (e : Fin 2 → ℝ) (S : Fin 2 → Fin 2 → ℝ) (M' : Fin 2 → Fin 2 → ℝ) (w' : Fin 2 → ℝ)
    (W' : Fin 2 → Fin 2 → ℝ) (e' : Fin 2 → ℝ) (S' : Fin 2 → Fin 2 → ℝ) (P P' : Fin 3 → ℝ),
    BuiltMesh ms ![![0, 3 / 5, 4 / 5], ![1, 0, 0]] e S 2 ∧ ms.N = 1 ∧ M' 0 1 = 1512 / 15625 ∧
    IsEighReal M' w' W' ∧ CleansMesh w' W' e' S' ∧
    (∃ cs, MeshT.slepianMeshForward ms ⟨some u, none, false⟩ none = .ok cs ∧ MeshT.slepianMeshInverse ms cs = .ok P) ∧
    (∃ cs, MeshT.slepianMeshForward { ms with evals := List.ofFn e', evecs := List.ofFn fun p => List.ofFn (S' p) } ⟨some u, none, false⟩ none = .ok cs ∧
      MeshT.slepianMeshInverse { ms with evals := List.ofFn e', evecs := List.ofFn fun p => List.ofFn (S' p) } cs = .ok P') ∧
    9 / 25 * ∑ v, (P v - P' v) ^ 2 ≤ 4 / 10 * ∑ v, u v ^ 2 ∧ (9 / 25 - 1 / 5) ^ 2 * ∑ v, (P v - P' v) ^ 2 ≤ 4 / 100 * ∑ v, u v ^ 2 ∧
    (9 / 25 - 1 / 5) ^ 2 * (1 - (∑ v, (∑ i, S' 0 i * (![![0, 3 / 5, 4 / 5], ![1, 0, 0]] : Fin 2 → Fin 3 → ℝ) i v) *
      ∑ i, S 0 i * (![![0, 3 / 5, 4 / 5], ![1, 0, 0]] : Fin 2 → Fin 3 → ℝ) i v) ^ 2) ≤ 4 / 100 := by
  have o2 : OrthonormalOnVertices (V := Fin 3) (K := 2) ![![0, 3 / 5, 4 / 5], ![1, 0, 0]] := by
    intro i j
    fin_cases i <;> fin_cases j <;> norm_num [Fin.sum_univ_succ]
  obtain ⟨ms, e, S, r, hN, b⟩ := exists_built _ o2 (fun v => v == 1) 1 (by norm_num)
  obtain ⟨-, -, hp, ha, ht⟩ := C50_mesh_energy_ratio ms _ e S 2 b
  have hE := b.eigen
  rw [r] at ht hE
  have ht' : e 0 + e 1 = 9 / 25 := by
    rw [← Fin.sum_univ_two e, ht]
    norm_num [Finset.sum_filter, Fin.sum_univ_succ]
  have h0 : (9 / 25 - e 0) * S 0 0 = 0 ∧ e 0 * S 0 1 = 0 := by
    have a0 := hE.1 0 0
    have a1 := hE.1 0 1
    norm_num [Fin.sum_univ_succ] at a0 a1
    constructor
    · rcases a0 with a0 | a0 <;> rw [a0] <;> ring
    · rcases a1 with a1 | a1 <;> rw [a1] <;> ring
  have hu : S 0 0 * S 0 0 + S 0 1 * S 0 1 = 1 := by
    have := hE.2 0 0
    simpa [Fin.sum_univ_two] using this
  have he1 : e 1 ≤ e 0 := ha (by decide)
  have he0 : e 0 = 9 / 25 := by
    rcases mul_eq_zero.1 h0.1 with h | h
    · linarith
    · rcases mul_eq_zero.1 h0.2 with h' | h'
      · linarith
      · rw [h, h'] at hu
        norm_num at hu
  have hD' : IsEighReal (n := 2) ![![5184 / 15625, 1512 / 15625], ![1512 / 15625, 441 / 15625]] ![9 / 25, 0]
      ![![24 / 25, -7 / 25], ![7 / 25, 24 / 25]] := by
    constructor <;> intro k r <;> fin_cases k <;> fin_cases r <;> norm_num [Fin.sum_univ_succ]
  have hS' : CleansMesh (n := 2) ![9 / 25, 0] ![![24 / 25, -7 / 25], ![7 / 25, 24 / 25]]
      (cleanMesh (Equiv.swap 0 1) ![9 / 25, 0] ![![24 / 25, -7 / 25], ![7 / 25, 24 / 25]]).1
      (cleanMesh (Equiv.swap 0 1) ![9 / 25, 0] ![![24 / 25, -7 / 25], ![7 / 25, 24 / 25]]).2 := by
    refine ⟨Equiv.swap 0 1, fun i j hij => ?_, rfl⟩
    fin_cases i <;> fin_cases j <;> first | exact absurd hij (by decide) | norm_num
  have hgap : ∀ p q : Fin 2, p.val < ms.N → ms.N ≤ q.val → 9 / 25 ≤ e p - e q := by
    intro p q hp hq
    rw [hN] at hp hq
    obtain rfl : p = 0 := Fin.ext (by simpa using hp)
    obtain rfl : q = 1 := Fin.ext (by have := q.2; simp only [Fin.val_one]; omega)
    linarith
  have hε : ∀ p q : Fin 2, |(![![5184 / 15625, 1512 / 15625], ![1512 / 15625, 441 / 15625]] : Fin 2 → Fin 2 → ℝ) p q -
      ∑ v with ms.region v = true, (![![0, 3 / 5, 4 / 5], ![1, 0, 0]] : Fin 2 → Fin 3 → ℝ) p v * (![![0, 3 / 5, 4 / 5], ![1, 0, 0]] : Fin 2 → Fin 3 → ℝ) q v| ≤ 1 / 10 := by
    intro p q
    rw [r]
    fin_cases p <;> fin_cases q <;> norm_num [Finset.sum_filter, Fin.sum_univ_succ, abs_le]
  have hs := ((C139_mesh ms _ e S 2 b _ (1 / 10) hε _ _ hD' _ _ hS').2.2.2.2.2 0 (9 / 25) (by norm_num) fun p hp => by
    obtain rfl : p = 1 := by omega
    rw [abs_sub_comm]
    exact (by linarith : 9 / 25 ≤ e 0 - e 1).trans (le_abs_self _)).1
  obtain ⟨cs, cs', P, P', f1, f2, f3, f4, hb, hb2⟩ := C141_mesh ms _ e S 2 b _ (1 / 10) hε _ _ hD' _ _ hS' u
  refine ⟨ms, e, S, _, _, _, _, _, P, P', b, hN, rfl, hD', hS', ⟨cs, f1, f2⟩, ⟨cs', f3, f4⟩, (hb (9 / 25) (by norm_num) hgap).trans (le_of_eq ?_), ?_, ?_⟩
  · rw [hN]
    norm_num
  · have := hb2 (9 / 25) (by norm_num) hgap
    rw [hN] at this
    norm_num at this ⊢
    linarith
  · have h5 : (9 / 25 - ((2 : ℕ) : ℝ) * (1 / 10)) ^ 2 = (9 / 25 - 1 / 5 : ℝ) ^ 2 := by norm_num
    rw [h5] at hs
    exact hs.trans (by norm_num)

end Sleplet.Props
