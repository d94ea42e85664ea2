import Verif.Lemmas.BestOnSphere
import Verif.Props.ConcentrationGrid
import Verif.Props.ConcentrationLatLon
import Verif.Props.ConcentrationPolar
import Verif.Props.MeshTransform
import Verif.Props.SlepianTransform

/-!
C88: the Slepian functions solve the concentration problem, for every kind of region.
-/
namespace Sleplet.Props

open Complex Sleplet.Spec Sleplet.Gaunt Sleplet.RealMat Sleplet.Eigen Sleplet.LatLon

/-- C88, polar caps and gaps.  Whatever the workers, the solver and the sorting do, within their contracts: among all fields of the
bandlimit, with integrals over the sphere and the caps. -/
theorem C88_polar (L : ℕ) (gap : Bool) (t : ℝ) (ht0 : 0 ≤ t) (htpi : t ≤ Real.pi)
    (plm : List ℝ) (hlen : plm.length = (2 * L) ^ 2) (hplm : ∀ n < 2 * L, plm.getD (elm2ind n 0) 0 = (sphHarm n 0 t 0).re)
    (M : ℤ → ℕ → ℕ → ℝ) (hM : ∀ m : ℤ, m.natAbs < L → ∃ ncpu we, 1 ≤ ncpu ∧ CreatesOrder L gap plm m ncpu we (.ok (M m)))
    (sol : ℤ → OrderSolution) (hsol : ∀ m : ℤ, m.natAbs < L → IsEighOrder (L - m.natAbs) (M m) (sol m))
    (r : Except Err (List ℝ × List (List ℂ) × List ℤ)) (h : SolvesAll L sol r) :
    ∃ e v o, r = .ok (e, v, o) ∧ e.length = L ^ 2 ∧ v.length = L ^ 2 ∧
      BestConcentrated (bandlimited L) sphereInner (fun f => (capIntegral gap t fun th ph => f th ph * (starRingEnd ℂ) (f th ph)).re)
        (fun (p : Fin (L ^ 2)) => synthesis L (v.getD p [])) (fun p => e.getD p 0) := by
  obtain ⟨e, v, o, hr, he, hv, h1, h2, -, -, -, hdec⟩ := C50_polar_energy_ratio L gap t ht0 htpi plm hlen hplm M hM sol hsol r h
  have hsorted : Antitone fun p : Fin (L ^ 2) => e.getD p 0 := by
    intro p q hpq
    rcases eq_or_lt_of_le hpq with rfl | hlt
    · exact le_rfl
    · have hp : (p : ℕ) < e.length := by rw [he]; exact p.2
      have hq : (q : ℕ) < e.length := by rw [he]; exact q.2
      have := List.pairwise_iff_getElem.1 hdec p q hp hq hlt
      simpa [List.getD_eq_getElem?_getD, List.getElem?_eq_getElem hp, List.getElem?_eq_getElem hq] using this
  have hsyn : ∀ p : Fin (L ^ 2), synthesis L (v.getD p []) = slepianFunction L v p := by
    intro p
    funext th ph
    rw [Gaunt.synthesis_eq]
    rfl
  refine ⟨e, v, o, hr, he, hv, ?_⟩
  simp only [hsyn]
  refine best_on_sphere rfl (fun p i : Fin (L ^ 2) => (v.getD p []).getD i 0) _ hsorted _ _ rfl (fun p q => ?_) (fun a => ?_)
  · have := h1 p p.2 q q.2
    unfold sphereInner
    rw [this]
    simp only [Fin.ext_iff]
  · have hc : ∀ p : Fin (L ^ 2), Continuous fun x : ℝ × ℝ => slepianFunction L v p x.1 x.2 := fun p =>
      continuous_finsetSum _ fun i _ => continuous_const.mul (continuous_harm i)
    rw [cap_synth (fun p : Fin (L ^ 2) => slepianFunction L v p) hc a a, diagonal_form _ (fun p : Fin (L ^ 2) => e.getD p 0) (fun p q => ?_)]
    · exact ofReal_re _
    · rw [h2 p p.2 q q.2]
      simp only [Fin.ext_iff]

/-- C88, limited latitude/longitude. -/
theorem C88_lat_lon (L : ℕ) (n : ℕ) (hn : n + 1 = L ^ 2) (B : Bounds) (dl : Table) (hdl : IsWigner L dl)
    (hB0 : B.tmin ∈ Set.Icc 0 Real.pi) (hB1 : B.tmax ∈ Set.Icc 0 Real.pi) (we : ℕ → Option Err)
    (K : Mat) (h : CreatesK L B dl we (.ok K)) (w : Fin (n + 1) → ℂ) (V : Fin (n + 1) → Fin (n + 1) → ℂ)
    (hD : IsEigh (fun r c : Fin (n + 1) => K r c) w V)
    (e : Fin (n + 1) → ℝ) (S : Fin (n + 1) → Fin (n + 1) → ℂ) (hS : CleansLatLon w V e S) :
    BestConcentrated (bandlimited L) sphereInner (fun f => ∫ ph in B.pmin..B.pmax, ∫ th in B.tmin..B.tmax, ‖f th ph‖ ^ 2 * Real.sin th)
      (fun p => synthesis L (List.ofFn (S p))) e := by
  obtain ⟨h1, h2, h3, -⟩ := C50_lat_lon_energy_ratio L n hn B dl hdl hB0 hB1 we K h w V hD e S hS
  have hdec := (C17_lat_lon_sorted_and_paired w V e S hS).1
  have hsyn : ∀ p, synthesis L (List.ofFn (S p)) = fun th ph => ∑ i : Fin (n + 1), S p i * harm i th ph := by
    intro p
    funext th ph
    rw [Gaunt.synthesis_eq, Fin.sum_univ_eq_sum_range (fun i => (List.ofFn (S p)).getD i 0 * harm i th ph), ← hn,
      ← Fin.sum_univ_eq_sum_range]
    refine Finset.sum_congr rfl fun i _ => ?_
    simp only [List.getD_eq_getElem?_getD, List.getElem?_ofFn, i.2, dif_pos, Option.getD_some]
  simp only [hsyn]
  refine best_on_sphere hn S e hdec _ _ rfl (fun p q => h3 p q) (fun a => ?_)
  have hc : ∀ p : Fin (n + 1), Continuous fun x : ℝ × ℝ => ∑ i : Fin (n + 1), S p i * harm i x.1 x.2 := fun p =>
    continuous_finsetSum _ fun i _ => continuous_const.mul (continuous_harm i)
  have h4 := surface_synth (fun (p : Fin (n + 1)) th ph => ∑ i : Fin (n + 1), S p i * harm i th ph) hc a a B.tmin B.tmax B.pmin B.pmax
  rw [diagonal_form _ e (fun p q => ?_), surface_self] at h4
  · exact_mod_cast h4
  · by_cases hpq : p = q
    · subst hpq
      rw [surface_self, if_pos rfl]
      have := h1 p
      exact_mod_cast this
    · rw [if_neg hpq]
      exact h2 p q hpq

/-- C88, arbitrary regions.  The energy in the region is the sum over the samples of the mask with the weights of the program. -/
theorem C88_arbitrary (L n : ℕ) (hn : n + 1 = L ^ 2) (m : Integration.Grid (2 * L) → Bool) (P : Arb.Params (Integration.Grid (2 * L)))
    (hP : OnGrid L m P) (ncpu : ℕ) (hpos : 1 ≤ ncpu) (we : ℕ → Option Err) (M : ℕ → ℕ → ℂ) (h : Arb.CreatesD P ncpu we (.ok M))
    (w : Fin (n + 1) → ℂ) (V : Fin (n + 1) → Fin (n + 1) → ℂ) (hD : IsEigh (fun r c : Fin (n + 1) => M r c) w V)
    (e : Fin (n + 1) → ℝ) (S : Fin (n + 1) → Fin (n + 1) → ℂ) (hS : CleansArbitrary w V e S) :
    BestConcentrated (bandlimited L) sphereInner
      (fun f => ∑ x with m x, ‖f (Integration.theta x) (Integration.phi x)‖ ^ 2 * Integration.weight (2 * L) x)
      (fun p => synthesis L (List.ofFn (S p))) e := by
  obtain ⟨-, -, -, h1⟩ := C50_arbitrary_bounded_partial L n hn m P hP ncpu hpos we M h w V hD e S hS
  obtain ⟨-, horth⟩ := C18_arbitrary_orthonormal_eigenvectors _ w V hD e S hS
  have hdec := (C17_arbitrary_sorted_and_paired w V e S hS).1
  have hsyn : ∀ p, synthesis L (List.ofFn (S p)) = fun th ph => ∑ i : Fin (n + 1), S p i * harm i th ph := by
    intro p
    funext th ph
    rw [Gaunt.synthesis_eq, Fin.sum_univ_eq_sum_range (fun i => (List.ofFn (S p)).getD i 0 * harm i th ph), ← hn,
      ← Fin.sum_univ_eq_sum_range]
    refine Finset.sum_congr rfl fun i _ => ?_
    simp only [List.getD_eq_getElem?_getD, List.getElem?_ofFn, i.2, dif_pos, Option.getD_some]
  simp only [hsyn]
  refine best_on_sphere hn S e hdec _ _ rfl (fun p q => ?_) (fun a => ?_)
  · rw [inner_sums]
    exact horth p q
  · have h4 := regionInner_synth (Integration.weight (2 * L)) (fun x => if m x then 1 else 0)
      (fun (p : Fin (n + 1)) x => ∑ i : Fin (n + 1), S p i * sampledHarmonic (2 * L) i x) a a
    rw [diagonal_form _ e (fun p q => ?_), regionInner_self] at h4
    · have h5 : energy (Integration.weight (2 * L)) (fun x => if m x then 1 else 0)
          (synth (fun (p : Fin (n + 1)) x => ∑ i : Fin (n + 1), S p i * sampledHarmonic (2 * L) i x) a) = ∑ p, e p * ‖a p‖ ^ 2 := by
        exact_mod_cast h4
      rw [← h5]
      unfold energy synth
      rw [Finset.sum_filter]
      refine Finset.sum_congr rfl fun x _ => ?_
      by_cases hm : m x = true
      · simp [hm, sampledHarmonic, harm]
      · simp [hm]
    · rw [← h1 p q]
      unfold regionInner
      refine Finset.sum_congr rfl fun x _ => ?_
      by_cases hm : m x = true <;> simp [hm]

/-- C88, regions of meshes, among the combinations of the basis functions. -/
theorem C88_mesh {Vert : Type} [Fintype Vert] {K : ℕ} (ms : MeshT.MeshSlepian Vert) (φ : Fin K → Vert → ℝ) (e : Fin K → ℝ)
    (S : Fin K → Fin K → ℝ) (rows : ℕ) (h : BuiltMesh ms φ e S rows) :
    BestConcentrated (𝕜 := ℝ) {f : Vert → ℝ | ∃ c : Fin K → ℝ, f = fun v => ∑ i, c i * φ i v} (fun f g => ∑ v, f v * g v)
      (fun f => ∑ v with ms.region v = true, f v ^ 2) (fun p v => ∑ i, S p i * φ i v) e := by
  obtain ⟨h1, h2, -, hdec, -⟩ := C50_mesh_energy_ratio ms φ e S rows h
  obtain ⟨-, horth⟩ := h.eigen
  have hcol : ∀ r c, ∑ p, S p r * S p c = if r = c then (1 : ℝ) else 0 := by
    have h3 : (Matrix.of S) * (Matrix.of S).transpose = 1 := by
      ext p q
      rw [Matrix.mul_apply, Matrix.one_apply]
      exact horth p q
    have h4 := mul_eq_one_comm.1 h3
    intro r c
    have h5 := congrFun (congrFun h4 r) c
    rw [Matrix.mul_apply, Matrix.one_apply] at h5
    exact h5
  have hcomb : ∀ a : Fin K → ℝ, (∑ p, a p • fun v => ∑ i, S p i * φ i v) = fun v => ∑ p, a p * ∑ i, S p i * φ i v := by
    intro a
    funext v
    simp [Finset.sum_apply]
  have hsyn : ∀ a : Fin K → ℝ, (fun v => ∑ p, a p * ∑ i, S p i * φ i v) = fun v => ∑ i, (∑ p, a p * S p i) * φ i v := by
    intro a
    funext v
    simp only [Finset.mul_sum, Finset.sum_mul]
    rw [Finset.sum_comm]
    exact Finset.sum_congr rfl fun i _ => Finset.sum_congr rfl fun p _ => by ring
  have hform : ∀ (t : Finset Vert) (d : Fin K → ℝ), (∀ p q, (∑ v ∈ t, (∑ i, S p i * φ i v) * ∑ i, S q i * φ i v) = if p = q then d p else 0) →
      ∀ a b : Fin K → ℝ, (∑ v ∈ t, (∑ p, a p * ∑ i, S p i * φ i v) * ∑ q, b q * ∑ i, S q i * φ i v) = ∑ p, d p * (a p * b p) := by
    intro t d hd a b
    calc (∑ v ∈ t, (∑ p, a p * ∑ i, S p i * φ i v) * ∑ q, b q * ∑ i, S q i * φ i v)
        = ∑ v ∈ t, ∑ p, ∑ q, (a p * b q) * ((∑ i, S p i * φ i v) * ∑ i, S q i * φ i v) := by
          refine Finset.sum_congr rfl fun v _ => ?_
          rw [Finset.sum_mul_sum]
          exact Finset.sum_congr rfl fun p _ => Finset.sum_congr rfl fun q _ => by ring
      _ = ∑ p, ∑ q, (a p * b q) * ∑ v ∈ t, (∑ i, S p i * φ i v) * ∑ i, S q i * φ i v := by
          rw [Finset.sum_comm]
          refine Finset.sum_congr rfl fun p _ => ?_
          rw [Finset.sum_comm]
          exact Finset.sum_congr rfl fun q _ => by rw [Finset.mul_sum]
      _ = _ := by
          refine Finset.sum_congr rfl fun p _ => ?_
          simp only [hd, mul_ite, mul_zero, Finset.sum_ite_eq, Finset.mem_univ, if_true]
          ring
  refine bestConcentrated _ _ _ _ e hdec (fun f => ?_) (fun a b => ?_) (fun a => ?_)
  · constructor
    · rintro ⟨c, rfl⟩
      refine ⟨fun p => ∑ i, c i * S p i, ?_⟩
      rw [hcomb, hsyn]
      funext v
      refine Finset.sum_congr rfl fun i _ => ?_
      congr 1
      simp only [Finset.sum_mul]
      rw [Finset.sum_comm]
      have : ∀ j, ∑ p, c j * S p j * S p i = if j = i then c j else 0 := by
        intro j
        simp only [mul_assoc]
        rw [← Finset.mul_sum, hcol]
        simp
      simp only [this, Finset.sum_ite_eq', Finset.mem_univ, if_true]
    · rintro ⟨a, rfl⟩
      exact ⟨fun i => ∑ p, a p * S p i, by rw [hcomb, hsyn]⟩
  · simp only [hcomb]
    rw [hform Finset.univ (fun _ => 1) h1]
    simp
  · simp only [hcomb, sq]
    rw [hform _ e h2]
    refine Finset.sum_congr rfl fun p _ => ?_
    rw [Real.norm_eq_abs, abs_mul_abs_self]

/-- C88.  Reconstruction: transforming a signal of the bandlimit to its `N` Slepian coefficients and back gives a field of the
bandlimit whose difference from the signal has at most the part `e_N` of its energy in the region (and not more energy than the
signal). -/
theorem C88_reconstruction {L : ℕ} {Pix : Type} [Fintype Pix] (region : (ℝ → ℝ → ℂ) → ℝ) (S : Fin (L ^ 2) → Fin (L ^ 2) → ℂ)
    (e : Fin (L ^ 2) → ℝ) (hbest : BestConcentrated (bandlimited L) sphereInner region (fun p => synthesis L (List.ofFn (S p))) e)
    (sl : Transform.Slepian (L ^ 2)) (hN : sl.N < L ^ 2) (hev : ∀ p : Fin (L ^ 2), p.val < sl.N → sl.evecs[(p : ℕ)]? = some (S p))
    (point : Pix → ℝ × ℝ) (synth : (Fin (L ^ 2) → ℂ) → Pix → ℂ)
    (hY : ∀ c x, synth c x = synthesis L (List.ofFn c) (point x).1 (point x).2) (w : Pix → ℝ) (flm : Fin (L ^ 2) → ℂ) :
    ∃ (cs : List ℂ) (f g : ℝ → ℝ → ℂ), f = synthesis L (List.ofFn flm) ∧ g ∈ bandlimited L ∧
      Transform.slepianForward sl synth w { flm := some flm } none = .ok cs ∧
      Transform.slepianInverse sl synth cs = .ok (fun x => g (point x).1 (point x).2) ∧
      region (f - g) ≤ e ⟨sl.N, hN⟩ * (sphereInner (f - g) (f - g)).re ∧
      (sphereInner (f - g) (f - g)).re ≤ (sphereInner f f).re := by
  have hsyn : ∀ c : Fin (L ^ 2) → ℂ, synthesis L (List.ofFn c) = fun th ph => ∑ i : Fin (L ^ 2), c i * harm i th ph := by
    intro c
    funext th ph
    rw [Gaunt.synthesis_eq]
    refine Finset.sum_congr rfl fun i _ => ?_
    simp only [List.getD_eq_getElem?_getD, List.getElem?_ofFn, i.2, dif_pos, Option.getD_some]
  have hinner : ∀ a b : Fin (L ^ 2) → ℂ, sphereInner (synthesis L (List.ofFn a)) (synthesis L (List.ofFn b)) =
      ∑ i, a i * (starRingEnd ℂ) (b i) := by
    intro a b
    rw [hsyn, hsyn, inner_sums]
  let E : Fin sl.N → Fin (L ^ 2) → ℂ := fun p => S ⟨p, by omega⟩
  have hE : OrthonormalRows E := by
    intro p q
    have := hbest.orthonormal ⟨p, by omega⟩ ⟨q, by omega⟩
    rw [hinner] at this
    refine this.trans ?_
    simp only [Fin.ext_iff]
  obtain ⟨F, g, hF, hg, ⟨a, ha⟩, hperp, -, -⟩ := C32_round_trip_projection sl synth w (fun i x => harm i (point x).1 (point x).2)
    (fun c x => by rw [hY, hsyn]) E rfl hN.le (fun p => hev ⟨p, by omega⟩ p.2) hE flm
  have haq : ∀ q : Fin sl.N, a q = ∑ i, flm i * (starRingEnd ℂ) (E q i) := by
    intro q
    have h1 := hperp q
    simp only [sub_mul, Finset.sum_sub_distrib, sub_eq_zero] at h1
    rw [h1]
    simp only [ha, Finset.sum_mul]
    rw [Finset.sum_comm]
    have : ∀ p, ∑ i, a p * E p i * (starRingEnd ℂ) (E q i) = if p = q then a p else 0 := by
      intro p
      simp only [mul_assoc]
      rw [← Finset.mul_sum, hE p q]
      simp
    simp only [this, Finset.sum_ite_eq', Finset.mem_univ, if_true]
  have hrem := hbest.remainder ⟨sl.N, hN⟩ (synthesis L (List.ofFn flm)) ⟨_, rfl⟩ (synthesis L (List.ofFn flm) - synthesis L (List.ofFn g))
    (by
      congr 1
      simp only [hinner]
      funext th ph
      rw [hsyn]
      simp only [Finset.sum_apply, Pi.smul_apply, smul_eq_mul, hsyn, ha, haq]
      have hswap : ∑ i : Fin (L ^ 2), (∑ p, (∑ j, flm j * (starRingEnd ℂ) (E p j)) * E p i) * harm i th ph =
          ∑ p, (∑ j, flm j * (starRingEnd ℂ) (E p j)) * ∑ i, E p i * harm i th ph := by
        simp only [Finset.sum_mul _ _ (harm _ _ _), Finset.mul_sum _ _ (∑ j, flm j * (starRingEnd ℂ) (E _ j))]
        rw [Finset.sum_comm]
        exact Finset.sum_congr rfl fun p _ => Finset.sum_congr rfl fun i _ => by ring
      rw [hswap]
      refine Finset.sum_bij (fun p _ => ⟨p, by omega⟩) (fun p _ => ?_) (fun p _ q _ hpq => ?_) (fun q hq => ?_) (fun p _ => rfl)
      · simp only [Finset.mem_filter, Finset.mem_univ, true_and, Fin.lt_def]
        exact p.2
      · exact Fin.ext (by simpa using hpq)
      · simp only [Finset.mem_filter, Finset.mem_univ, true_and, Fin.lt_def] at hq
        exact ⟨⟨q, hq⟩, Finset.mem_univ _, rfl⟩)
  exact ⟨_, _, _, rfl, ⟨_, rfl⟩, hF, by rw [hg]; congr 1; funext x; exact hY g x, hrem.1, hrem.2⟩

/-- the hypotheses of `C88_polar` are met for every cap, and those of `C88_reconstruction` by its result, for a signal that is not
reproduced exactly.  (Those of `C88_lat_lon`, `C88_arbitrary` and `C88_mesh` are those of the theorems of C50, with examples there.) -/
example (gap : Bool) (t : ℝ) (ht0 : 0 ≤ t) (htpi : t ≤ Real.pi) : ∃ (S : Fin (2 ^ 2) → Fin (2 ^ 2) → ℂ) (e : Fin (2 ^ 2) → ℝ)
    (sl : Transform.Slepian (2 ^ 2)) (flm : Fin (2 ^ 2) → ℂ),
    BestConcentrated (bandlimited 2) sphereInner (fun f => (capIntegral gap t fun th ph => f th ph * (starRingEnd ℂ) (f th ph)).re)
      (fun p => synthesis 2 (List.ofFn (S p))) e ∧ sl.N = 1 ∧
    (∀ p : Fin (2 ^ 2), p.val < sl.N → sl.evecs[(p : ℕ)]? = some (S p)) ∧
    Transform.slepianForward (Pix := Unit) sl (fun c _ => synthesis 2 (List.ofFn c) 0 0) (fun _ => 1) { flm := some flm } none = .ok [0] ∧
    flm ≠ 0 := by
  obtain ⟨plm, M, sol, r, h1, h2, h3, h4, h5⟩ := C50_polar_runs_exist 2 gap t
  obtain ⟨e, v, o, -, -, -, hb⟩ := C88_polar 2 gap t ht0 htpi plm h1 h2 M h3 sol h4 r h5
  let S : Fin (2 ^ 2) → Fin (2 ^ 2) → ℂ := fun p i => (v.getD p []).getD i 0
  have hsyn : ∀ p : Fin (2 ^ 2), synthesis 2 (v.getD p []) = synthesis 2 (List.ofFn (S p)) := by
    intro p
    funext th ph
    rw [Gaunt.synthesis_eq, Gaunt.synthesis_eq]
    refine Finset.sum_congr rfl fun i _ => ?_
    simp only [S, List.getD_eq_getElem?_getD, List.getElem?_ofFn, i.2, dif_pos, Option.getD_some]
  simp only [hsyn] at hb
  have hinner : ∀ p q, ∑ i, S p i * (starRingEnd ℂ) (S q i) = if p = q then 1 else 0 := by
    intro p q
    rw [← hb.orthonormal p q, ← inner_sums]
    congr 1 <;> funext th ph <;> rw [Gaunt.synthesis_eq] <;> refine Finset.sum_congr rfl fun i _ => ?_ <;>
      simp only [S, List.getD_eq_getElem?_getD, List.getElem?_ofFn, i.2, dif_pos, Option.getD_some]
  refine ⟨S, fun p => e.getD p 0, ⟨1, [1], [S 0]⟩, S 1, hb, rfl, fun p hp => ?_, ?_, fun h0 => ?_⟩
  · have : p = 0 := Fin.ext (by simpa using hp)
    subst this
    rfl
  · have hrow : ∀ p : Fin 1, [S 0][(p : ℕ)]? = some (S 0) := by
      intro p
      have : (p : ℕ) = 0 := by omega
      rw [this]
      rfl
    refine (forward_flm (N := 1) (E := fun _ => S 0) ⟨1, [1], [S 0]⟩ _ _ rfl (by norm_num) hrow (S 1)).trans ?_
    have := hinner 1 0
    rw [if_neg (by decide)] at this
    simp only [this]
    rfl
  · have := hinner 1 1
    rw [h0] at this
    simp at this

end Sleplet.Props
