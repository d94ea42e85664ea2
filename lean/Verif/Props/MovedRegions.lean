import Verif.Lemmas.FormErrors
import Verif.Lemmas.MovedRegion
import Verif.Props.NearReconstruction
import Verif.Props.SolverIndependence

/-!
C142: reconstructions with the functions of two regions that differ little.  `P` is the signal rebuilt from the first `N` coefficients with
the functions of one region, `P'` with those of the other.
-/
namespace Sleplet.Props

open Complex Sleplet.Spec Sleplet.Gaunt Sleplet.RealMat Sleplet.Eigen Sleplet.LatLon

/-- two regions whose energies of bandlimited fields differ by at most `d` of the whole; only the first `N` rows may be at hand,
and the eigenvalues at hand do not matter. -/
theorem moved_rows {L : ℕ} {R R' : Shape L} (hR : R.Valid) (hR' : R'.Valid) {e e' : List ℝ} {v v' : List (List ℂ)} (h : R.Gives e v)
    (h' : R'.Gives e' v') (d : ℝ) (hd : ∀ f ∈ bandlimited L, |R'.energy f - R.energy f| ≤ d * (sphereInner f f).re) (N : ℕ) (hN : N ≤ L ^ 2)
    (x x' : List ℝ) (u : List (List ℂ)) (hu : N ≤ u.length) (huv : ∀ p < N, u.getD p [] = v.getD p [])
    (u' : List (List ℂ)) (hu' : N ≤ u'.length) (huv' : ∀ p < N, u'.getD p [] = v'.getD p [])
    {Pix : Type} [Fintype Pix] (point : Pix → ℝ × ℝ) (synth : (Fin (L ^ 2) → ℂ) → Pix → ℂ)
    (hY : ∀ c x, synth c x = synthesis L (List.ofFn c) (point x).1 (point x).2) (weight : Pix → ℝ) (flm : Fin (L ^ 2) → ℂ) :
    let f := synthesis L (List.ofFn flm)
    ∃ cs cs' P P', P ∈ bandlimited L ∧ P' ∈ bandlimited L ∧
      Transform.slepianForward (asObject L N x u) synth weight { flm := some flm } none = .ok cs ∧
      Transform.slepianInverse (asObject L N x u) synth cs = .ok (fun x => P (point x).1 (point x).2) ∧
      Transform.slepianForward (asObject L N x' u') synth weight { flm := some flm } none = .ok cs' ∧
      Transform.slepianInverse (asObject L N x' u') synth cs' = .ok (fun x => P' (point x).1 (point x).2) ∧
      (∀ p < L ^ 2, |e'.getD p 0 - e.getD p 0| ≤ d) ∧
      (∀ g : ℝ, 0 ≤ g → (∀ p < N, ∀ q, N ≤ q → q < L ^ 2 → g ≤ e.getD p 0 - e.getD q 0) →
        g * (sphereInner (P - P') (P - P')).re ≤ 2 * N * d * (sphereInner f f).re) ∧
      (∀ g : ℝ, d ≤ g → (∀ p < N, ∀ q, N ≤ q → q < L ^ 2 → g ≤ e.getD p 0 - e.getD q 0) →
        (g - d) ^ 2 * (sphereInner (P - P') (P - P')).re ≤ N * d ^ 2 * (sphereInner f f).re) ∧
      ∀ (k : ℕ) (g : ℝ), k < L ^ 2 → d ≤ g → (∀ p < L ^ 2, p ≠ k → g ≤ |e.getD p 0 - e.getD k 0|) →
        (g - d) ^ 2 * (1 - ‖sphereInner (synthesis L (v'.getD k [])) (synthesis L (v.getD k []))‖ ^ 2) ≤ d ^ 2 := by
  have hb := Shape.best hR h
  have hb' := Shape.best hR' h'
  obtain ⟨k1, -, k3⟩ := near_solutions hb hb' (linearOn_bandlimited L) norm_sphereInner d hd
  have hrow : ∀ c : List ℂ, synthesis L (List.ofFn fun i : Fin (L ^ 2) => c.getD i 0) = synthesis L c := by
    intro c
    rw [synthesis_sum]
    funext th ph
    exact (Gaunt.synthesis_eq L _ th ph).symm
  let C : Fin (L ^ 2) → Fin (L ^ 2) → ℂ := fun p i => (v.getD p []).getD i 0
  let C' : Fin (L ^ 2) → Fin (L ^ 2) → ℂ := fun p i => (v'.getD p []).getD i 0
  have hs : ∀ p, synthesis L (List.ofFn (C p)) = synthesis L (v.getD p []) := fun p => hrow _
  have hs' : ∀ p, synthesis L (List.ofFn (C' p)) = synthesis L (v'.getD p []) := fun p => hrow _
  have hO : OrthonormalRows C := fun p q => by rw [← inner_synthesis, hs, hs]; exact hb.orthonormal p q
  have hO' : OrthonormalRows C' := fun p q => by rw [← inner_synthesis, hs', hs']; exact hb'.orthonormal p q
  obtain ⟨cs, cs', P, P', a1, a2, a3, a4, a5, a6, key⟩ := near_signals x x' u u' N hN hu hu'
    C C' (fun p _ hp => by rw [huv p hp]) (fun p _ hp => by rw [huv' p hp]) hO hO' point synth hY weight flm
  have hforms : ∀ a : Fin (L ^ 2) → ℂ, |∑ p : Fin (L ^ 2), e'.getD p 0 * ‖∑ i, a i * (starRingEnd ℂ) (C' p i)‖ ^ 2 -
      ∑ p : Fin (L ^ 2), e.getD p 0 * ‖∑ i, a i * (starRingEnd ℂ) (C p i)‖ ^ 2| ≤ d * ∑ i, ‖a i‖ ^ 2 := by
    intro a
    have hm : synthesis L (List.ofFn a) ∈ bandlimited L := by
      rw [mem_bandlimited_iff]
      exact ⟨a, by rw [synthesis_sum]; rfl⟩
    have h1 := hd _ hm
    rw [hb.energyIn _ hm, hb'.energyIn _ hm] at h1
    simp only [← hs, ← hs', inner_synthesis] at h1
    refine h1.trans (le_of_eq ?_)
    congr 1
    rw [Complex.re_sum]
    refine Finset.sum_congr rfl fun i _ => ?_
    rw [Complex.mul_conj, Complex.ofReal_re, Complex.normSq_eq_norm_sq]
  refine ⟨cs, cs', P, P', a1, a2, a3, a4, a5, a6, fun p hp => k1 ⟨p, hp⟩, fun g hg hgap => key g _ hg ?_,
    fun g hg hgap => key _ _ (sq_nonneg _) ?_, fun k g hk hg hgap => ?_⟩
  · simp only [hs, hs']
    exact k3 N g hN fun p q hp hq => hgap p hp q hq q.2
  · simp only [inner_synthesis]
    exact leading_forms C C' _ _ hO hO' d hforms k1 N hN g hg fun p q hp hq => hgap p hp q hq q.2
  · have := separated_forms C C' _ _ hO hO' d hforms ⟨k, hk⟩ (k1 ⟨k, hk⟩) g hg fun p hp => hgap p p.2 fun h => hp (Fin.ext h)
    rw [← inner_synthesis, hs, hs'] at this
    exact this

/-- C142, polar caps and gaps: `L² / 2` times the change of the cosine (twice that for a gap) is the change of the Shannon number. -/
theorem C142_polar (L : ℕ) (gap : Bool) (t t' : ℝ) (ht : t ∈ Set.Icc 0 Real.pi) (ht' : t' ∈ Set.Icc 0 Real.pi) (e e' : List ℝ)
    (v v' : List (List ℂ)) (h : (Shape.polar gap t : Shape L).Gives e v) (h' : (Shape.polar gap t' : Shape L).Gives e' v')
    (N : ℕ) (hN : N ≤ L ^ 2)
    {Pix : Type} [Fintype Pix] (point : Pix → ℝ × ℝ) (synth : (Fin (L ^ 2) → ℂ) → Pix → ℂ)
    (hY : ∀ c x, synth c x = synthesis L (List.ofFn c) (point x).1 (point x).2) (weight : Pix → ℝ) (flm : Fin (L ^ 2) → ℂ) :
    let f := synthesis L (List.ofFn flm)
    let d := (if gap then 2 else 1) * (L ^ 2 / 2 * |Real.cos t - Real.cos t'|)
    ∃ cs cs' P P', P ∈ bandlimited L ∧ P' ∈ bandlimited L ∧
      Transform.slepianForward (asObject L N e v) synth weight { flm := some flm } none = .ok cs ∧
      Transform.slepianInverse (asObject L N e v) synth cs = .ok (fun x => P (point x).1 (point x).2) ∧
      Transform.slepianForward (asObject L N e' v') synth weight { flm := some flm } none = .ok cs' ∧
      Transform.slepianInverse (asObject L N e' v') synth cs' = .ok (fun x => P' (point x).1 (point x).2) ∧
      (∀ p < L ^ 2, |e'.getD p 0 - e.getD p 0| ≤ d) ∧
      (∀ g : ℝ, 0 ≤ g → (∀ p < N, ∀ q, N ≤ q → q < L ^ 2 → g ≤ e.getD p 0 - e.getD q 0) →
        g * (sphereInner (P - P') (P - P')).re ≤ 2 * N * d * (sphereInner f f).re) ∧
      (∀ g : ℝ, d ≤ g → (∀ p < N, ∀ q, N ≤ q → q < L ^ 2 → g ≤ e.getD p 0 - e.getD q 0) →
        (g - d) ^ 2 * (sphereInner (P - P') (P - P')).re ≤ N * d ^ 2 * (sphereInner f f).re) ∧
      ∀ (k : ℕ) (g : ℝ), k < L ^ 2 → d ≤ g → (∀ p < L ^ 2, p ≠ k → g ≤ |e.getD p 0 - e.getD k 0|) →
        (g - d) ^ 2 * (1 - ‖sphereInner (synthesis L (v'.getD k [])) (synthesis L (v.getD k []))‖ ^ 2) ≤ d ^ 2 :=
  moved_rows (R := .polar gap t) (R' := .polar gap t') ht ht' h h' _ (fun f hf => moved_cap hf gap ht ht') N hN e e' v
    (hN.trans_eq (Shape.rows (S := .polar gap t) ht h).symm) (fun _ _ => rfl) v' (hN.trans_eq (Shape.rows (S := .polar gap t') ht' h').symm)
    (fun _ _ => rfl) point synth hY weight flm

/-- C142, regions limited in latitude and longitude: `swept B B'` is the area swept by the boundary. -/
theorem C142_lat_lon (L : ℕ) (B B' : Bounds) (h0 : B.tmin ∈ Set.Icc 0 Real.pi) (h1 : B.tmax ∈ Set.Icc 0 Real.pi)
    (h0' : B'.tmin ∈ Set.Icc 0 Real.pi) (h1' : B'.tmax ∈ Set.Icc 0 Real.pi) (e e' : List ℝ)
    (v v' : List (List ℂ)) (h : (Shape.latLon B : Shape L).Gives e v) (h' : (Shape.latLon B' : Shape L).Gives e' v')
    (N : ℕ) (hN : N ≤ L ^ 2)
    {Pix : Type} [Fintype Pix] (point : Pix → ℝ × ℝ) (synth : (Fin (L ^ 2) → ℂ) → Pix → ℂ)
    (hY : ∀ c x, synth c x = synthesis L (List.ofFn c) (point x).1 (point x).2) (weight : Pix → ℝ) (flm : Fin (L ^ 2) → ℂ) :
    let f := synthesis L (List.ofFn flm)
    let d := L ^ 2 / (4 * Real.pi) * swept B B'
    ∃ cs cs' P P', P ∈ bandlimited L ∧ P' ∈ bandlimited L ∧
      Transform.slepianForward (asObject L N e v) synth weight { flm := some flm } none = .ok cs ∧
      Transform.slepianInverse (asObject L N e v) synth cs = .ok (fun x => P (point x).1 (point x).2) ∧
      Transform.slepianForward (asObject L N e' v') synth weight { flm := some flm } none = .ok cs' ∧
      Transform.slepianInverse (asObject L N e' v') synth cs' = .ok (fun x => P' (point x).1 (point x).2) ∧
      (∀ p < L ^ 2, |e'.getD p 0 - e.getD p 0| ≤ d) ∧
      (∀ g : ℝ, 0 ≤ g → (∀ p < N, ∀ q, N ≤ q → q < L ^ 2 → g ≤ e.getD p 0 - e.getD q 0) →
        g * (sphereInner (P - P') (P - P')).re ≤ 2 * N * d * (sphereInner f f).re) ∧
      (∀ g : ℝ, d ≤ g → (∀ p < N, ∀ q, N ≤ q → q < L ^ 2 → g ≤ e.getD p 0 - e.getD q 0) →
        (g - d) ^ 2 * (sphereInner (P - P') (P - P')).re ≤ N * d ^ 2 * (sphereInner f f).re) ∧
      ∀ (k : ℕ) (g : ℝ), k < L ^ 2 → d ≤ g → (∀ p < L ^ 2, p ≠ k → g ≤ |e.getD p 0 - e.getD k 0|) →
        (g - d) ^ 2 * (1 - ‖sphereInner (synthesis L (v'.getD k [])) (synthesis L (v.getD k []))‖ ^ 2) ≤ d ^ 2 :=
  moved_rows (R := .latLon B) (R' := .latLon B') ⟨h0, h1⟩ ⟨h0', h1'⟩ h h' _ (fun f hf => moved_box hf B B' h0 h1 h0' h1') N hN e e' v
    (hN.trans_eq (Shape.rows (S := .latLon B) ⟨h0, h1⟩ h).symm) (fun _ _ => rfl) v'
    (hN.trans_eq (Shape.rows (S := .latLon B') ⟨h0', h1'⟩ h').symm) (fun _ _ => rfl) point synth hY
    weight flm

/-- C142, masks: the weights of the pixels in which they differ. -/
theorem C142_masks (L : ℕ) (hL : 1 ≤ L) (m m' : Integration.Grid (2 * L) → Bool) (e e' : List ℝ)
    (v v' : List (List ℂ)) (h : (Shape.mask m).Gives e v) (h' : (Shape.mask m').Gives e' v')
    (N : ℕ) (hN : N ≤ L ^ 2)
    {Pix : Type} [Fintype Pix] (point : Pix → ℝ × ℝ) (synth : (Fin (L ^ 2) → ℂ) → Pix → ℂ)
    (hY : ∀ c x, synth c x = synthesis L (List.ofFn c) (point x).1 (point x).2) (weight : Pix → ℝ) (flm : Fin (L ^ 2) → ℂ) :
    let f := synthesis L (List.ofFn flm)
    let d := L ^ 2 / (4 * Real.pi) * ∑ x with m x ≠ m' x, Integration.weight (2 * L) x
    ∃ cs cs' P P', P ∈ bandlimited L ∧ P' ∈ bandlimited L ∧
      Transform.slepianForward (asObject L N e v) synth weight { flm := some flm } none = .ok cs ∧
      Transform.slepianInverse (asObject L N e v) synth cs = .ok (fun x => P (point x).1 (point x).2) ∧
      Transform.slepianForward (asObject L N e' v') synth weight { flm := some flm } none = .ok cs' ∧
      Transform.slepianInverse (asObject L N e' v') synth cs' = .ok (fun x => P' (point x).1 (point x).2) ∧
      (∀ p < L ^ 2, |e'.getD p 0 - e.getD p 0| ≤ d) ∧
      (∀ g : ℝ, 0 ≤ g → (∀ p < N, ∀ q, N ≤ q → q < L ^ 2 → g ≤ e.getD p 0 - e.getD q 0) →
        g * (sphereInner (P - P') (P - P')).re ≤ 2 * N * d * (sphereInner f f).re) ∧
      (∀ g : ℝ, d ≤ g → (∀ p < N, ∀ q, N ≤ q → q < L ^ 2 → g ≤ e.getD p 0 - e.getD q 0) →
        (g - d) ^ 2 * (sphereInner (P - P') (P - P')).re ≤ N * d ^ 2 * (sphereInner f f).re) ∧
      ∀ (k : ℕ) (g : ℝ), k < L ^ 2 → d ≤ g → (∀ p < L ^ 2, p ≠ k → g ≤ |e.getD p 0 - e.getD k 0|) →
        (g - d) ^ 2 * (1 - ‖sphereInner (synthesis L (v'.getD k [])) (synthesis L (v.getD k []))‖ ^ 2) ≤ d ^ 2 :=
  moved_rows (R := .mask m) (R' := .mask m') trivial trivial h h' _
    (fun f hf => moved_mask hf m m' _ (fun x => Integration.weight_nonneg (by omega) x) _ _) N hN e e' v
    (hN.trans_eq (Shape.rows (S := .mask m) trivial h).symm) (fun _ _ => rfl) v'
    (hN.trans_eq (Shape.rows (S := .mask m') trivial h').symm) (fun _ _ => rfl) point synth hY weight flm

/-- C142, meshes: the squares of the basis functions at the vertices in which the regions differ. -/
theorem C142_mesh {Vert : Type} [Fintype Vert] {K : ℕ} (ms ms' : MeshT.MeshSlepian Vert) (φ : Fin K → Vert → ℝ) (e e' : Fin K → ℝ)
    (S S' : Fin K → Fin K → ℝ) (rows rows' : ℕ) (h : BuiltMesh ms φ e S rows) (h' : BuiltMesh ms' φ e' S' rows') (hN : ms'.N = ms.N)
    (u : Vert → ℝ) :
    let d := ∑ v with ms.region v ≠ ms'.region v, ∑ i, φ i v ^ 2
    ∃ cs cs' P P', MeshT.slepianMeshForward ms ⟨some u, none, false⟩ none = .ok cs ∧ MeshT.slepianMeshInverse ms cs = .ok P ∧
      MeshT.slepianMeshForward ms' ⟨some u, none, false⟩ none = .ok cs' ∧ MeshT.slepianMeshInverse ms' cs' = .ok P' ∧
      (∀ p, |e' p - e p| ≤ d) ∧
      (∀ g : ℝ, 0 ≤ g → (∀ p q : Fin K, p.val < ms.N → ms.N ≤ q.val → g ≤ e p - e q) →
        g * ∑ v, (P v - P' v) ^ 2 ≤ 2 * ms.N * d * ∑ v, u v ^ 2) ∧
      (∀ g : ℝ, d ≤ g → (∀ p q : Fin K, p.val < ms.N → ms.N ≤ q.val → g ≤ e p - e q) →
        (g - d) ^ 2 * ∑ v, (P v - P' v) ^ 2 ≤ ms.N * d ^ 2 * ∑ v, u v ^ 2) ∧
      ∀ (k : Fin K) (g : ℝ), d ≤ g → (∀ p, p ≠ k → g ≤ |e p - e k|) →
        (g - d) ^ 2 * (1 - (∑ v, (∑ i, S' k i * φ i v) * ∑ i, S k i * φ i v) ^ 2) ≤ d ^ 2 := by
  intro d
  have hNK : ms.N ≤ K := h.le_rows.trans h.rows_le
  obtain ⟨cs, h1, h2⟩ := mesh_recon ms φ h.basis h.number hNK e S (fun p hp => h.row p (by have := h.le_rows; omega)) u
  obtain ⟨cs', h1', h2'⟩ := mesh_recon ms' φ h'.basis h'.number (hN ▸ hNK) e' S' (fun p hp => h'.row p (by have := h'.le_rows; omega)) u
  rw [hN] at h2'
  have hO := h.eigen.2
  have hO' := h'.eigen.2
  have hin : ∀ b c : Fin K → ℝ, ∑ v, (∑ i, b i * φ i v) * ∑ i, c i * φ i v = ∑ i, b i * c i := fun b c => MeshT.comb_comb φ h.orth b c
  have hb0 := C88_mesh ms φ e S rows h
  have hb1 := C88_mesh ms' φ e' S' rows' h'
  have hR : ∀ f ∈ {f : Vert → ℝ | ∃ c : Fin K → ℝ, f = fun v => ∑ i, c i * φ i v},
      |(∑ v with ms'.region v = true, f v ^ 2) - ∑ v with ms.region v = true, f v ^ 2| ≤ d * RCLike.re (∑ v, f v * f v) := fun f hf => by
      obtain ⟨c, rfl⟩ := hf
      simp only [RCLike.re_to_real, hin]
      rw [Finset.sum_filter, Finset.sum_filter, ← Finset.sum_sub_distrib, show d = _ from Finset.sum_filter _ _]
      refine (Finset.abs_sum_le_sum_abs _ _).trans ?_
      rw [Finset.sum_mul]
      refine Finset.sum_le_sum fun v _ => ?_
      have hcs : (∑ i, c i * φ i v) ^ 2 ≤ (∑ i, φ i v ^ 2) * ∑ i, c i * c i := by
        have := Finset.sum_mul_sq_le_sq_mul_sq Finset.univ c fun i => φ i v
        simp only [← sq]
        linarith
      cases ms.region v <;> cases ms'.region v <;> simp <;> exact hcs
  obtain ⟨k1, -, k3⟩ := near_solutions hb0 hb1 (linearOn_mesh φ) (fun f _ g _ => by simp only [mul_comm]) d hR
  have hforms : ∀ c : Fin K → ℝ, |∑ p, e' p * ‖∑ i, c i * (starRingEnd ℝ) (S' p i)‖ ^ 2 -
      ∑ p, e p * ‖∑ i, c i * (starRingEnd ℝ) (S p i)‖ ^ 2| ≤ d * ∑ i, ‖c i‖ ^ 2 := by
    intro c
    have := hR _ ⟨c, rfl⟩
    rw [hb0.energyIn _ ⟨c, rfl⟩, hb1.energyIn _ ⟨c, rfl⟩] at this
    simp only [hin, RCLike.re_to_real] at this
    simpa only [conj_trivial, Real.norm_eq_abs, sq_abs, ← sq] using this
  set a : Fin K → ℝ := fun i => ∑ v, u v * φ i v with ha
  have hk := first_parts_near (𝕜 := ℝ) S S' (fun p q => by simpa using hO p q) (fun p q => by simpa using hO' p q) ms.N a
  simp only [conj_trivial, Real.norm_eq_abs, sq_abs] at hk
  have hl : ∑ v, ((∑ i, firstPart S ms.N a i * φ i v) - ∑ i, firstPart S' ms.N a i * φ i v) ^ 2 =
      ∑ i, (firstPart S ms.N a i - firstPart S' ms.N a i) ^ 2 := by
    simp only [← Finset.sum_sub_distrib, ← sub_mul, sq]
    exact hin _ _
  have hb : ∑ i, a i ^ 2 ≤ ∑ v, u v ^ 2 := MeshT.bessel φ h.orth u
  simp only [hin, Real.norm_eq_abs, sq_abs] at k3
  have key : ∀ g B : ℝ, 0 ≤ g → g * ∑ q : Fin K with q.val < ms.N, ∑ p : Fin K with ms.N ≤ p.val, (∑ i, S' q i * S p i) ^ 2 ≤ B →
      g * ∑ v, ((∑ i, firstPart S ms.N a i * φ i v) - ∑ i, firstPart S' ms.N a i * φ i v) ^ 2 ≤ B * ∑ v, u v ^ 2 := by
    intro g B hg hw
    rw [hl]
    have hB : 0 ≤ B := by
      refine le_trans (mul_nonneg hg ?_) hw
      exact Finset.sum_nonneg fun q _ => Finset.sum_nonneg fun p _ => sq_nonneg _
    calc _ ≤ g * ((∑ q : Fin K with q.val < ms.N, ∑ p : Fin K with ms.N ≤ p.val, (∑ i, S' q i * S p i) ^ 2) * ∑ i, a i ^ 2) :=
          mul_le_mul_of_nonneg_left hk hg
      _ ≤ B * ∑ i, a i ^ 2 := by
          rw [← mul_assoc]
          exact mul_le_mul_of_nonneg_right hw (Finset.sum_nonneg fun i _ => sq_nonneg _)
      _ ≤ _ := mul_le_mul_of_nonneg_left hb hB
  have hc : ∀ p q, ∑ i, S p i * (starRingEnd ℝ) (S q i) = if p = q then 1 else 0 := fun p q => by simpa using hO p q
  have hc' : ∀ p q, ∑ i, S' p i * (starRingEnd ℝ) (S' q i) = if p = q then 1 else 0 := fun p q => by simpa using hO' p q
  refine ⟨cs, cs', _, _, h1, h2, h1', h2', k1, fun g hg hgap => key g _ hg (k3 ms.N g hNK hgap),
    fun g hg hgap => key _ _ (sq_nonneg _) ?_, fun k g hg hgap => ?_⟩
  · have := leading_forms S S' e e' hc hc' d hforms k1 ms.N hNK g hg hgap
    simpa only [conj_trivial, Real.norm_eq_abs, sq_abs] using this
  · have := separated_forms S S' e e' hc hc' d hforms k (k1 k) g hg hgap
    simpa only [hin, conj_trivial, Real.norm_eq_abs, sq_abs] using this

/-- a gap that grows to the hemispheres. -/
example (flm : Fin (3 ^ 2) → ℂ) : ∃ (e e' : List ℝ) (v v' : List (List ℂ)), (Shape.polar true 1 : Shape 3).Gives e v ∧
    (Shape.polar true (Real.pi / 2) : Shape 3).Gives e' v' ∧ |e'.getD 4 0 - e.getD 4 0| ≤ 9 * Real.cos 1 ∧
    ∃ (cs cs' : List ℂ) (P P' : ℝ → ℝ → ℂ),
    Transform.slepianInverse (asObject 3 2 e v) (fun c (x : Fin 2) => synthesis 3 (List.ofFn c) ((x : ℕ) : ℝ) 1) cs =
      .ok (fun x => P ((x : ℕ) : ℝ) 1) ∧
    Transform.slepianInverse (asObject 3 2 e' v') (fun c (x : Fin 2) => synthesis 3 (List.ofFn c) ((x : ℕ) : ℝ) 1) cs' =
      .ok (fun x => P' ((x : ℕ) : ℝ) 1) ∧
    ∀ g : ℝ, 0 ≤ g → (∀ p < 2, ∀ q, 2 ≤ q → q < 9 → g ≤ e.getD p 0 - e.getD q 0) → g * (sphereInner (P - P') (P - P')).re ≤
      2 * 2 * (9 * Real.cos 1) * (sphereInner (synthesis 3 (List.ofFn flm)) (synthesis 3 (List.ofFn flm))).re := by
  have hpi := Real.pi_gt_three
  have h1 : (1 : ℝ) ∈ Set.Icc 0 Real.pi := ⟨by linarith, by linarith⟩
  have h3 : (Real.pi / 2 : ℝ) ∈ Set.Icc 0 Real.pi := ⟨by linarith, by linarith⟩
  have c1 : 0 < Real.cos 1 := Real.cos_pos_of_mem_Ioo ⟨by linarith, by linarith⟩
  obtain ⟨e, v, h⟩ := (Shape.gives_exists (L := 3) (by norm_num)).1 true 1 h1.1 h1.2
  obtain ⟨e', v', h'⟩ := (Shape.gives_exists (L := 3) (by norm_num)).1 true (Real.pi / 2) h3.1 h3.2
  obtain ⟨cs, cs', P, P', -, -, -, a4, -, a6, a7, k, -, -⟩ := C142_polar 3 true 1 (Real.pi / 2) h1 h3 e e' v v' h h' 2 (by norm_num)
    (fun x : Fin 2 => (((x : ℕ) : ℝ), (1 : ℝ))) (fun c (x : Fin 2) => synthesis 3 (List.ofFn c) ((x : ℕ) : ℝ) 1) (fun _ _ => rfl)
    (fun _ => 1) flm
  have hd : (if true = true then (2 : ℝ) else 1) * (((3 : ℕ) : ℝ) ^ 2 / 2 * |Real.cos 1 - Real.cos (Real.pi / 2)|) = 9 * Real.cos 1 := by
    rw [Real.cos_pi_div_two, sub_zero, abs_of_pos c1, if_pos rfl]
    norm_num
    ring
  rw [hd] at a7 k
  exact ⟨e, e', v, v', h, h', a7 4 (by norm_num), cs, cs', P, P', a4, a6, fun g hg hgap => by exact_mod_cast k g hg hgap⟩

/-- a mask and the same without one of its pixels. -/
example (m : Integration.Grid (2 * 3) → Bool) (x : Integration.Grid (2 * 3)) (hx : m x = true) : ∃ (e e' : List ℝ) (v v' : List (List ℂ)),
    (Shape.mask (L := 3) m).Gives e v ∧ (Shape.mask (L := 3) fun y => m y && !decide (y = x)).Gives e' v' ∧
    ∀ p < 9, |e'.getD p 0 - e.getD p 0| ≤ 9 / (4 * Real.pi) * Integration.weight (2 * 3) x := by
  have hm : ∀ m : Integration.Grid (2 * 3) → Bool, ∃ e v, (Shape.mask (L := 3) m).Gives e v := by
    intro m
    obtain ⟨n, hn, P, we, M, w, V, e, S, h1, h2, h3, h4⟩ := C50_arbitrary_runs_exist 3 (by norm_num) m
    exact ⟨_, _, n, P, 3, we, M, w, V, e, S, hn, h1, by norm_num, h2, h3, h4, rfl, rfl⟩
  obtain ⟨e, v, h⟩ := hm m
  obtain ⟨e', v', h'⟩ := hm fun y => m y && !decide (y = x)
  obtain ⟨-, -, -, -, -, -, -, -, -, -, a7, -, -, -⟩ := C142_masks 3 (by norm_num) m _ e e' v v' h h' 2 (by norm_num)
    (fun x : Fin 2 => (((x : ℕ) : ℝ), (1 : ℝ))) (fun c (x : Fin 2) => synthesis 3 (List.ofFn c) ((x : ℕ) : ℝ) 1) (fun _ _ => rfl)
    (fun _ => 1) 0
  have hd : (Finset.univ.filter fun y => m y ≠ (m y && !decide (y = x))) = {x} := by
    ext y
    by_cases hy : y = x <;> simp [hy, hx]
  rw [hd, Finset.sum_singleton] at a7
  norm_num at a7
  exact ⟨e, e', v, v', h, h', a7⟩

/-- a box whose northern and eastern bounds move, and the first function of each. -/
example (flm : Fin (3 ^ 2) → ℂ) : ∃ (e e' : List ℝ) (v v' : List (List ℂ)), (Shape.latLon ⟨1, 2, 0, 1⟩ : Shape 3).Gives e v ∧
    (Shape.latLon ⟨Real.pi / 2, 2, 0, 2⟩ : Shape 3).Gives e' v' ∧ ∃ (cs cs' : List ℂ) (P P' : ℝ → ℝ → ℂ),
    Transform.slepianInverse (asObject 3 1 e v) (fun c (x : Fin 2) => synthesis 3 (List.ofFn c) ((x : ℕ) : ℝ) 1) cs =
      .ok (fun x => P ((x : ℕ) : ℝ) 1) ∧
    Transform.slepianInverse (asObject 3 1 e' v') (fun c (x : Fin 2) => synthesis 3 (List.ofFn c) ((x : ℕ) : ℝ) 1) cs' =
      .ok (fun x => P' ((x : ℕ) : ℝ) 1) ∧
    (0 ≤ e.getD 0 0 - e.getD 1 0) ∧ (e.getD 0 0 - e.getD 1 0) * (sphereInner (P - P') (P - P')).re ≤
      2 * (9 / (4 * Real.pi) * (Real.cos 1 + -Real.cos 2)) * (sphereInner (synthesis 3 (List.ofFn flm)) (synthesis 3 (List.ofFn flm))).re := by
  have hpi := Real.pi_gt_three
  have hpi4 := Real.pi_lt_four
  have h1 : (1 : ℝ) ∈ Set.Icc 0 Real.pi := ⟨by linarith, by linarith⟩
  have h2 : (2 : ℝ) ∈ Set.Icc 0 Real.pi := ⟨by linarith, by linarith⟩
  have h3 : (Real.pi / 2 : ℝ) ∈ Set.Icc 0 Real.pi := ⟨by linarith, by linarith⟩
  obtain ⟨e, v, h⟩ := (Shape.gives_exists (L := 3) (by norm_num)).2 ⟨1, 2, 0, 1⟩ h1 h2
  obtain ⟨e', v', h'⟩ := (Shape.gives_exists (L := 3) (by norm_num)).2 ⟨Real.pi / 2, 2, 0, 2⟩ h3 h2
  obtain ⟨cs, cs', P, P', -, -, -, a4, -, a6, -, k, -, -⟩ := C142_lat_lon 3 ⟨1, 2, 0, 1⟩ ⟨Real.pi / 2, 2, 0, 2⟩ h1 h2 h3 h2 e e' v v' h h' 1 (by norm_num)
    (fun x : Fin 2 => (((x : ℕ) : ℝ), (1 : ℝ))) (fun c (x : Fin 2) => synthesis 3 (List.ofFn c) ((x : ℕ) : ℝ) 1) (fun _ _ => rfl)
    (fun _ => 1) flm
  have hs := (Shape.best (S := (Shape.latLon ⟨1, 2, 0, 1⟩ : Shape 3)) ⟨h1, h2⟩ h).antitone
  have hge : ∀ q, 1 ≤ q → q < 3 ^ 2 → e.getD q 0 ≤ e.getD 1 0 := fun q hq hq' =>
    hs (show (⟨1, by norm_num⟩ : Fin (3 ^ 2)) ≤ ⟨q, hq'⟩ from hq)
  have h01 : e.getD 1 0 ≤ e.getD 0 0 := hs (show (⟨0, by norm_num⟩ : Fin (3 ^ 2)) ≤ ⟨1, by norm_num⟩ from Nat.zero_le _)
  refine ⟨e, e', v, v', h, h', cs, cs', P, P', a4, a6, by linarith, ?_⟩
  have := k (e.getD 0 0 - e.getD 1 0) (by linarith) fun p hp q hq hq' => by
    obtain rfl : p = 0 := by omega
    linarith [hge q hq hq']
  refine this.trans (le_of_eq ?_)
  have c1 : 0 < Real.cos 1 := Real.cos_pos_of_mem_Ioo ⟨by linarith, by linarith⟩
  have c2 : Real.cos 2 < 0 := Real.cos_neg_of_pi_div_two_lt_of_lt (by linarith) (by linarith)
  simp only [swept, Real.cos_pi_div_two, sub_zero, sub_self, abs_zero, add_zero, zero_add, zero_sub, abs_one, mul_one, abs_neg,
    abs_of_pos c1, abs_of_neg c2]
  norm_num

/-- three vertices and two basis functions; the regions differ in one vertex. -/
example (u : Fin 3 → ℝ) : ∃ (ms ms' : MeshT.MeshSlepian (Fin 3)) (e e' : Fin 2 → ℝ) (S S' : Fin 2 → Fin 2 → ℝ) (P P' : Fin 3 → ℝ),
    BuiltMesh ms ![![0, 3 / 5, 4 / 5], ![1, 0, 0]] e S 2 ∧ BuiltMesh ms' ![![0, 3 / 5, 4 / 5], ![1, 0, 0]] e' S' 2 ∧
    ms.region ≠ ms'.region ∧ ms.N = 1 ∧
    (∃ cs, MeshT.slepianMeshForward ms ⟨some u, none, false⟩ none = .ok cs ∧ MeshT.slepianMeshInverse ms cs = .ok P) ∧
    (∃ cs, MeshT.slepianMeshForward ms' ⟨some u, none, false⟩ none = .ok cs ∧ MeshT.slepianMeshInverse ms' cs = .ok P') ∧
    |e' 0 - e 0| ≤ 9 / 25 ∧ 16 / 25 * ∑ v, (P v - P' v) ^ 2 ≤ 18 / 25 * ∑ v, u v ^ 2 ∧
    (16 / 25 - 9 / 25) ^ 2 * ∑ v, (P v - P' v) ^ 2 ≤ (9 / 25) ^ 2 * ∑ v, u v ^ 2 ∧
    (16 / 25 - 9 / 25) ^ 2 * (1 - (∑ v, (∑ i, S' 0 i * (![![0, 3 / 5, 4 / 5], ![1, 0, 0]] : Fin 2 → Fin 3 → ℝ) i v) *
      ∑ i, S 0 i * (![![0, 3 / 5, 4 / 5], ![1, 0, 0]] : Fin 2 → Fin 3 → ℝ) i v) ^ 2) ≤ (9 / 25) ^ 2 := by
  have o2 : OrthonormalOnVertices (V := Fin 3) (K := 2) ![![0, 3 / 5, 4 / 5], ![1, 0, 0]] := by
    intro i j
    fin_cases i <;> fin_cases j <;> norm_num [Fin.sum_univ_succ]
  obtain ⟨ms, e, S, r, hN, b⟩ := exists_built _ o2 (fun v => v == 2) 1 (by norm_num)
  obtain ⟨ms', e', S', r', hN', b'⟩ := exists_built _ o2 (fun v => v == 1 || v == 2) 1 (by norm_num)
  obtain ⟨cs, cs', P, P', h1, h2, h3, h4, h5, h6, h7, h8⟩ := C142_mesh ms ms' _ e e' S S' 2 2 b b' (by rw [hN, hN']) u
  have hd : ∑ v with ms.region v ≠ ms'.region v, ∑ i, (![![0, 3 / 5, 4 / 5], ![1, 0, 0]] : Fin 2 → Fin 3 → ℝ) i v ^ 2 = 9 / 25 := by
    have : (Finset.univ.filter fun v => ms.region v ≠ ms'.region v) = {1} := by
      rw [r, r']
      decide
    rw [this, Finset.sum_singleton]
    norm_num [Fin.sum_univ_succ]
  obtain ⟨-, hpos, -, -, ht⟩ := C50_mesh_energy_ratio ms _ e S 2 b
  have v0 : (![0, 3 / 5, 4 / 5] : Fin 3 → ℝ) 2 = 4 / 5 := rfl
  have v1 : (![1, 0, 0] : Fin 3 → ℝ) 2 = 0 := rfl
  have hr : (Finset.univ.filter fun v => ms.region v = true) = {2} := by
    rw [r]
    decide
  have hsum : e 0 + e 1 = 16 / 25 := by
    rw [← Fin.sum_univ_two e, ht, hr]
    norm_num [Fin.sum_univ_succ, v0, v1]
  have hge : 16 / 25 ≤ e 0 := by
    have := (C88_mesh ms _ e S 2 b).best 0 (fun v => ∑ i, (![1, 0] : Fin 2 → ℝ) i * (![![0, 3 / 5, 4 / 5], ![1, 0, 0]] : Fin 2 → Fin 3 → ℝ) i v)
      ⟨_, rfl⟩ (fun p hp => absurd hp (by simp))
    rw [hr] at this
    norm_num [Fin.sum_univ_succ, v0, v1] at this
    linarith
  have hnn : 0 ≤ e 1 := by
    rw [← (C88_mesh ms _ e S 2 b).attained 1]
    exact Finset.sum_nonneg fun v _ => sq_nonneg _
  have e0 : e 0 = 16 / 25 := by linarith
  have e1 : e 1 = 0 := by linarith
  rw [hd] at h5 h6 h7 h8
  refine ⟨ms, ms', e, e', S, S', P, P', b, b', ?_, hN, ⟨cs, h1, h2⟩, ⟨cs', h3, h4⟩, h5 0, ?_⟩
  · rw [r, r']
    intro hc
    simpa using congrFun hc 1
  · rw [hN] at h6 h7
    have hgap : ∀ p q : Fin 2, p.val < 1 → 1 ≤ q.val → (16 / 25 : ℝ) ≤ e p - e q := by
      intro p q hp hq
      obtain rfl : p = 0 := Fin.ext (by omega)
      obtain rfl : q = 1 := Fin.ext (by omega)
      rw [e0, e1]
      norm_num
    refine ⟨(h6 _ (by norm_num) hgap).trans (le_of_eq (by norm_num)), (h7 _ (by norm_num) hgap).trans (le_of_eq (by norm_num)),
      h8 0 _ (by norm_num) fun p hp => ?_⟩
    obtain rfl : p = 1 := by omega
    rw [e0, e1]
    norm_num

end Sleplet.Props
