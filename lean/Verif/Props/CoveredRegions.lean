import Verif.Lemmas.Interlacing
import Verif.Props.RelatedRegions
import Verif.Props.KeptEigenvalues

/-!
C137: the eigenvalues of a region covered by two others.
-/
namespace Sleplet.Props

open Complex Sleplet.Spec Sleplet.Gaunt Sleplet.RealMat Sleplet.Eigen Sleplet.LatLon

/-- the eigenvalues `e''` of a covered region: of rank `j + k` at most the sum of those of ranks `j` and `k`, and the sum of any number of
the greatest at most that of as many of both. -/
def CoveredBy (n : ℕ) (e e' e'' : List ℝ) : Prop :=
  (∀ j k, j + k < n → e''.getD (j + k) 0 ≤ e.getD j 0 + e'.getD k 0) ∧
  ∀ k ≤ n, ∑ i ∈ Finset.range k, e''.getD i 0 ≤ (∑ i ∈ Finset.range k, e.getD i 0) + ∑ i ∈ Finset.range k, e'.getD i 0

theorem sum_first {n k : ℕ} (hk : k ≤ n) (f : ℕ → ℝ) : ∑ p : Fin n with p.val < k, f p = ∑ i ∈ Finset.range k, f i := by
  rw [Finset.sum_filter, Fin.sum_univ_eq_sum_range (fun i => if i < k then f i else 0), ← Finset.sum_filter]
  congr 1
  ext i
  simp only [Finset.mem_filter, Finset.mem_range]
  omega

theorem numbers_cover {L : ℕ} {R R' R'' : (ℝ → ℝ → ℂ) → ℝ} {e e' e'' : List ℝ} (h : Numbers L R e) (h' : Numbers L R' e')
    (h'' : Numbers L R'' e'') (hR : ∀ f ∈ bandlimited L, R'' f ≤ R f + R' f) : CoveredBy (L ^ 2) e e' e'' := by
  obtain ⟨-, s, h⟩ := h
  obtain ⟨-, s', h'⟩ := h'
  obtain ⟨-, s'', h''⟩ := h''
  refine ⟨fun j k hjk => cover_numbers h h' h'' (linearOn_bandlimited L) hR j k (by omega) (by omega) hjk, fun k hk => ?_⟩
  have := cover_sums h h' h'' hR k hk
  rwa [sum_first hk fun i => e''.getD i 0, sum_first hk fun i => e.getD i 0, sum_first hk fun i => e'.getD i 0] at this

/-- C137.  A region limited in latitude and longitude, cut in two along a circle of latitude or along a meridian. -/
theorem C137_lat_lon (L : ℕ) (B B' B'' : Bounds) (h0 : B''.tmin ∈ Set.Icc 0 Real.pi) (h1 : B''.tmax ∈ Set.Icc 0 Real.pi)
    (hcut : (∃ t ∈ Set.Icc 0 Real.pi, B = { B'' with tmax := t } ∧ B' = { B'' with tmin := t }) ∨
      ∃ p, B = { B'' with pmax := p } ∧ B' = { B'' with pmin := p })
    (e e' e'' : List ℝ) (he : LatLonEigenvalues L B e) (he' : LatLonEigenvalues L B' e') (he'' : LatLonEigenvalues L B'' e'') :
    CoveredBy (L ^ 2) e e' e'' := by
  rcases hcut with ⟨t, ht, rfl, rfl⟩ | ⟨p, rfl, rfl⟩
  · exact numbers_cover (lat_lon_numbers (B := { B'' with tmax := t }) h0 ht he) (lat_lon_numbers (B := { B'' with tmin := t }) ht h1 he')
      (lat_lon_numbers h0 h1 he'') fun f hf =>
      (surfaceEnergy_add (continuous_bandlimited hf) _ _ _ _ _).ge
  · exact numbers_cover (lat_lon_numbers (B := { B'' with pmax := p }) h0 h1 he) (lat_lon_numbers (B := { B'' with pmin := p }) h0 h1 he')
      (lat_lon_numbers h0 h1 he'') fun f hf =>
      (surfaceEnergy_add_longitude _ _ _ _ _ (continuous_bandlimited hf)).ge

/-- C137.  A polar gap is covered by the cap at the north pole and its reflection: its eigenvalues are at most the sums of two of the cap
and at least the cap's own; that of every even rank is at most twice the cap's of half the rank. -/
theorem C137_gap (L : ℕ) (t : ℝ) (h0 : 0 ≤ t) (h1 : t ≤ Real.pi) (e e' : List ℝ) (he : PolarEigenvalues L false t e)
    (he' : PolarEigenvalues L true t e') :
    CoveredBy (L ^ 2) e e e' ∧ (∀ k < L ^ 2, e.getD k 0 ≤ e'.getD k 0) ∧ ∀ k, 2 * k < L ^ 2 → e'.getD (2 * k) 0 ≤ 2 * e.getD k 0 := by
  have hpi := Real.pi_pos.le
  rcases Nat.eq_zero_or_pos L with rfl | hL
  · refine ⟨⟨fun j k h => by simp at h, fun k hk => ?_⟩, fun k hk => by simp at hk, fun k hk => by simp at hk⟩
    obtain rfl : k = 0 := by simpa using hk
    simp
  obtain ⟨a, ha⟩ := (C111_runs_exist L hL).2 ⟨0, t, 0, 0 + 2 * Real.pi⟩ ⟨le_rfl, hpi⟩ ⟨h0, h1⟩
  obtain ⟨b, hb⟩ := (C111_runs_exist L hL).2 ⟨Real.pi - t, Real.pi, 0, 0 + 2 * Real.pi⟩ ⟨by dsimp only; linarith, by dsimp only; linarith⟩ ⟨hpi, le_rfl⟩
  have q1 := C111_cap_as_lat_lon L t h0 h1 ⟨0, t, 0, 0 + 2 * Real.pi⟩ rfl rfl rfl e a he ha
  have q2 := C111_mirror L ⟨0, t, 0, 0 + 2 * Real.pi⟩ ⟨Real.pi - t, Real.pi, 0, 0 + 2 * Real.pi⟩ ⟨le_rfl, hpi⟩ ⟨h0, h1⟩ rfl (by simp) rfl rfl a b ha hb
  have key : CoveredBy (L ^ 2) e e e' := by
    refine numbers_cover (polar_numbers h0 h1 he)
      (q1 ▸ q2 ▸ lat_lon_numbers ⟨by dsimp only; linarith, by dsimp only; linarith⟩ ⟨hpi, le_rfl⟩ hb) (polar_numbers h0 h1 he') fun f hf => ?_
    simp [capEnergy]
  refine ⟨key, fun k hk => C111_polar_nested L L le_rfl false true (fun h => by simp at h) t t h0 le_rfl h1 e e' he he' k hk, fun k hk => ?_⟩
  have := key.1 k k (by omega)
  rw [← two_mul] at this
  linarith

/-- C137.  A mask covered by two masks. -/
theorem C137_masks (L : ℕ) (m m' m'' : Integration.Grid (2 * L) → Bool) (hm : ∀ x, m'' x = true → m x = true ∨ m' x = true)
    (e e' e'' : List ℝ) (he : MaskEigenvalues L m e) (he' : MaskEigenvalues L m' e') (he'' : MaskEigenvalues L m'' e'') :
    CoveredBy (L ^ 2) e e' e'' := by
  refine numbers_cover (mask_numbers he) (mask_numbers he') (mask_numbers he'') fun f _ => ?_
  rcases Nat.eq_zero_or_pos L with rfl | hL
  · obtain ⟨n, -, -, -, -, -, -, -, -, hn, -⟩ := he
    simp at hn
  rw [Finset.sum_filter, Finset.sum_filter, Finset.sum_filter, ← Finset.sum_add_distrib]
  refine Finset.sum_le_sum fun y _ => ?_
  have hw := mul_nonneg (sq_nonneg ‖f (Integration.theta y) (Integration.phi y)‖) (Integration.weight_nonneg (show 1 ≤ 2 * L by omega) y)
  have := hm y
  cases h1 : m'' y <;> cases h2 : m y <;> cases h3 : m' y <;> simp_all

/-- C137.  A region of a mesh covered by two regions, with the same basis functions. -/
theorem C137_mesh {Vert : Type} [Fintype Vert] {K : ℕ} (ms ms' ms'' : MeshT.MeshSlepian Vert) (φ : Fin K → Vert → ℝ) (e e' e'' : Fin K → ℝ)
    (S S' S'' : Fin K → Fin K → ℝ) (rows rows' rows'' : ℕ) (h : BuiltMesh ms φ e S rows) (h' : BuiltMesh ms' φ e' S' rows')
    (h'' : BuiltMesh ms'' φ e'' S'' rows'') (hm : ∀ v, ms''.region v = true → ms.region v = true ∨ ms'.region v = true) :
    (∀ (j k : ℕ) (hjk : j + k < K), e'' ⟨j + k, hjk⟩ ≤ e ⟨j, by omega⟩ + e' ⟨k, by omega⟩) ∧
    ∀ k ≤ K, ∑ p : Fin K with p.val < k, e'' p ≤ (∑ p : Fin K with p.val < k, e p) + ∑ p : Fin K with p.val < k, e' p := by
  have hR : ∀ f : Vert → ℝ, ∑ v with ms''.region v = true, f v ^ 2 ≤
      (∑ v with ms.region v = true, f v ^ 2) + ∑ v with ms'.region v = true, f v ^ 2 := by
    intro f
    rw [Finset.sum_filter, Finset.sum_filter, Finset.sum_filter, ← Finset.sum_add_distrib]
    refine Finset.sum_le_sum fun y _ => ?_
    have hw := sq_nonneg (f y)
    have := hm y
    cases h1 : ms''.region y <;> cases h2 : ms.region y <;> cases h3 : ms'.region y <;> simp_all
  have b := C88_mesh ms φ e S rows h
  have b' := C88_mesh ms' φ e' S' rows' h'
  have b'' := C88_mesh ms'' φ e'' S'' rows'' h''
  exact ⟨fun j k hjk => cover_numbers b b' b'' (linearOn_mesh φ) (fun f _ => hR f) j k (by omega) (by omega) hjk,
    fun k hk => cover_sums b b' b'' (fun f _ => hR f) k hk⟩

/-- the hypotheses are met: a belt cut at a meridian, and a polar gap. -/
example : ∃ e e' e'' a b : List ℝ, LatLonEigenvalues 3 ⟨1, 2, 0, 1⟩ e ∧ LatLonEigenvalues 3 ⟨1, 2, 1, 3⟩ e' ∧ LatLonEigenvalues 3 ⟨1, 2, 0, 3⟩ e'' ∧
    e''.getD 5 0 ≤ e.getD 2 0 + e'.getD 3 0 ∧ PolarEigenvalues 4 false 1 a ∧ PolarEigenvalues 4 true 1 b ∧ b.getD 6 0 ≤ 2 * a.getD 3 0 := by
  have hpi := Real.pi_gt_three
  have h1 : (1 : ℝ) ∈ Set.Icc 0 Real.pi := ⟨by linarith, by linarith⟩
  have h2 : (2 : ℝ) ∈ Set.Icc 0 Real.pi := ⟨by linarith, by linarith⟩
  obtain ⟨e, he⟩ := (C111_runs_exist 3 (by norm_num)).2 ⟨1, 2, 0, 1⟩ h1 h2
  obtain ⟨e', he'⟩ := (C111_runs_exist 3 (by norm_num)).2 ⟨1, 2, 1, 3⟩ h1 h2
  obtain ⟨e'', he''⟩ := (C111_runs_exist 3 (by norm_num)).2 ⟨1, 2, 0, 3⟩ h1 h2
  obtain ⟨a, ha⟩ := (C111_runs_exist 4 (by norm_num)).1 false 1 (by linarith) (by linarith)
  obtain ⟨b, hb⟩ := (C111_runs_exist 4 (by norm_num)).1 true 1 (by linarith) (by linarith)
  refine ⟨e, e', e'', a, b, he, he', he'', ?_, ha, hb, ?_⟩
  · exact (C137_lat_lon 3 _ _ ⟨1, 2, 0, 3⟩ h1 h2 (Or.inr ⟨1, rfl, rfl⟩) e e' e'' he he' he'').1 2 3 (by norm_num)
  · exact (C137_gap 4 1 (by norm_num) (by linarith) a b ha hb).2.2 3 (by norm_num)

/-- any three masks of which two cover the third have eigenvalues. -/
example (m m' : Integration.Grid (2 * 3) → Bool) : ∃ e e' e'', MaskEigenvalues 3 m e ∧ MaskEigenvalues 3 m' e' ∧
    MaskEigenvalues 3 (fun x => m x || m' x) e'' ∧ e''.getD 0 0 ≤ e.getD 0 0 + e'.getD 0 0 := by
  have hm : ∀ m : Integration.Grid (2 * 3) → Bool, ∃ e, MaskEigenvalues 3 m e := by
    intro m
    obtain ⟨n, hn, P, we, M, w, V, e, S, h1, h2, h3, h4⟩ := C50_arbitrary_runs_exist 3 (by norm_num) m
    exact ⟨_, n, P, 3, we, M, w, V, e, S, hn, h1, by norm_num, h2, h3, h4, rfl⟩
  obtain ⟨e, he⟩ := hm m
  obtain ⟨e', he'⟩ := hm m'
  obtain ⟨e'', he''⟩ := hm fun x => m x || m' x
  exact ⟨e, e', e'', he, he', he'', (C137_masks 3 m m' _ (fun x hx => by simpa using hx) e e' e'' he he' he'').1 0 0 (by norm_num)⟩

/-- on three vertices with two basis functions: two vertices covered by one and one. -/
example : ∃ (ms ms' ms'' : MeshT.MeshSlepian (Fin 3)) (e e' e'' : Fin 2 → ℝ) (S S' S'' : Fin 2 → Fin 2 → ℝ),
    BuiltMesh ms ![![0, 3 / 5, 4 / 5], ![1, 0, 0]] e S 2 ∧ BuiltMesh ms' ![![0, 3 / 5, 4 / 5], ![1, 0, 0]] e' S' 2 ∧
    BuiltMesh ms'' ![![0, 3 / 5, 4 / 5], ![1, 0, 0]] e'' S'' 2 ∧ e'' 1 ≤ e 1 + e' 0 := by
  have o2 : OrthonormalOnVertices (V := Fin 3) (K := 2) ![![0, 3 / 5, 4 / 5], ![1, 0, 0]] := by
    intro i j
    fin_cases i <;> fin_cases j <;> norm_num [Fin.sum_univ_succ]
  obtain ⟨ms, e, S, r, -, b⟩ := exists_built _ o2 (fun v => v == 0) 1 (by norm_num)
  obtain ⟨ms', e', S', r', -, b'⟩ := exists_built _ o2 (fun v => v == 1) 1 (by norm_num)
  obtain ⟨ms'', e'', S'', r'', -, b''⟩ := exists_built _ o2 (fun v => v != 2) 1 (by norm_num)
  exact ⟨ms, ms', ms'', e, e', e'', S, S', S'', b, b', b'',
    (C137_mesh ms ms' ms'' _ e e' e'' S S' S'' 2 2 2 b b' b'' (by rw [r, r', r'']; decide)).1 1 0 (by norm_num)⟩

end Sleplet.Props
