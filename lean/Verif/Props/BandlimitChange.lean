import Verif.Lemmas.Interlacing
import Verif.Lemmas.Motions
import Verif.Props.RelatedRegions
import Verif.Props.KeptEigenvalues

/-!
C135: the eigenvalues of a region at different bandlimits.  C136: the eigenvalues of regions that differ in few pixels.
-/
namespace Sleplet.Props

open Complex Sleplet.Spec Sleplet.Gaunt Sleplet.RealMat Sleplet.Eigen Sleplet.LatLon

/-- fields of a bandlimit without components of higher degrees. -/
theorem bandlimited_cut {L L' : ℕ} (hL : L ≤ L') (f : ℝ → ℝ → ℂ) (hf : f ∈ bandlimited L')
    (h : ∀ j : Fin (L' ^ 2 - L ^ 2), sphereInner f (harm (L ^ 2 + j)) = 0) : f ∈ bandlimited L := by
  obtain ⟨a, rfl⟩ := (mem_bandlimited_iff L' f).1 hf
  have h2 : L ^ 2 ≤ L' ^ 2 := Nat.pow_le_pow_left hL 2
  have hz : ∀ i : Fin (L' ^ 2), L ^ 2 ≤ i.val → a i = 0 := by
    intro i hi
    have h3 := h ⟨i - L ^ 2, by omega⟩
    have hcomb : harm (L ^ 2 + (i - L ^ 2)) = comb fun j : Fin (L' ^ 2) => if j = i then (1 : ℂ) else 0 := by
      funext th ph
      unfold comb
      rw [Finset.sum_eq_single i]
      · simp [Nat.add_sub_cancel' hi]
      · intro j _ hj
        simp [hj]
      · intro h; exact absurd (Finset.mem_univ i) h
    dsimp only at h3
    rw [hcomb, inner_comb] at h3
    simpa using h3
  refine (mem_bandlimited_iff L _).2 ⟨fun i => a ⟨i, by omega⟩, ?_⟩
  funext th ph
  unfold comb
  let b : ℕ → ℂ := fun i => if hi : i < L' ^ 2 then a ⟨i, hi⟩ else 0
  have e1 : ∑ i : Fin (L' ^ 2), a i * harm i th ph = ∑ i : Fin (L' ^ 2), b i * harm i th ph :=
    Finset.sum_congr rfl fun i _ => by simp only [b, i.2, dif_pos]
  have e2 : ∑ i : Fin (L ^ 2), a ⟨i, by omega⟩ * harm i th ph = ∑ i : Fin (L ^ 2), b i * harm i th ph :=
    Finset.sum_congr rfl fun i _ => by simp only [b, i.2.trans_le h2, dif_pos]
  rw [e1, e2, Fin.sum_univ_eq_sum_range (fun i => b i * harm i th ph), Fin.sum_univ_eq_sum_range (fun i => b i * harm i th ph)]
  refine (Finset.sum_subset (Finset.range_mono h2) fun i hi hi' => ?_).symm
  rw [Finset.mem_range] at hi hi'
  simp only [b, hi, dif_pos]
  rw [hz _ (not_lt.1 hi'), zero_mul]

theorem numbers_interlace {L L' : ℕ} (hL : L ≤ L') {R : (ℝ → ℝ → ℂ) → ℝ} {e e' : List ℝ} (h : Numbers L R e) (h' : Numbers L' R e')
    (k : ℕ) (hk : k < L ^ 2) : e.getD k 0 ≤ e'.getD k 0 ∧ e'.getD (k + (L' ^ 2 - L ^ 2)) 0 ≤ e.getD k 0 := by
  refine ⟨numbers_le_id hL h h' (fun _ _ => le_rfl) k hk, ?_⟩
  have h2 : L ^ 2 ≤ L' ^ 2 := Nat.pow_le_pow_left hL 2
  obtain ⟨-, s, h⟩ := h
  obtain ⟨-, s', h'⟩ := h'
  exact interlacing h h' (linearOn_bandlimited L') (bandlimited_mono hL) (fun j : Fin (L' ^ 2 - L ^ 2) => harm (L ^ 2 + j))
    (fun j => harm_bandlimited (by omega)) (bandlimited_cut hL) k hk (by omega)

theorem count_interlace {n n' : ℕ} (hn : n ≤ n') {e e' : List ℝ}
    (h : ∀ k < n, e.getD k 0 ≤ e'.getD k 0 ∧ e'.getD (k + (n' - n)) 0 ≤ e.getD k 0) (c : ℝ) :
    ((Finset.range n).filter fun k => c < e.getD k 0).card ≤ ((Finset.range n').filter fun k => c < e'.getD k 0).card ∧
    ((Finset.range n').filter fun k => c < e'.getD k 0).card ≤ ((Finset.range n).filter fun k => c < e.getD k 0).card + (n' - n) := by
  classical
  constructor
  · refine Finset.card_le_card fun k hk => ?_
    rw [Finset.mem_filter, Finset.mem_range] at hk ⊢
    exact ⟨by omega, hk.2.trans_le (h k hk.1).1⟩
  · have hsub : ((Finset.range n').filter fun k => c < e'.getD k 0) ⊆
        (((Finset.range n).filter fun k => c < e.getD k 0).image fun k => k + (n' - n)) ∪ Finset.range (n' - n) := by
      intro k hk
      rw [Finset.mem_filter, Finset.mem_range] at hk
      rw [Finset.mem_union, Finset.mem_image, Finset.mem_range]
      by_cases hd : k < n' - n
      · exact Or.inr hd
      · refine Or.inl ⟨k - (n' - n), ?_, by omega⟩
        rw [Finset.mem_filter, Finset.mem_range]
        have h1 := (h (k - (n' - n)) (by omega)).2
        rw [Nat.sub_add_cancel (by omega)] at h1
        exact ⟨by omega, hk.2.trans_le h1⟩
    refine (Finset.card_le_card hsub).trans ((Finset.card_union_le _ _).trans ?_)
    rw [Finset.card_range]
    exact Nat.add_le_add_right Finset.card_image_le _

/-- C135.  Polar caps and gaps: raising the bandlimit lowers no eigenvalue and moves them by at most the number of harmonics added, and
the number of eigenvalues above any level grows by at most that number. -/
theorem C135_polar (L L' : ℕ) (hL : L ≤ L') (gap : Bool) (t : ℝ) (h0 : 0 ≤ t) (h1 : t ≤ Real.pi) (e e' : List ℝ)
    (he : PolarEigenvalues L gap t e) (he' : PolarEigenvalues L' gap t e') :
    (∀ k < L ^ 2, e.getD k 0 ≤ e'.getD k 0 ∧ e'.getD (k + (L' ^ 2 - L ^ 2)) 0 ≤ e.getD k 0) ∧
    ∀ c : ℝ, ((Finset.range (L ^ 2)).filter fun k => c < e.getD k 0).card ≤ ((Finset.range (L' ^ 2)).filter fun k => c < e'.getD k 0).card ∧
      ((Finset.range (L' ^ 2)).filter fun k => c < e'.getD k 0).card ≤
        ((Finset.range (L ^ 2)).filter fun k => c < e.getD k 0).card + (L' ^ 2 - L ^ 2) := by
  have key := numbers_interlace hL (polar_numbers h0 h1 he) (polar_numbers h0 h1 he')
  exact ⟨key, count_interlace (Nat.pow_le_pow_left hL 2) key⟩

/-- C135.  Likewise for regions limited in latitude and longitude. -/
theorem C135_lat_lon (L L' : ℕ) (hL : L ≤ L') (B : Bounds) (h0 : B.tmin ∈ Set.Icc 0 Real.pi) (h1 : B.tmax ∈ Set.Icc 0 Real.pi)
    (e e' : List ℝ) (he : LatLonEigenvalues L B e) (he' : LatLonEigenvalues L' B e') :
    (∀ k < L ^ 2, e.getD k 0 ≤ e'.getD k 0 ∧ e'.getD (k + (L' ^ 2 - L ^ 2)) 0 ≤ e.getD k 0) ∧
    ∀ c : ℝ, ((Finset.range (L ^ 2)).filter fun k => c < e.getD k 0).card ≤ ((Finset.range (L' ^ 2)).filter fun k => c < e'.getD k 0).card ∧
      ((Finset.range (L' ^ 2)).filter fun k => c < e'.getD k 0).card ≤
        ((Finset.range (L ^ 2)).filter fun k => c < e.getD k 0).card + (L' ^ 2 - L ^ 2) := by
  have key := numbers_interlace hL (lat_lon_numbers h0 h1 he) (lat_lon_numbers h0 h1 he')
  exact ⟨key, count_interlace (Nat.pow_le_pow_left hL 2) key⟩

/-- C135.  On a mesh: with more basis functions, those used before among them, no eigenvalue is smaller, and the eigenvalues are moved by
at most as many places as there are new basis functions. -/
theorem C135_mesh {Vert : Type} [Fintype Vert] {K d : ℕ} (ms ms' : MeshT.MeshSlepian Vert) (φ : Fin K → Vert → ℝ) (φ' : Fin (K + d) → Vert → ℝ)
    (e : Fin K → ℝ) (e' : Fin (K + d) → ℝ) (S : Fin K → Fin K → ℝ) (S' : Fin (K + d) → Fin (K + d) → ℝ) (rows rows' : ℕ)
    (h : BuiltMesh ms φ e S rows) (h' : BuiltMesh ms' φ' e' S' rows') (hr : ms'.region = ms.region)
    (hφ : ∀ i : Fin K, φ i = φ' (i.castAdd d)) (k : Fin K) : e k ≤ e' (k.castAdd d) ∧ e' (k.addNat d) ≤ e k := by
  have hsub : {f : Vert → ℝ | ∃ c : Fin K → ℝ, f = fun v => ∑ i, c i * φ i v} ⊆
      {f : Vert → ℝ | ∃ c : Fin (K + d) → ℝ, f = fun v => ∑ i, c i * φ' i v} := by
    rintro f ⟨c, rfl⟩
    refine ⟨Fin.append c fun _ => 0, ?_⟩
    funext v
    rw [Fin.sum_univ_add]
    simp [hφ]
  have b := C88_mesh ms φ e S rows h
  have b' := C88_mesh ms' φ' e' S' rows' h'
  rw [hr] at b'
  constructor
  · exact compare_numbers b b' (linearOn_mesh φ) (linearOn_mesh φ') LinearMap.id (fun f hf => ⟨hsub hf, rfl, le_rfl⟩) k k.2 (by omega)
  · refine interlacing b b' (linearOn_mesh φ') hsub (fun j => φ' (j.natAdd K)) (fun j => ?_) (fun f hf hz => ?_) k k.2 (by omega)
    · refine ⟨fun i => if i = j.natAdd K then 1 else 0, ?_⟩
      funext v
      simp
    · obtain ⟨c, rfl⟩ := hf
      have hc : ∀ j : Fin d, c (j.natAdd K) = 0 := by
        intro j
        rw [← hz j]
        simp only [Finset.sum_mul]
        rw [Finset.sum_comm]
        have e1 : ∀ i, ∑ v, c i * φ' i v * φ' (j.natAdd K) v = c i * if i = j.natAdd K then 1 else 0 := by
          intro i
          rw [← h'.orth i (j.natAdd K), Finset.mul_sum]
          exact Finset.sum_congr rfl fun v _ => by ring
        simp [e1]
      refine ⟨fun i => c (i.castAdd d), ?_⟩
      funext v
      rw [Fin.sum_univ_add]
      simp [hc, hφ]

/-- the hypotheses are met: a belt at bandlimits 3 and 4, a cap at bandlimits 2 and 5. -/
example : ∃ e e' a b : List ℝ, LatLonEigenvalues 3 ⟨1, 2, 0, Real.pi⟩ e ∧ LatLonEigenvalues 4 ⟨1, 2, 0, Real.pi⟩ e' ∧
    (∀ k < 9, e.getD k 0 ≤ e'.getD k 0 ∧ e'.getD (k + 7) 0 ≤ e.getD k 0) ∧ PolarEigenvalues 2 false 1 a ∧ PolarEigenvalues 5 false 1 b ∧
    b.getD 21 0 ≤ a.getD 0 0 := by
  have hpi := Real.pi_gt_three
  have h1 : (1 : ℝ) ∈ Set.Icc 0 Real.pi := ⟨by linarith, by linarith⟩
  have h2 : (2 : ℝ) ∈ Set.Icc 0 Real.pi := ⟨by linarith, by linarith⟩
  obtain ⟨e, he⟩ := (C111_runs_exist 3 (by norm_num)).2 ⟨1, 2, 0, Real.pi⟩ h1 h2
  obtain ⟨e', he'⟩ := (C111_runs_exist 4 (by norm_num)).2 ⟨1, 2, 0, Real.pi⟩ h1 h2
  obtain ⟨a, ha⟩ := (C111_runs_exist 2 (by norm_num)).1 false 1 (by linarith) (by linarith)
  obtain ⟨b, hb⟩ := (C111_runs_exist 5 (by norm_num)).1 false 1 (by linarith) (by linarith)
  refine ⟨e, e', a, b, he, he', fun k hk => ?_, ha, hb, ?_⟩
  · exact (C135_lat_lon 3 4 (by norm_num) _ h1 h2 e e' he he').1 k (by omega)
  · exact ((C135_polar 2 5 (by norm_num) false 1 (by norm_num) (by linarith) a b ha hb).1 0 (by norm_num)).2

/-- on three vertices, one basis function and then two, the region being the first vertex. -/
example : ∃ (ms ms' : MeshT.MeshSlepian (Fin 3)) (e : Fin 1 → ℝ) (e' : Fin 2 → ℝ) (S : Fin 1 → Fin 1 → ℝ) (S' : Fin 2 → Fin 2 → ℝ),
    BuiltMesh ms ![![0, 3 / 5, 4 / 5]] e S 1 ∧ BuiltMesh ms' ![![0, 3 / 5, 4 / 5], ![1, 0, 0]] e' S' 2 ∧ ms'.region = ms.region ∧
    e 0 ≤ e' 0 ∧ e' 1 ≤ e 0 := by
  have o1 : OrthonormalOnVertices (V := Fin 3) (K := 1) ![![0, 3 / 5, 4 / 5]] := by
    intro i j
    fin_cases i; fin_cases j
    norm_num [Fin.sum_univ_succ]
  have o2 : OrthonormalOnVertices (V := Fin 3) (K := 2) ![![0, 3 / 5, 4 / 5], ![1, 0, 0]] := by
    intro i j
    fin_cases i <;> fin_cases j <;> norm_num [Fin.sum_univ_succ]
  obtain ⟨ms, e, S, r, -, b⟩ := exists_built _ o1 (fun v => v == 0) 1 le_rfl
  obtain ⟨ms', e', S', r', -, b'⟩ := exists_built _ o2 (fun v => v == 0) 1 (by norm_num)
  have := C135_mesh (d := 1) ms ms' _ _ e e' S S' 1 2 b b' (by rw [r, r']) (fun i => by fin_cases i; rfl) 0
  exact ⟨ms, ms', e, e', S, S', b, b', by rw [r, r'], this.1, this.2⟩

/-- C136.  Masks: the eigenvalues of a mask and of another that has `d` pixels not in the first.  They are moved by at most `d` places,
so that at most `d` more of them are above any level. -/
theorem C136_masks (L : ℕ) (m m' : Integration.Grid (2 * L) → Bool) (e e' : List ℝ) (he : MaskEigenvalues L m e) (he' : MaskEigenvalues L m' e')
    (d : ℕ) (hd : (Finset.univ.filter fun x => m' x = true ∧ m x = false).card = d) :
    (∀ k, k + d < L ^ 2 → e'.getD (k + d) 0 ≤ e.getD k 0) ∧
    ∀ c : ℝ, ((Finset.range (L ^ 2)).filter fun k => c < e'.getD k 0).card ≤ ((Finset.range (L ^ 2)).filter fun k => c < e.getD k 0).card + d := by
  classical
  have key : ∀ k, k + d < L ^ 2 → e'.getD (k + d) 0 ≤ e.getD k 0 := by
    intro k hk
    have hL : 1 ≤ 2 * L := by
      rcases Nat.eq_zero_or_pos L with rfl | h
      · simp at hk
      · omega
    obtain ⟨-, s, h⟩ := mask_numbers he
    obtain ⟨-, s', h'⟩ := mask_numbers he'
    let x : Fin d → Integration.Grid (2 * L) := fun j => ((Finset.univ.filter fun x => m' x = true ∧ m x = false).equivFinOfCardEq hd).symm j
    refine interlacing_conditions h h' (linearOn_bandlimited L) subset_rfl
      (fun j f => f (Integration.theta (x j)) (Integration.phi (x j))) (fun j n a u _ => ?_) (fun f hf hz => ⟨hf, ?_⟩) k (by omega) hk
    · simp [Finset.sum_apply]
    · have hz' : ∀ y, m' y = true → m y = false → f (Integration.theta y) (Integration.phi y) = 0 := by
        intro y h1 h2
        have := hz (((Finset.univ.filter fun x => m' x = true ∧ m x = false).equivFinOfCardEq hd) ⟨y, by simp [h1, h2]⟩)
        simpa [x] using this
      rw [Finset.sum_filter, Finset.sum_filter]
      refine Finset.sum_le_sum fun y _ => ?_
      have hw := mul_nonneg (sq_nonneg ‖f (Integration.theta y) (Integration.phi y)‖) (Integration.weight_nonneg hL y)
      cases h1 : m' y
      · cases h2 : m y <;> simp [hw]
      · cases h2 : m y
        · simp [hz' y h1 h2]
        · simp
  refine ⟨key, fun c => ?_⟩
  have hsub : ((Finset.range (L ^ 2)).filter fun k => c < e'.getD k 0) ⊆
      (((Finset.range (L ^ 2)).filter fun k => c < e.getD k 0).image fun k => k + d) ∪ Finset.range d := by
    intro k hk
    rw [Finset.mem_filter, Finset.mem_range] at hk
    rw [Finset.mem_union, Finset.mem_image, Finset.mem_range]
    by_cases hkd : k < d
    · exact Or.inr hkd
    · refine Or.inl ⟨k - d, ?_, by omega⟩
      rw [Finset.mem_filter, Finset.mem_range]
      have h1 := key (k - d) (by omega)
      rw [Nat.sub_add_cancel (by omega)] at h1
      exact ⟨by omega, hk.2.trans_le h1⟩
  refine (Finset.card_le_card hsub).trans ((Finset.card_union_le _ _).trans ?_)
  rw [Finset.card_range]
  exact Nat.add_le_add_right Finset.card_image_le _

/-- C136.  Likewise for the regions of a mesh and their vertices. -/
theorem C136_mesh {Vert : Type} [Fintype Vert] {K : ℕ} (ms ms' : MeshT.MeshSlepian Vert) (φ : Fin K → Vert → ℝ) (e e' : Fin K → ℝ)
    (S S' : Fin K → Fin K → ℝ) (rows rows' : ℕ) (h : BuiltMesh ms φ e S rows) (h' : BuiltMesh ms' φ e' S' rows')
    (d : ℕ) (hd : (Finset.univ.filter fun v => ms'.region v = true ∧ ms.region v = false).card = d) (k : ℕ) (hk : k + d < K) :
    e' ⟨k + d, hk⟩ ≤ e ⟨k, by omega⟩ := by
  classical
  let x : Fin d → Vert := fun j => ((Finset.univ.filter fun v => ms'.region v = true ∧ ms.region v = false).equivFinOfCardEq hd).symm j
  refine interlacing_conditions (C88_mesh ms φ e S rows h) (C88_mesh ms' φ e' S' rows' h') (linearOn_mesh φ) subset_rfl
    (fun j f => f (x j)) (fun j n a u _ => ?_) (fun f hf hz => ⟨hf, ?_⟩) k (by omega) hk
  · simp [Finset.sum_apply]
  · have hz' : ∀ y, ms'.region y = true → ms.region y = false → f y = 0 := by
      intro y h1 h2
      have := hz (((Finset.univ.filter fun v => ms'.region v = true ∧ ms.region v = false).equivFinOfCardEq hd) ⟨y, by simp [h1, h2]⟩)
      simpa [x] using this
    rw [Finset.sum_filter, Finset.sum_filter]
    refine Finset.sum_le_sum fun y _ => ?_
    cases h1 : ms'.region y
    · cases h2 : ms.region y <;> simp [sq_nonneg]
    · cases h2 : ms.region y
      · simp [hz' y h1 h2]
      · simp

/-- the hypotheses are met: a mask and the same without one of its pixels, with eigenvalues `e'` and `e`. -/
example (m : Integration.Grid (2 * 3) → Bool) (x : Integration.Grid (2 * 3)) (hx : m x = true) :
    ∃ e e', MaskEigenvalues 3 (fun y => m y && !decide (y = x)) e ∧ MaskEigenvalues 3 m e' ∧
      ∀ k < 8, e'.getD (k + 1) 0 ≤ e.getD k 0 ∧ e.getD k 0 ≤ e'.getD k 0 := by
  have hm : ∀ m : Integration.Grid (2 * 3) → Bool, ∃ e, MaskEigenvalues 3 m e := by
    intro m
    obtain ⟨n, hn, P, we, M, w, V, e, S, h1, h2, h3, h4⟩ := C50_arbitrary_runs_exist 3 (by norm_num) m
    exact ⟨_, n, P, 3, we, M, w, V, e, S, hn, h1, by norm_num, h2, h3, h4, rfl⟩
  obtain ⟨e, he⟩ := hm fun y => m y && !decide (y = x)
  obtain ⟨e', he'⟩ := hm m
  refine ⟨e, e', he, he', fun k hk => ⟨?_, ?_⟩⟩
  · refine (C136_masks 3 _ m e e' he he' 1 ?_).1 k (by omega)
    rw [Finset.card_eq_one]
    refine ⟨x, ?_⟩
    ext y
    by_cases h : y = x <;> simp [h, hx]
  · exact C111_masks_nested 3 _ m (fun y hy => by simp at hy; exact hy.1) e e' he he' k (by omega)

/-- on three vertices with two basis functions: a region of one vertex and one of two. -/
example : ∃ (ms ms' : MeshT.MeshSlepian (Fin 3)) (e e' : Fin 2 → ℝ) (S S' : Fin 2 → Fin 2 → ℝ),
    BuiltMesh ms ![![0, 3 / 5, 4 / 5], ![1, 0, 0]] e S 2 ∧ BuiltMesh ms' ![![0, 3 / 5, 4 / 5], ![1, 0, 0]] e' S' 2 ∧ e' 1 ≤ e 0 := by
  have o2 : OrthonormalOnVertices (V := Fin 3) (K := 2) ![![0, 3 / 5, 4 / 5], ![1, 0, 0]] := by
    intro i j
    fin_cases i <;> fin_cases j <;> norm_num [Fin.sum_univ_succ]
  obtain ⟨ms, e, S, r, -, b⟩ := exists_built _ o2 (fun v => v == 0) 1 (by norm_num)
  obtain ⟨ms', e', S', r', -, b'⟩ := exists_built _ o2 (fun v => v != 2) 1 (by norm_num)
  exact ⟨ms, ms', e, e', S, S', b, b', C136_mesh ms ms' _ e e' S S' 2 2 b b' 1 (by rw [r, r']; decide) 0 (by norm_num)⟩

end Sleplet.Props
