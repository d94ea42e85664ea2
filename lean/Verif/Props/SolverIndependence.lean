import Verif.Lemmas.Determined
import Verif.Props.SymmetricSignals
import Verif.Props.KeptEigenvalues

/-!
C138: what does not depend on the solver, the sorting and the workers.
-/
namespace Sleplet.Props

open Complex Sleplet.Spec Sleplet.Gaunt Sleplet.RealMat Sleplet.Eigen Sleplet.LatLon

theorem norm_sphereInner {L : ℕ} : ∀ f ∈ bandlimited L, ∀ g ∈ bandlimited L, ‖sphereInner f g‖ = ‖sphereInner g f‖ := by
  intro f hf g hg
  obtain ⟨a, rfl⟩ := (mem_bandlimited_iff L f).1 hf
  obtain ⟨b, rfl⟩ := (mem_bandlimited_iff L g).1 hg
  rw [inner_comb, inner_comb, ← RCLike.norm_conj, map_sum]
  congr 1
  refine Finset.sum_congr rfl fun i _ => ?_
  rw [map_mul, conj_conj, mul_comm]

theorem Shape.same_eigenvalues {L : ℕ} {S : Shape L} (hS : S.Valid) {e e' : List ℝ} {v v' : List (List ℂ)} (h : S.Gives e v) (h' : S.Gives e' v')
    (p : Fin (L ^ 2)) : e.getD p 0 = e'.getD p 0 :=
  congrFun (same_numbers (Shape.best hS h) (Shape.best hS h') (linearOn_bandlimited L)) p

theorem Shape.best_same {L : ℕ} {S : Shape L} (hS : S.Valid) {e e' : List ℝ} {v v' : List (List ℂ)} (h : S.Gives e v) (h' : S.Gives e' v') :
    BestConcentrated (bandlimited L) sphereInner S.energy (fun p : Fin (L ^ 2) => synthesis L (v'.getD p [])) (fun p => e.getD p 0) := by
  rw [show (fun p : Fin (L ^ 2) => e.getD p 0) = fun p : Fin (L ^ 2) => e'.getD p 0 from funext fun p => Shape.same_eigenvalues hS h h' p]
  exact Shape.best hS h'

/-- C138.  Two solutions for a region give the same reconstruction of every signal, when the number of coefficients does not part equal
eigenvalues. -/
theorem C138_reconstruction (L : ℕ) (S : Shape L) (hS : S.Valid) (e e' : List ℝ) (v v' : List (List ℂ)) (h : S.Gives e v) (h' : S.Gives e' v')
    (N : ℕ) (hN : N ≤ L ^ 2) (hgap : ∀ p < N, ∀ q, N ≤ q → q < L ^ 2 → e.getD q 0 ≠ e.getD p 0)
    {Pix : Type} [Fintype Pix] (point : Pix → ℝ × ℝ) (synth : (Fin (L ^ 2) → ℂ) → Pix → ℂ)
    (hY : ∀ c x, synth c x = synthesis L (List.ofFn c) (point x).1 (point x).2) (weight : Pix → ℝ) (flm : Fin (L ^ 2) → ℂ) :
    ∃ cs cs' f, Transform.slepianForward (asObject L N e v) synth weight { flm := some flm } none = .ok cs ∧
      Transform.slepianForward (asObject L N e' v') synth weight { flm := some flm } none = .ok cs' ∧
      Transform.slepianInverse (asObject L N e v) synth cs = .ok f ∧ Transform.slepianInverse (asObject L N e' v') synth cs' = .ok f := by
  obtain ⟨cs, h1, h2⟩ := reconstruction_eq hS h N hN point synth hY weight flm
  obtain ⟨cs', h1', h2'⟩ := reconstruction_eq hS h' N hN point synth hY weight flm
  refine ⟨cs, cs', _, h1, h1', h2, ?_⟩
  rw [h2']
  have := same_project (Shape.best hS h) (Shape.best_same hS h h') (linearOn_bandlimited L) norm_sphereInner N
    (fun p q hp hq => hgap p hp q hq q.2) (synthesis L (List.ofFn flm)) ⟨_, rfl⟩
  rw [this]

/-- C138.  The squared moduli of the first `N` functions add up to the same at every point. -/
theorem C138_squares (L : ℕ) (S : Shape L) (hS : S.Valid) (e e' : List ℝ) (v v' : List (List ℂ)) (h : S.Gives e v) (h' : S.Gives e' v')
    (N : ℕ) (hN : N ≤ L ^ 2) (hgap : ∀ p < N, ∀ q, N ≤ q → q < L ^ 2 → e.getD q 0 ≠ e.getD p 0) (th ph : ℝ) :
    ∑ p ∈ Finset.range N, ‖synthesis L (v.getD p []) th ph‖ ^ 2 = ∑ p ∈ Finset.range N, ‖synthesis L (v'.getD p []) th ph‖ ^ 2 := by
  let D : ℝ → ℝ → ℂ := comb fun i : Fin (L ^ 2) => (starRingEnd ℂ) (harm i th ph)
  have hD : D ∈ bandlimited L := (mem_bandlimited_iff L D).2 ⟨_, rfl⟩
  have hin : ∀ f ∈ bandlimited L, sphereInner D f = (starRingEnd ℂ) (f th ph) := by
    intro f hf
    obtain ⟨a, rfl⟩ := (mem_bandlimited_iff L f).1 hf
    rw [inner_comb, comb, map_sum]
    exact Finset.sum_congr rfl fun i _ => by rw [map_mul, mul_comm]
  have key := same_project (Shape.best hS h) (Shape.best_same hS h h') (linearOn_bandlimited L) norm_sphereInner N
    (fun p q hp hq => hgap p hp q hq q.2) D hD
  have hval : ∀ w : List (List ℂ), (∑ p : Fin (L ^ 2) with p.val < N, sphereInner D (synthesis L (w.getD p [])) • synthesis L (w.getD p [])) th ph =
      ((∑ p ∈ Finset.range N, ‖synthesis L (w.getD p []) th ph‖ ^ 2 : ℝ) : ℂ) := by
    intro w
    have hrange : ∑ p : Fin (L ^ 2) with p.val < N, ((‖synthesis L (w.getD p []) th ph‖ ^ 2 : ℝ) : ℂ) =
        ((∑ p ∈ Finset.range N, ‖synthesis L (w.getD p []) th ph‖ ^ 2 : ℝ) : ℂ) := by
      rw [Finset.sum_filter, Fin.sum_univ_eq_sum_range (fun i => if i < N then ((‖synthesis L (w.getD i []) th ph‖ ^ 2 : ℝ) : ℂ) else 0),
        ← Finset.sum_filter, ofReal_sum]
      refine Finset.sum_congr ?_ fun _ _ => rfl
      ext i
      simp only [Finset.mem_filter, Finset.mem_range]
      omega
    rw [← hrange]
    simp only [Finset.sum_apply, Pi.smul_apply, smul_eq_mul]
    refine Finset.sum_congr rfl fun p _ => ?_
    rw [hin _ ⟨_, rfl⟩, mul_comm, Complex.mul_conj, Complex.normSq_eq_norm_sq]
  have h3 := congrFun (congrFun key th) ph
  rw [hval v, hval v'] at h3
  exact_mod_cast h3

/-- C138.  The function of an eigenvalue that occurs once is the same up to a factor of modulus one, so that its modulus at each point and
the moduli of the coefficients of all signals are the same. -/
theorem C138_function (L : ℕ) (S : Shape L) (hS : S.Valid) (e e' : List ℝ) (v v' : List (List ℂ)) (h : S.Gives e v) (h' : S.Gives e' v')
    (p : ℕ) (hp : p < L ^ 2) (hsimple : ∀ q < L ^ 2, q ≠ p → e.getD q 0 ≠ e.getD p 0) :
    e.getD p 0 = e'.getD p 0 ∧ ∃ u : ℂ, ‖u‖ = 1 ∧ (∀ th ph, synthesis L (v'.getD p []) th ph = u * synthesis L (v.getD p []) th ph) ∧
      ∀ c : List ℂ, ‖sphereInner (synthesis L c) (synthesis L (v'.getD p []))‖ = ‖sphereInner (synthesis L c) (synthesis L (v.getD p []))‖ := by
  obtain ⟨h1, h2⟩ := same_simple (Shape.best hS h) (Shape.best_same hS h h') (linearOn_bandlimited L) norm_sphereInner ⟨p, hp⟩
    (fun q hq => hsimple q q.2 fun hqp => hq (Fin.ext hqp))
  dsimp only at h1 h2
  refine ⟨Shape.same_eigenvalues hS h h' ⟨p, hp⟩, _, h1, fun th ph => ?_, fun c => ?_⟩
  · conv_lhs => rw [h2]
    rfl
  · rw [norm_sphereInner _ ⟨c, rfl⟩ _ ⟨_, rfl⟩, norm_sphereInner (synthesis L c) ⟨c, rfl⟩ (synthesis L (v.getD p [])) ⟨_, rfl⟩]
    conv_lhs => rw [h2]
    have h3 := (linearOn_bandlimited L).lin (fun _ : Fin 1 => sphereInner (synthesis L (v'.getD p [])) (synthesis L (v.getD p [])))
      (fun _ => synthesis L (v.getD p [])) (synthesis L c) (fun _ => ⟨_, rfl⟩) ⟨c, rfl⟩
    simp only [Finset.univ_unique, Finset.sum_singleton] at h3
    rw [h3, norm_mul, h1, one_mul]

/-- C138.  Likewise on a mesh: the reconstruction of every field, whether a combination of the basis functions or not. -/
theorem C138_mesh {Vert : Type} [Fintype Vert] {K : ℕ} (ms ms' : MeshT.MeshSlepian Vert) (φ : Fin K → Vert → ℝ) (e e' : Fin K → ℝ)
    (S S' : Fin K → Fin K → ℝ) (rows rows' : ℕ) (h : BuiltMesh ms φ e S rows) (h' : BuiltMesh ms' φ e' S' rows')
    (hr : ms'.region = ms.region) (hN : ms'.N = ms.N) :
    e = e' ∧ ((∀ p q : Fin K, p.val < ms.N → ms.N ≤ q.val → e q ≠ e p) → ∀ u : Vert → ℝ, ∃ F F' g,
      MeshT.slepianMeshForward ms ⟨some u, none, false⟩ none = .ok F ∧ MeshT.slepianMeshForward ms' ⟨some u, none, false⟩ none = .ok F' ∧
      MeshT.slepianMeshInverse ms F = .ok g ∧ MeshT.slepianMeshInverse ms' F' = .ok g) := by
  have b := C88_mesh ms φ e S rows h
  have b' := C88_mesh ms' φ e' S' rows' h'
  rw [hr] at b'
  have hee := same_numbers b b' (linearOn_mesh φ)
  refine ⟨hee, fun hgap u => ?_⟩
  subst hee
  have hsym : ∀ f ∈ {f : Vert → ℝ | ∃ c : Fin K → ℝ, f = fun v => ∑ i, c i * φ i v}, ∀ g ∈ {f : Vert → ℝ | ∃ c : Fin K → ℝ, f = fun v => ∑ i, c i * φ i v},
      ‖∑ v, f v * g v‖ = ‖∑ v, g v * f v‖ := fun f _ g _ => by simp only [mul_comm]
  obtain ⟨F, g, h1, h2, h3, h4, -, -⟩ := C32_mesh_round_trip ms φ e S rows h u
  obtain ⟨F', g', h1', h2', h3', h4', -, -⟩ := C32_mesh_round_trip ms' φ e S' rows' h' u
  have hNK : ms.N ≤ K := h.le_rows.trans h.rows_le
  refine ⟨_, _, g, h1, h1', h2, ?_⟩
  rw [h2']
  congr 1
  have hrep : ∀ (ms : MeshT.MeshSlepian Vert) (hNK : ms.N ≤ K) (F : Fin ms.N → ℝ) (S : Fin K → Fin K → ℝ) (g : Vert → ℝ),
      (∀ v, g v = ∑ p : Fin ms.N, F p * ∑ i, S ⟨p, by omega⟩ i * φ i v) →
      g = ∑ p : Fin K, (if hp : p.val < ms.N then F ⟨p, hp⟩ else 0) • fun v => ∑ i, S p i * φ i v := by
    intro ms hNK F S g hg
    funext v
    rw [hg v, Finset.sum_apply]
    simp only [Pi.smul_apply, smul_eq_mul]
    symm
    refine (Finset.sum_subset (Finset.subset_univ (Finset.univ.filter fun p : Fin K => p.val < ms.N)) fun p _ hp => ?_).symm.trans ?_
    · have : ¬ p.val < ms.N := by simpa using hp
      rw [dif_neg this, zero_mul]
    · refine Finset.sum_bij' (fun p hp => ⟨p.val, by simpa using hp⟩) (fun p _ => ⟨p, by omega⟩) ?_ ?_ ?_ ?_ ?_
      · intro p _; exact Finset.mem_univ _
      · intro p _; simp
      · intro p _; rfl
      · intro p _; rfl
      · intro p hp
        have : p.val < ms.N := by simpa using hp
        rw [dif_pos this]
  have hgV := hrep ms hNK F S g h3
  have hgV' := hrep ms' (by omega) F' S' g' h3'
  -- both are combinations of the first functions, and what is left of the field is orthogonal to these
  have hmem : g ∈ {f : Vert → ℝ | ∃ c : Fin K → ℝ, f = fun v => ∑ i, c i * φ i v} := by
    rw [hgV]; exact (linearOn_mesh φ).mem _ _ fun p => b.mem p
  have hmem' : g' ∈ {f : Vert → ℝ | ∃ c : Fin K → ℝ, f = fun v => ∑ i, c i * φ i v} := by
    rw [hgV']; exact (linearOn_mesh φ).mem _ _ fun p => b'.mem p
  have hcoef : ∀ q : Fin K, ∑ v, g v * ∑ i, S' q i * φ i v = ∑ v, g' v * ∑ i, S' q i * φ i v := by
    intro q
    by_cases hq : q.val < ms.N
    · have e1 : ∑ v, (u v - g' v) * ∑ i, S' q i * φ i v = 0 := h4' ⟨q, by omega⟩
      have e2 : ∑ v, (u v - g v) * ∑ i, S' q i * φ i v = 0 := by
        have hx := leading_expand b b' (linearOn_mesh φ) hsym ms.N hgap q hq
        have hx' : ∀ v, ∑ i, S' q i * φ i v = ∑ p : Fin K with p.val < ms.N,
            (∑ w, (∑ i, S' q i * φ i w) * ∑ i, S p i * φ i w) * ∑ i, S p i * φ i v := by
          intro v
          have := congrFun hx v
          rw [Finset.sum_apply] at this
          exact this
        rw [Finset.sum_congr rfl fun v _ => by rw [hx' v, Finset.mul_sum]]
        rw [Finset.sum_comm]
        refine Finset.sum_eq_zero fun p hp => ?_
        have hp' : p.val < ms.N := by simpa using hp
        have := h4 ⟨p, hp'⟩
        rw [Finset.sum_congr rfl fun v _ => show _ = (∑ w, (∑ i, S' q i * φ i w) * ∑ i, S p i * φ i w) * ((u v - g v) * ∑ i, S p i * φ i v) by ring,
          ← Finset.mul_sum]
        exact mul_eq_zero_of_right _ this
      simp only [sub_mul, Finset.sum_sub_distrib] at e1 e2
      linarith
    · have z : ∀ (f : Vert → ℝ) (a : Fin K → ℝ) (s : Fin K → Vert → ℝ), f = ∑ p, a p • s p →
          (∀ p : Fin K, p.val < ms.N → ∑ v, s p v * ∑ i, S' q i * φ i v = 0) → (∀ p : Fin K, ¬ p.val < ms.N → a p = 0) →
          ∑ v, f v * ∑ i, S' q i * φ i v = 0 := by
        intro f a s hf hs ha
        rw [hf]
        simp only [Finset.sum_apply, Pi.smul_apply, smul_eq_mul, Finset.sum_mul _ _ (∑ i, S' q i * φ i _)]
        rw [Finset.sum_comm]
        refine Finset.sum_eq_zero fun p _ => ?_
        by_cases hp : p.val < ms.N
        · simp only [mul_assoc]
          rw [← Finset.mul_sum, hs p hp, mul_zero]
        · simp [ha p hp]
      rw [z g _ _ hgV (fun p hp => leading_perp b' b (linearOn_mesh φ) hsym ms.N hgap p q hp (by omega)) (fun p hp => dif_neg hp),
        z g' _ _ hgV' (fun p hp => ?_) (fun p hp => dif_neg (by omega))]
      have := b'.orthonormal p q
      rw [if_neg (fun hpq : p = q => hq (hpq ▸ hp))] at this
      exact this
  rw [b'.expand g hmem, b'.expand g' hmem']
  exact Finset.sum_congr rfl fun q _ => by dsimp only; rw [hcoef q]

/-- the hypotheses are met: the hemisphere at bandlimit two, whose greatest eigenvalue occurs once, with one coefficient. -/
example : ∃ e v, (Shape.polar false (Real.pi / 2) : Shape 2).Gives e v ∧ ∀ e' v', (Shape.polar false (Real.pi / 2) : Shape 2).Gives e' v' →
    ∃ u : ℂ, ‖u‖ = 1 ∧ ∀ th ph, synthesis 2 (v'.getD 0 []) th ph = u * synthesis 2 (v.getD 0 []) th ph := by
  have hpi := Real.pi_pos
  have hS : (Shape.polar false (Real.pi / 2) : Shape 2).Valid := ⟨by positivity, by linarith⟩
  obtain ⟨e, v, h⟩ := (Shape.gives_exists (L := 2) (by norm_num)).1 false (Real.pi / 2) (by positivity) (by linarith)
  refine ⟨e, v, h, fun e' v' h' => ?_⟩
  obtain ⟨-, u, hu, huv, -⟩ := C138_function 2 _ hS e e' v v' h h' 0 (by norm_num)
    fun q hq h0 => ((hemisphere_functions h).1 q (by omega) hq).ne
  exact ⟨u, hu, huv⟩

example : ∃ e v, (Shape.polar false (Real.pi / 2) : Shape 2).Gives e v ∧ ∀ e' v', (Shape.polar false (Real.pi / 2) : Shape 2).Gives e' v' →
    ∀ th ph, ∑ p ∈ Finset.range 1, ‖synthesis 2 (v.getD p []) th ph‖ ^ 2 = ∑ p ∈ Finset.range 1, ‖synthesis 2 (v'.getD p []) th ph‖ ^ 2 := by
  have hpi := Real.pi_pos
  have hS : (Shape.polar false (Real.pi / 2) : Shape 2).Valid := ⟨by positivity, by linarith⟩
  obtain ⟨e, v, h⟩ := (Shape.gives_exists (L := 2) (by norm_num)).1 false (Real.pi / 2) (by positivity) (by linarith)
  refine ⟨e, v, h, fun e' v' h' => C138_squares 2 _ hS e e' v v' h h' 1 (by norm_num) fun p hp q hq hq' => ?_⟩
  obtain rfl : p = 0 := by omega
  exact ((hemisphere_functions h).1 q (by omega) hq').ne

/-- two vertices, one in the region, and two basis functions that are not the vertices, with one coefficient. -/
example : ∃ (ms : MeshT.MeshSlepian (Fin 2)) (φ : Fin 2 → Fin 2 → ℝ) (e : Fin 2 → ℝ) (S : Fin 2 → Fin 2 → ℝ),
    BuiltMesh ms φ e S 2 ∧ φ 0 0 = 3 / 5 ∧ ms.N = 1 ∧ ∀ p q : Fin 2, p.val < ms.N → ms.N ≤ q.val → e q ≠ e p := by
  obtain ⟨ms, e, S, hr, hN1, h⟩ := exists_built (V := Fin 2) ![![3 / 5, 4 / 5], ![-4 / 5, 3 / 5]]
    (by intro i j; fin_cases i <;> fin_cases j <;> simp [Fin.sum_univ_two] <;> norm_num) (fun v => decide (v = 0)) 1 (by norm_num)
  have h0 := (C130_mesh_partial ms _ e S 2 h 0).2.2 rfl
  have h1 := (C130_mesh_partial ms _ e S 2 h 1).2.2 rfl
  have hN : Integration.meshShannon ms.region 2 = 1 := by
    rw [h0.1, hr]
    simp only [decide_eq_true_eq]
    decide
  rw [hN] at h0 h1
  have e0 : e 0 = 1 := by simpa using h0.2
  have e1 : e 1 = 0 := by simpa using h1.2
  refine ⟨ms, _, e, S, h, by simp, hN1, fun p q hp hq => ?_⟩
  rw [hN1] at hp hq
  obtain rfl : p = 0 := Fin.ext (by simpa using hp)
  obtain rfl : q = 1 := Fin.ext (by have := q.2; show q.val = 1; omega)
  rw [e0, e1]
  norm_num

end Sleplet.Props
