import Verif.Lemmas.Sparsity
import Verif.Props.SlepianFields
import Verif.Props.SlepianTransform
import Verif.Lemmas.Denoising
import Verif.Props.Tiling
import Verif.Spec.Sparse

/-!
C95: what the figures of sorted coefficients and of norms of translated functions show.
-/
namespace Sleplet.Props

open Complex Sleplet.Spec Sleplet.Gaunt Functions Sparsity PolarFigures

variable {L : ℕ} {Pix : Type} {S : Fin (L ^ 2) → Fin (L ^ 2) → ℂ} {ev : Fin (L ^ 2) → ℝ} {region : (ℝ → ℝ → ℂ) → ℝ}

private theorem normSq_sum {n : ℕ} (a : Fin n → ℂ) : ((∑ i, a i * (starRingEnd ℂ) (a i)) : ℂ) = ((∑ i, ‖a i‖ ^ 2 : ℝ) : ℂ) := by
  push_cast
  exact Finset.sum_congr rfl fun i _ => by rw [Complex.mul_conj, Complex.normSq_eq_norm_sq]; push_cast; rfl

private theorem energy_eq (c : List ℂ) : totalEnergy (synthesis L c) = ∑ i : Fin (L ^ 2), ‖c.getD i 0‖ ^ 2 := by
  unfold totalEnergy
  rw [inner_synthesis, normSq_sum, ofReal_re]

private theorem distSq_eq (c d : List ℂ) : distSq (synthesis L c) (synthesis L d) = ∑ i : Fin (L ^ 2), ‖c.getD i 0 - d.getD i 0‖ ^ 2 := by
  have h : (fun th ph => synthesis L c th ph - synthesis L d th ph) = fun th ph => ∑ i : Fin (L ^ 2), (c.getD i 0 - d.getD i 0) * harm i th ph := by
    funext th ph
    rw [synthesis_eq, synthesis_eq, ← Finset.sum_sub_distrib]
    exact Finset.sum_congr rfl fun i _ => by ring
  unfold distSq
  rw [h, inner_sums, normSq_sum, ofReal_re]

/-- the distance from the combination of some orthonormal rows. -/
private theorem dist_rows {n N : ℕ} (E : Fin N → Fin n → ℂ) (hE : OrthonormalRows E) (f : Fin n → ℂ) (c : Fin N → ℂ) :
    ∑ i, ‖f i - ∑ p, c p * E p i‖ ^ 2 =
      ∑ i, ‖f i‖ ^ 2 - ∑ p, ‖∑ i, f i * (starRingEnd ℂ) (E p i)‖ ^ 2 + ∑ p, ‖(∑ i, f i * (starRingEnd ℂ) (E p i)) - c p‖ ^ 2 := by
  set F : Fin N → ℂ := fun p => ∑ i, f i * (starRingEnd ℂ) (E p i) with hF
  have h1 : ∑ i, f i * (starRingEnd ℂ) (∑ p, c p * E p i) = ∑ p, F p * (starRingEnd ℂ) (c p) := by
    simp only [map_sum, map_mul, Finset.mul_sum, hF, Finset.sum_mul]
    rw [Finset.sum_comm]
    exact Finset.sum_congr rfl fun p _ => Finset.sum_congr rfl fun i _ => by ring
  have h2 : ∑ i, (∑ p, c p * E p i) * (starRingEnd ℂ) (∑ p, c p * E p i) = ∑ p, c p * (starRingEnd ℂ) (c p) := by
    have : ∀ q, ∑ i, (∑ p, c p * E p i) * (starRingEnd ℂ) (E q i) = c q := by
      intro q
      simp only [Finset.sum_mul]
      rw [Finset.sum_comm]
      rw [Finset.sum_eq_single q]
      · have h := hE q q
        rw [if_pos rfl] at h
        refine Eq.trans ?_ (mul_one (c q))
        rw [← h, Finset.mul_sum]
        exact Finset.sum_congr rfl fun i _ => by ring
      · intro p _ hp
        have h := hE p q
        rw [if_neg hp] at h
        refine Eq.trans ?_ (mul_zero (c p))
        rw [← h, Finset.mul_sum]
        exact Finset.sum_congr rfl fun i _ => by ring
      · simp
    simp only [map_sum, map_mul, Finset.mul_sum]
    rw [Finset.sum_comm]
    refine Finset.sum_congr rfl fun q _ => ?_
    refine Eq.trans ?_ (congrArg (· * (starRingEnd ℂ) (c q)) (this q))
    rw [Finset.sum_mul]
    exact Finset.sum_congr rfl fun i _ => by ring
  have key : ((∑ i, ‖f i - ∑ p, c p * E p i‖ ^ 2 : ℝ) : ℂ) = ((∑ i, ‖f i‖ ^ 2 - ∑ p, ‖F p‖ ^ 2 + ∑ p, ‖F p - c p‖ ^ 2 : ℝ) : ℂ) := by
    have e1 := normSq_sum fun i => f i - ∑ p, c p * E p i
    have e2 := normSq_sum f
    have e3 := normSq_sum F
    have e4 := normSq_sum fun p => F p - c p
    have h1' := congrArg (starRingEnd ℂ) h1
    simp only [map_sum, map_mul, conj_conj] at h1'
    push_cast at e1 e2 e3 e4 ⊢
    rw [← e1, ← e2, ← e3, ← e4]
    simp only [map_sub, sub_mul, mul_sub, Finset.sum_sub_distrib]
    simp only [map_sum, map_mul] at h1 h2 ⊢
    rw [h1, h2]
    have e5 : ∑ x, (∑ p, c p * E p x) * (starRingEnd ℂ) (f x) = ∑ p, c p * (starRingEnd ℂ) (F p) :=
      (Finset.sum_congr rfl fun p _ => mul_comm _ _).trans (h1'.trans (Finset.sum_congr rfl fun p _ => mul_comm _ _))
    rw [e5]
    ring
  exact_mod_cast key

private theorem squares_zip {N : ℕ} (xs : List ℕ) (ys : List ℝ) (h : ys.length ≤ xs.length) :
    ((xs.zip ys).take N).map (fun q => q.2 ^ 2) = (ys.take N).map fun y => y ^ 2 := by
  conv_rhs => rw [← List.map_snd_zip h, ← List.map_take, List.map_map]
  rfl

private theorem sum_first {M N : ℕ} (h : N ≤ M) (g : Fin M → ℂ) : ∑ p : Fin M with p.val < N, g p = ∑ p : Fin N, g (Fin.castLE h p) := by
  classical
  have : (Finset.univ.filter fun p : Fin M => p.val < N) = Finset.univ.map (Fin.castLEEmb h) := by
    ext p
    simp only [Finset.mem_filter, Finset.mem_univ, true_and, Finset.mem_map]
    exact ⟨fun hp => ⟨⟨p, hp⟩, rfl⟩, fun ⟨q, hq⟩ => hq ▸ q.2⟩
  rw [this, Finset.sum_map]
  rfl

private theorem count_first (N : ℕ) (c : ℕ → ℂ) : ((Finset.range N).filter fun p => c p ≠ 0).card = (Finset.univ.filter fun p : Fin N => c p ≠ 0).card := by
  classical
  rw [← Finset.card_map Fin.valEmbedding]
  congr 1
  ext p
  simp only [Finset.mem_filter, Finset.mem_range, Finset.mem_map, Finset.mem_univ, true_and]
  exact ⟨fun ⟨h1, h2⟩ => ⟨⟨p, h1⟩, h2, rfl⟩, fun ⟨q, h1, h2⟩ => h2 ▸ ⟨q.2, h1⟩⟩

private theorem slepianField_eq (N : ℕ) (h : N ≤ L ^ 2) (c : ℕ → ℂ) :
    slepianField S N c = synthesis L (List.ofFn fun i => ∑ p : Fin N, c p * S (Fin.castLE h p) i) := by
  funext th ph
  unfold slepianField
  rw [sum_first h]
  simp only [synthesis_eq, List.getD_eq_getElem?_getD, List.getElem?_ofFn, Fin.is_lt, dif_pos, Option.getD_some, Fin.eta, Finset.sum_mul, Finset.mul_sum]
  rw [Finset.sum_comm]
  exact Finset.sum_congr rfl fun i _ => Finset.sum_congr rfl fun p _ => by simp only [Fin.val_castLE]; ring

private theorem rows_orth (hb : BestConcentrated (bandlimited L) sphereInner region (fun p => synthesis L (List.ofFn (S p))) ev) :
    OrthonormalRows S := by
  intro p q
  have := hb.orthonormal p q
  rw [inner_synthesis] at this
  simpa [List.getD_eq_getElem?_getD] using this

/-- C95. The figure of sorted coefficients of a field: both curves have the points `0, …, N - 1` and never rise.  For every `K ≤ N`, what the first `K` points of the Slepian
curve leave of the energy of the field is the least squared distance from it to a sum of at most `K` of the first `N` Slepian functions; what the first `K` points of the
harmonic curve leave is the least squared distance to a sum of at most `K` spherical harmonics. -/
theorem C95_curves [Fintype Pix] (e : SlepianEnv L Pix) (point : Pix → ℝ × ℝ) (hs : SlepianOn region S ev e point) (flm : Fin (L ^ 2) → ℂ) :
    ∃ a b, coefficientsFigure e.sl e.synth e.weight flm = .ok (a, b) ∧
      a.map Prod.fst = List.range e.sl.N ∧ b.map Prod.fst = List.range e.sl.N ∧
      (a.map Prod.snd).Pairwise (· ≥ ·) ∧ (b.map Prod.snd).Pairwise (· ≥ ·) ∧
      ∀ K ≤ e.sl.N,
        IsLeast {d : ℝ | ∃ c : ℕ → ℂ, ((Finset.range e.sl.N).filter fun p => c p ≠ 0).card ≤ K ∧ d = distSq (synthesis L (List.ofFn flm)) (slepianField S e.sl.N c)}
          (totalEnergy (synthesis L (List.ofFn flm)) - ((a.take K).map fun q => q.2 ^ 2).sum) ∧
        IsLeast {d : ℝ | ∃ c : List ℂ, ((Finset.range (L ^ 2)).filter fun i => c.getD i 0 ≠ 0).card ≤ K ∧
            d = distSq (synthesis L (List.ofFn flm)) (synthesis L c)}
          (totalEnergy (synthesis L (List.ofFn flm)) - ((b.take K).map fun q => q.2 ^ 2).sum) := by
  classical
  set N := e.sl.N with hN
  have hS := rows_orth hs.best
  set E : Fin N → Fin (L ^ 2) → ℂ := fun p => S (Fin.castLE hs.le p) with hE
  have hEo : OrthonormalRows E := by
    intro p q
    have := hS (Fin.castLE hs.le p) (Fin.castLE hs.le q)
    simpa [hE, Fin.ext_iff] using this
  set F : Fin N → ℂ := fun p => ∑ i, flm i * (starRingEnd ℂ) (E p i) with hF
  have hfwd := forward_flm e.sl e.synth e.weight E hN.symm hs.le (fun p => hs.rows (Fin.castLE hs.le p) p.2) flm
  set ya := (sort (magnitudes (List.ofFn F))).reverse with hya
  set yb := (sort (magnitudes (List.ofFn flm))).reverse with hyb
  have hla : ya.length = N := by simp [hya, ((sort_perm _).length_eq), magnitudes]
  have hlb : yb.length = L ^ 2 := by simp [hyb, ((sort_perm _).length_eq), magnitudes]
  have hlb' : (yb.take N).length = N := by rw [List.length_take, hlb]; exact min_eq_left hs.le
  have hgetf : ∀ i : Fin (L ^ 2), (List.ofFn flm).getD i 0 = flm i := by
    intro i
    simp [List.getD_eq_getElem?_getD]
  refine ⟨(List.range N).zip ya, (List.range N).zip (yb.take N), ?_, ?_, ?_, ?_, ?_, ?_⟩
  · simp only [coefficientsFigure, slepianMagnitudes, hfwd, bind, Except.bind, pure, Except.pure, harmonicMagnitudes, sortReversedView_eq, line]
    rw [if_pos (by rw [List.length_range]; exact hla.symm), if_pos (by rw [List.length_range]; exact hlb'.symm)]
  · rw [List.map_fst_zip (by rw [List.length_range, hla])]
  · rw [List.map_fst_zip (by rw [List.length_range, hlb'])]
  · rw [List.map_snd_zip (by rw [List.length_range, hla])]
    exact (reverse_sort _).2
  · rw [List.map_snd_zip (by rw [List.length_range, hlb'])]
    exact (reverse_sort _).2.sublist (List.take_sublist _ _)
  · intro K hK
    rw [squares_zip _ _ (by rw [List.length_range, hla]), squares_zip _ _ (by rw [List.length_range, hlb']), List.take_take, min_eq_left hK]
    have he : totalEnergy (synthesis L (List.ofFn flm)) = ∑ i, ‖flm i‖ ^ 2 := by
      rw [energy_eq]
      exact Finset.sum_congr rfl fun i _ => by rw [hgetf]
    rw [he]
    constructor
    · have := isLeast_sparse F (∑ i, ‖flm i‖ ^ 2) K
      convert this using 1
      ext d
      have hd : ∀ c : ℕ → ℂ, distSq (synthesis L (List.ofFn flm)) (slepianField S N c) = ∑ i, ‖flm i‖ ^ 2 - ∑ p, ‖F p‖ ^ 2 + ∑ p : Fin N, ‖F p - c p‖ ^ 2 := by
        intro c
        rw [slepianField_eq N hs.le, distSq_eq, ← dist_rows E hEo flm fun p : Fin N => c p]
        refine Finset.sum_congr rfl fun i _ => ?_
        rw [hgetf]
        simp [List.getD_eq_getElem?_getD, hE]
      constructor
      · rintro ⟨c, hc, rfl⟩
        exact ⟨fun p => c p, by rwa [count_first] at hc, hd c⟩
      · rintro ⟨c, hc, rfl⟩
        have hc' : ∀ p : Fin N, (fun p : ℕ => if h : p < N then c ⟨p, h⟩ else 0) p = c p := fun p => by simp
        refine ⟨fun p => if h : p < N then c ⟨p, h⟩ else 0, ?_, ?_⟩
        · rw [count_first]
          simpa using hc
        · rw [hd]
          simp
    · have := isLeast_sparse flm (∑ i, ‖flm i‖ ^ 2) K
      convert this using 1
      ext d
      have hd : ∀ c : List ℂ, distSq (synthesis L (List.ofFn flm)) (synthesis L c) = ∑ i, ‖flm i‖ ^ 2 - ∑ i, ‖flm i‖ ^ 2 + ∑ i : Fin (L ^ 2), ‖flm i - c.getD i 0‖ ^ 2 := by
        intro c
        rw [distSq_eq, sub_self, zero_add]
        exact Finset.sum_congr rfl fun i _ => by rw [hgetf]
      constructor
      · rintro ⟨c, hc, rfl⟩
        exact ⟨fun i => c.getD i 0, by rwa [count_first (L ^ 2) fun i => c.getD i 0] at hc, hd c⟩
      · rintro ⟨c, hc, rfl⟩
        have hc' : ∀ i : Fin (L ^ 2), (List.ofFn c).getD i 0 = c i := fun i => by simp [List.getD_eq_getElem?_getD]
        refine ⟨List.ofFn c, ?_, ?_⟩
        · rw [count_first (L ^ 2) fun i => (List.ofFn c).getD i 0]
          simpa only [hc'] using hc
        · rw [hd]
          simp only [hc']

/-! ### Wavelet coefficients -/

private theorem lines_ok (jMin : ℤ) (row : List ℂ) (rows : List (List ℂ)) (keep : Option ℕ) :
    ∃ lines, sortedLines jMin (row :: rows) keep = .ok lines ∧ lines.length = rows.length + 1 ∧
      ∀ (i : ℕ) (r : List ℂ), (row :: rows)[i]? = some r → ∃ ys, Decreasing ys (r.map fun z => ‖z‖) ∧
        lines[i]? = some (if i = 0 then none else some ((i : ℤ) - 1 + jMin), match keep with
          | none => ys
          | some n => ys.take n) := by
  refine ⟨_, by simp only [sortedLines, List.map_cons, index, List.getElem?_cons_zero, bind, Except.bind, pure, Except.pure]; rfl, by simp, ?_⟩
  intro i r hr
  refine ⟨(sort (magnitudes r)).reverse, reverse_sort _, ?_⟩
  cases i with
  | zero =>
    obtain rfl : row = r := by simpa using hr
    cases keep <;> simp
  | succ i =>
    rw [List.getElem?_cons_succ] at hr
    simp only [List.getElem?_cons_succ, List.tail_cons, List.getElem?_map, List.getElem?_zipIdx, hr, Option.map_some]
    cases keep <;> simp

private theorem row_magnitudes {N : ℕ} {row f : List ℂ} {k : ℕ → ℝ} (hl : row.length = N)
    (hv : ∀ p < N, ‖row.getD p 0‖ = k p * ‖f.getD p 0‖) : (row.map fun z => ‖z‖) = (List.range N).map fun p => k p * ‖f.getD p 0‖ := by
  apply List.ext_getElem
  · simp [hl]
  · intro p h1 h2
    have hp : p < N := by simpa using h2
    have := hv p hp
    rw [List.getD_eq_getElem?_getD, List.getElem?_eq_getElem (by omega), Option.getD_some] at this
    simpa using this

/-- C95. The sparsity figure of a field with no zero among its first `N` Slepian coefficients: the line without a scale shows the Slepian coefficients weighted by the scaling
function, and the line labelled `j` those weighted by the wavelet of scale `j`, in non-increasing order; the dashed lines show the `N` largest of the harmonic coefficients
weighted in the same way by degree. -/
theorem C95_sparsity_partial (B L jMin N : ℕ) (hB : 2 ≤ B) (hj : jMin ≤ Tiling.jMax B L) (hN : 0 < N) (hx : N ≤ L ^ 2) (f flm : List ℂ) (hl : N ≤ f.length)
    (hf : ∀ p < N, f.getD p 0 ≠ 0) (hflm : flm.length = L ^ 2) :
    ∃ w wavelets v a b, Wavelets.slepianForward f (Tiling.complexKappas (L ^ 2) B jMin) N = .ok w ∧ Wavelets.createAxisym L (Tiling.createKappas L B jMin) = .ok wavelets ∧
      Wavelets.axisymForward L flm wavelets = .ok v ∧ sparsityFigure jMin w.rows v N = .ok (a, b) ∧ b.length = Tiling.jMax B L - jMin + 2 ∧
      (∃ k ys, (Tiling.createKappas (L ^ 2) B jMin)[0]? = some k ∧ a[0]? = some (none, ys) ∧ Decreasing ys ((List.range N).map fun p => k.getD p 0 * ‖f.getD p 0‖)) ∧
      (∀ j, jMin ≤ j → j ≤ Tiling.jMax B (L ^ 2) → (j - jMin + 1 < a.length ↔ ∃ p < N, (B : ℝ) ^ ((j : ℤ) - 1) < p) ∧
        ((∃ p < N, (B : ℝ) ^ ((j : ℤ) - 1) < p) → ∃ k ys, (Tiling.createKappas (L ^ 2) B jMin)[j - jMin + 1]? = some k ∧ a[j - jMin + 1]? = some (some (j : ℤ), ys) ∧
          Decreasing ys ((List.range N).map fun p => k.getD p 0 * ‖f.getD p 0‖))) ∧
      (∃ k ys, (Tiling.createKappas L B jMin)[0]? = some k ∧ b[0]? = some (none, ys.take N) ∧
        Decreasing ys ((List.range (L ^ 2)).map fun i => k.getD (Nat.sqrt i) 0 * ‖flm.getD i 0‖)) ∧
      ∀ j, jMin ≤ j → j ≤ Tiling.jMax B L → ∃ k ys, (Tiling.createKappas L B jMin)[j - jMin + 1]? = some k ∧ b[j - jMin + 1]? = some (some (j : ℤ), ys.take N) ∧
        Decreasing ys ((List.range (L ^ 2)).map fun i => k.getD (Nat.sqrt i) 0 * ‖flm.getD i 0‖) := by
  have hLL : L ≤ L ^ 2 := by nlinarith [Nat.zero_le L, Nat.le_self_pow (n := 2) (by norm_num) L]
  have hj2 : jMin ≤ Tiling.jMax B (L ^ 2) := hj.trans (Nat.clog_mono_right _ hLL)
  obtain ⟨w, hw, -, hrows, hpos, hcount⟩ := C94_slepian_transform B (L ^ 2) jMin N hB hj2 hN hx f hl hf
  obtain ⟨-, hlenL, hrowL, hnnL, -⟩ := C94_tiling B L jMin hB hj
  obtain ⟨-, -, -, hnn, -⟩ := C94_tiling B (L ^ 2) jMin hB hj2
  set ks := Tiling.createKappas L B jMin with hks
  have hax : Wavelets.createAxisym L ks = .ok (ks.map (Denoising.zonal L)) := by
    unfold Wavelets.createAxisym
    exact mapM_eq_ok _ _ _ fun k hk => Denoising.axisymRow_eq L k (hrowL k hk).ge
  have hfw : Wavelets.axisymForward L flm (ks.map (Denoising.zonal L)) = .ok (ks.map fun k => byDegree L k flm) := by
    unfold Wavelets.axisymForward
    rw [List.mapM_map]
    exact mapM_eq_ok _ _ _ fun k _ => Denoising.forwardRow_eq L flm hflm k
  obtain ⟨r0, rs, hw0⟩ : ∃ r0 rs, w.rows = r0 :: rs := List.exists_cons_of_length_pos (by omega)
  obtain ⟨k0, ks', hk0⟩ : ∃ k0 ks', ks = k0 :: ks' := List.exists_cons_of_length_pos (by omega)
  obtain ⟨a, ha, hal, hav⟩ := lines_ok jMin r0 rs none
  obtain ⟨b, hb, hbl, hbv⟩ := lines_ok jMin (byDegree L k0 flm) (ks'.map fun k => byDegree L k flm) (some N)
  rw [← hw0] at ha hav
  rw [← List.map_cons (f := fun k => byDegree L k flm), ← hk0] at hb hbv
  have hwl : w.rows.length = a.length := by rw [hal, hw0, List.length_cons]
  have hlineA : ∀ i < w.rows.length, ∃ k ys, (Tiling.createKappas (L ^ 2) B jMin)[i]? = some k ∧
      a[i]? = some (if i = 0 then none else some ((i : ℤ) - 1 + jMin), ys) ∧ Decreasing ys ((List.range N).map fun p => k.getD p 0 * ‖f.getD p 0‖) := by
    intro i hi
    obtain ⟨k, row, hk, hr, hrl, hv⟩ := hrows i hi
    obtain ⟨ys, hd, hai⟩ := hav i row hr
    refine ⟨k, ys, hk, hai, ?_⟩
    rwa [row_magnitudes (k := fun p => k.getD p 0) hrl] at hd
    intro p hp
    rw [hv p hp, norm_mul, norm_conj, norm_real, Real.norm_of_nonneg (hnn k (List.mem_of_getElem? hk) p (by omega)).1]
  have hlineB : ∀ i < ks.length, ∃ k ys, ks[i]? = some k ∧ b[i]? = some (if i = 0 then none else some ((i : ℤ) - 1 + jMin), ys.take N) ∧
      Decreasing ys ((List.range (L ^ 2)).map fun i => k.getD (Nat.sqrt i) 0 * ‖flm.getD i 0‖) := by
    intro i hi
    obtain ⟨ys, hd, hbi⟩ := hbv i (byDegree L ks[i] flm) (by rw [List.getElem?_map, List.getElem?_eq_getElem hi]; rfl)
    refine ⟨ks[i], ys, List.getElem?_eq_getElem hi, hbi, ?_⟩
    rwa [row_magnitudes (N := L ^ 2) (k := fun p => ks[i].getD (Nat.sqrt p) 0) (f := flm) (by simp)] at hd
    intro p hp
    rw [Denoising.getD_byDegree _ _ hp, norm_mul, norm_real,
      Real.norm_of_nonneg (hnnL _ (List.getElem_mem hi) _ (Nat.sqrt_lt'.2 hp)).1]
  refine ⟨w, _, _, a, b, hw, hax, hfw, by simp only [sparsityFigure, ha, hb, bind, Except.bind, pure, Except.pure], ?_, ?_, ?_, ?_, ?_⟩
  · rw [hbl, List.length_map]
    rw [hk0, List.length_cons] at hlenL
    omega
  · simpa using hlineA 0 hpos
  · intro j h1 h2
    rw [← hwl]
    refine ⟨hcount j h1 h2, fun h => ?_⟩
    obtain ⟨k, ys, hk, hay, hd⟩ := hlineA _ ((hcount j h1 h2).2 h)
    refine ⟨k, ys, hk, ?_, hd⟩
    rw [hay, if_neg (by omega)]
    congr 3
    omega
  · simpa using hlineB 0 (by omega)
  · intro j h1 h2
    obtain ⟨k, ys, hk, hay, hd⟩ := hlineB (j - jMin + 1) (by omega)
    refine ⟨k, ys, hk, ?_, hd⟩
    rw [hay, if_neg (by omega)]
    congr 3
    omega

/-- C95, violated for other fields: when the Slepian coefficients vanish below rank `B^j_min` but not there, the line drawn for the scaling function shows the coefficients of scale
`j_min`. -/
theorem C95_sparsity_label_violation (B xlim jMin N : ℕ) (hB : 2 ≤ B) (hj : jMin ≤ Tiling.jMax B xlim) (hN : B ^ jMin < N) (hx : N ≤ xlim) (f : List ℂ) (hl : N ≤ f.length)
    (hz : ∀ p < B ^ jMin, f.getD p 0 = 0) (hne : f.getD (B ^ jMin) 0 ≠ 0) :
    ∃ w lines k k0 ys, Wavelets.slepianForward f (Tiling.complexKappas xlim B jMin) N = .ok w ∧ sortedLines jMin w.rows none = .ok lines ∧
      (Tiling.createKappas xlim B jMin)[0]? = some k0 ∧ (Tiling.createKappas xlim B jMin)[1]? = some k ∧ lines[0]? = some (none, ys) ∧
      Decreasing ys ((List.range N).map fun p => k.getD p 0 * ‖f.getD p 0‖) ∧ ¬ Decreasing ys ((List.range N).map fun p => k0.getD p 0 * ‖f.getD p 0‖) := by
  obtain ⟨-, -, -, hnn, -, ⟨k0, hk0, hk0v⟩, hsc⟩ := C94_tiling B xlim jMin hB hj
  obtain ⟨w, k, row, hw, hk, hr, hrl, hv⟩ := shifted_row B xlim jMin N hB hj hN hx f hl hz hne
  obtain ⟨r0, rs, hw0⟩ : ∃ r0 rs, w.rows = r0 :: rs := by
    cases hc : w.rows with
    | nil => simp [hc] at hr
    | cons a b => exact ⟨a, b, rfl⟩
  obtain ⟨a, ha, hal, hav⟩ := lines_ok jMin r0 rs none
  rw [← hw0] at ha hav
  obtain ⟨ys, hd, hai⟩ := hav 0 row hr
  rw [row_magnitudes (k := fun p => k.getD p 0) (f := f) hrl] at hd
  swap
  · intro p hp
    rw [hv p hp, norm_mul, norm_conj, norm_real, Real.norm_of_nonneg (hnn k (List.mem_of_getElem? hk) p (by omega)).1]
  refine ⟨w, a, k, k0, ys, hw, ha, hk0, hk, hai, hd, fun hd0 => ?_⟩
  obtain ⟨k', hk', -, hone⟩ := hsc jMin le_rfl hj
  rw [Nat.sub_self, zero_add, hk] at hk'
  obtain rfl := Option.some.inj hk'
  have hmem : ‖f.getD (B ^ jMin) 0‖ ∈ (List.range N).map fun p => k0.getD p 0 * ‖f.getD p 0‖ := by
    refine hd0.1.subset (hd.1.symm.subset ?_)
    exact List.mem_map.2 ⟨B ^ jMin, List.mem_range.2 hN, by rw [hone (by omega), one_mul]⟩
  obtain ⟨p, hp, hpe⟩ := List.mem_map.1 hmem
  rw [List.mem_range] at hp
  refine hne (norm_eq_zero.1 (hpe.symm.trans ?_))
  by_cases hlt : p < B ^ jMin
  · rw [hz p hlt, norm_zero, mul_zero]
  · have : k0.getD p 0 = 0 := by
      by_contra h
      exact hlt ((hk0v p (by omega)).1 h)
    rw [this, zero_mul]

/-! ### Norms of translated functions -/

private theorem translated_energy (c : List ℂ) (th ph : ℝ) : totalEnergy (translated L c th ph) = ∑ i : Fin (L ^ 2), ‖c.getD i 0‖ ^ 2 * ‖harm i th ph‖ ^ 2 := by
  have h : translated L c th ph = fun a b => ∑ i : Fin (L ^ 2), (c.getD i 0 * harm i th ph) * harm i a b := by
    funext a b
    rw [translated_eq]
    exact Finset.sum_congr rfl fun i _ => by ring
  unfold totalEnergy
  rw [h, inner_sums, normSq_sum, ofReal_re]
  exact Finset.sum_congr rfl fun i _ => by rw [norm_mul, mul_pow]

private theorem norm_harm (i : ℕ) (th ph : ℝ) : ‖harm i th ph‖ = |thetaPart (ind2elm i).1 (ind2elm i).2 th| := by
  unfold harm
  rw [sphHarm_eq, norm_mul, norm_real, Real.norm_eq_abs]
  have : I * ((ind2elm i).2 : ℂ) * (ph : ℂ) = (((ind2elm i).2 * ph : ℝ) : ℂ) * I := by push_cast; ring
  rw [this, norm_exp_ofReal_mul_I, mul_one]

private theorem abs_thetaPart_mirror {l : ℕ} {m : ℤ} (h : |m| ≤ l) (th : ℝ) : |thetaPart l m (Real.pi - th)| = |thetaPart l m th| := by
  have hn : ∀ k : ℕ, |thetaPart l (k : ℤ) (Real.pi - th)| = |thetaPart l (k : ℤ) th| := by
    intro k
    unfold thetaPart
    rw [Real.cos_pi_sub, assocLegendre_nat, assocLegendre_nat]
    have h1 := congrArg (fun p => p.eval (Real.cos th)) (dq_comp_neg l (l + k))
    simp only [Polynomial.eval_comp, Polynomial.eval_neg, Polynomial.eval_X, Polynomial.eval_mul, Polynomial.eval_pow, Polynomial.eval_one] at h1
    rw [h1, neg_sq]
    simp only [abs_mul, abs_pow, abs_neg, abs_one, one_pow, one_mul]
  rw [thetaPart_int h, thetaPart_int h, abs_mul, abs_mul, hn]

private theorem foldl_max_spec (xs : List ℝ) : ∀ x : ℝ, (∀ y ∈ x :: xs, y ≤ xs.foldl max x) ∧ xs.foldl max x ∈ x :: xs := by
  induction xs with
  | nil => intro x; simp
  | cons a xs ih =>
    intro x
    obtain ⟨h1, h2⟩ := ih (max x a)
    simp only [List.foldl_cons]
    have h3 := h1 _ (List.mem_cons_self)
    refine ⟨fun y hy => ?_, ?_⟩
    · rcases List.mem_cons.1 hy with rfl | hy
      · exact (le_max_left _ _).trans h3
      · rcases List.mem_cons.1 hy with rfl | hy
        · exact (le_max_right _ _).trans h3
        · exact h1 y (List.mem_cons_of_mem _ hy)
    · rcases List.mem_cons.1 h2 with h2 | h2
      · rw [h2]
        rcases max_choice x a with h | h <;> rw [h] <;> simp
      · exact List.mem_cons_of_mem _ (List.mem_cons_of_mem _ h2)

/-- C95: without angles there is no largest norm, and the figure raises `ValueError`. -/
theorem C95_translation_no_angles (ylm : ℝ → ℝ → List ℂ) (flm : List ℂ) (alpha : ℝ) :
    translationFigure ylm flm alpha [] = .error .valueError := rfl

/-- C95. The norms of translated functions: the ordinate at colatitude `θ` is the norm on the sphere of the function translated to any point of that colatitude; at the north pole its
square is `Σ_l (2l+1)/4π |f_l0|²`; it takes the same value at `θ` and `π - θ`; the limit of the axis is the least integer not exceeded. -/
theorem C95_translation_norms (ylm : ℝ → ℝ → List ℂ) (hy : CreatesHarmonics L ylm) (flm : List ℂ) (hf : flm.length = L ^ 2) (alpha : ℝ) (thetas : List ℝ)
    (ht : ∀ th ∈ thetas, th ∈ Set.Icc 0 Real.pi) (hne : thetas ≠ []) :
    ∃ points top, translationFigure ylm flm alpha thetas = .ok (points, top) ∧ points.map Prod.fst = thetas.map (fun th => 180 * th / Real.pi) ∧
      (∀ (i : ℕ) (th x y : ℝ), thetas[i]? = some th → points[i]? = some (x, y) → 0 ≤ y ∧ (∀ ph, y ^ 2 = totalEnergy (translated L flm th ph)) ∧
        (∀ ph, y ^ 2 = totalEnergy (translated L flm (Real.pi - th) ph)) ∧
        (th = 0 → y ^ 2 = ∑ l ∈ Finset.range L, (2 * (l : ℝ) + 1) / (4 * Real.pi) * ‖flm.getD (l ^ 2 + l) 0‖ ^ 2)) ∧
      ∀ n : ℤ, (∀ q ∈ points, q.2 ≤ n) ↔ top ≤ n := by
  set F : ℝ → ℝ := fun th => Real.sqrt (totalEnergy (translated L flm th alpha)) with hF
  have hnorms : translationNorms ylm flm alpha thetas = .ok (thetas.map F) := by
    refine mapM_eq_ok _ _ _ fun th hth => ?_
    have hl := (hy th (ht th hth) alpha).1
    simp only [NumPy.broadcast, hf, hl, if_true, bind, Except.bind, pure, Except.pure]
    congr 2
    rw [translated_energy]
    have hz : List.zipWith (· * ·) flm (ylm th alpha) = List.ofFn fun i : Fin (L ^ 2) => flm.getD i 0 * harm i th alpha := by
      apply List.ext_getElem
      · simp [hf, hl]
      · intro i h1 h2
        have hi : i < L ^ 2 := by simpa using h2
        have h3 := hy.harm (ht th hth) alpha hi
        rw [List.getD_eq_getElem?_getD, List.getElem?_eq_getElem (by omega), Option.getD_some] at h3
        simp only [List.getElem_zipWith, List.getElem_ofFn]
        rw [← h3, List.getD_eq_getElem?_getD, List.getElem?_eq_getElem (by omega), Option.getD_some]
    rw [hz]
    simp only [magnitudes, List.map_ofFn, List.sum_ofFn, Function.comp_apply, norm_mul, mul_pow]
  obtain ⟨t0, ts, rfl⟩ := List.exists_cons_of_ne_nil hne
  have hline : line ((t0 :: ts).map Py.rad2deg) ((t0 :: ts).map F) = .ok (((t0 :: ts).map Py.rad2deg).zip ((t0 :: ts).map F)) := by
    unfold line
    rw [if_pos (by simp)]
  have htop : upperLimit ((t0 :: ts).map F) = .ok ⌈(ts.map F).foldl max (F t0)⌉ := rfl
  have hzip : ((t0 :: ts).map Py.rad2deg).zip ((t0 :: ts).map F) = (t0 :: ts).map fun th => (Py.rad2deg th, F th) := by
    rw [List.zip_map', ]
  rw [hzip] at hline
  refine ⟨_, _, by simp only [translationFigure, hnorms, hline, htop, bind, Except.bind, pure, Except.pure]; rfl, ?_, ?_, ?_⟩
  · rw [List.map_map]
    exact List.map_congr_left fun th _ => by simp only [Function.comp_apply, Py.rad2deg]; ring
  · intro i th x y hi hp
    rw [List.getElem?_map, hi, Option.map_some, Option.some.injEq, Prod.mk.injEq] at hp
    obtain ⟨-, rfl⟩ := hp
    have hsq : F th ^ 2 = totalEnergy (translated L flm th alpha) := by
      rw [hF]
      refine Real.sq_sqrt ?_
      rw [translated_energy]
      exact Finset.sum_nonneg fun i _ => by positivity
    refine ⟨Real.sqrt_nonneg _, fun ph => ?_, fun ph => ?_, fun h0 => ?_⟩
    · rw [hsq, translated_energy, translated_energy]
      exact Finset.sum_congr rfl fun i _ => by rw [norm_harm, norm_harm]
    · rw [hsq, translated_energy, translated_energy]
      exact Finset.sum_congr rfl fun i _ => by rw [norm_harm, norm_harm, abs_thetaPart_mirror (ind2elm_abs_le i)]
    · subst h0
      rw [hsq, translated_energy]
      have h1 : ∑ i : Fin (L ^ 2), ‖flm.getD i 0‖ ^ 2 * ‖harm i 0 alpha‖ ^ 2 =
          ∑ i ∈ Finset.range (L ^ 2), ‖flm.getD (elm2ind (ind2elm i).1 (ind2elm i).2) 0‖ ^ 2 * ‖sphHarm (ind2elm i).1 (ind2elm i).2 0 alpha‖ ^ 2 := by
        rw [Finset.sum_range]
        exact Finset.sum_congr rfl fun i _ => by rw [elm2ind_ind2elm]; rfl
      rw [h1, sum_pairs L fun l m => ‖flm.getD (elm2ind l m) 0‖ ^ 2 * ‖sphHarm l m 0 alpha‖ ^ 2]
      refine Finset.sum_congr rfl fun l _ => ?_
      rw [Finset.sum_eq_single 0]
      · rw [sphHarm_north, if_pos rfl, Sleplet.Noise.elm2ind_zero, norm_real, Real.norm_eq_abs, sq_abs, Real.sq_sqrt (by positivity), mul_comm]
      · intro m _ hm
        rw [sphHarm_north, if_neg hm]
        simp
      · intro h
        exact absurd (Finset.mem_Icc.2 ⟨by omega, by omega⟩) h
  · intro n
    rw [Int.ceil_le]
    obtain ⟨h1, h2⟩ := foldl_max_spec (ts.map F) (F t0)
    rw [← List.map_cons] at h1 h2
    constructor
    · intro h
      obtain ⟨th, hth, he⟩ := List.mem_map.1 h2
      rw [← he]
      exact h _ (List.mem_map.2 ⟨th, hth, rfl⟩)
    · intro h q hq
      obtain ⟨th, hth, rfl⟩ := List.mem_map.1 hq
      exact (h1 _ (List.mem_map.2 ⟨th, hth, rfl⟩)).trans h

/-- C95. Over the sphere, the mean of the squared norm of the translated functions is the squared norm of the function divided by `4π`. -/
theorem C95_translation_mean (c : List ℂ) :
    surface 0 Real.pi 0 (2 * Real.pi) (fun th ph => ((totalEnergy (translated L c th ph) : ℝ) : ℂ)) = ((totalEnergy (synthesis L c) : ℝ) : ℂ) := by
  have h1 : (fun th ph => ((totalEnergy (translated L c th ph) : ℝ) : ℂ)) =
      fun th ph => ∑ i : Fin (L ^ 2), ((‖c.getD i 0‖ ^ 2 : ℝ) : ℂ) * (harm i th ph * (starRingEnd ℂ) (harm i th ph)) := by
    funext th ph
    rw [translated_energy]
    push_cast
    refine Finset.sum_congr rfl fun i _ => ?_
    rw [Complex.mul_conj, Complex.normSq_eq_norm_sq]
    push_cast
    rfl
  rw [h1, surface_sum Finset.univ _ fun i : Fin (L ^ 2) => fun th ph => harm i th ph * (starRingEnd ℂ) (harm i th ph)]
  · rw [energy_eq]
    push_cast
    refine Finset.sum_congr rfl fun i _ => ?_
    have := harm_orthonormal i i
    rw [if_pos rfl] at this
    unfold sphereInner at this
    rw [this, mul_one]
  · intro i
    exact (continuous_harm i).mul (continuous_conj.comp (continuous_harm i))

/-- the hypotheses of `C95_curves` are met for every polar cap, with three Slepian functions of four. -/
example (gap : Bool) (t : ℝ) (ht0 : 0 ≤ t) (htpi : t ≤ Real.pi) (point : Fin 5 → ℝ × ℝ) :
    ∃ (S : Fin (2 ^ 2) → Fin (2 ^ 2) → ℂ) (ev : Fin (2 ^ 2) → ℝ) (e : SlepianEnv 2 (Fin 5)) (a b : List (ℕ × ℝ)),
    SlepianOn (fun f => (capIntegral gap t fun th ph => f th ph * (starRingEnd ℂ) (f th ph)).re) S ev e point ∧ e.sl.N = 3 ∧
    coefficientsFigure e.sl e.synth e.weight ![1, I, 2, 0] = .ok (a, b) := by
  obtain ⟨plm, M, sol, r, h1, h2, h3, h4, h5⟩ := C50_polar_runs_exist 2 gap t
  obtain ⟨e, v, o, -, -, -, hb⟩ := C88_polar 2 gap t ht0 htpi plm h1 h2 M h3 sol h4 r h5
  let S : Fin (2 ^ 2) → Fin (2 ^ 2) → ℂ := fun p i => (v.getD p []).getD i 0
  have hsyn : ∀ p : Fin (2 ^ 2), synthesis 2 (v.getD p []) = synthesis 2 (List.ofFn (S p)) := by
    intro p
    funext th ph
    rw [Gaunt.synthesis_eq, Gaunt.synthesis_eq]
    refine Finset.sum_congr rfl fun i _ => ?_
    simp only [S, List.getD_eq_getElem?_getD, List.getElem?_ofFn, i.2, dif_pos, Option.getD_some]
  simp only [hsyn] at hb
  have hs : SlepianOn (fun f => (capIntegral gap t fun th ph => f th ph * (starRingEnd ℂ) (f th ph)).re) S (fun p => e.getD p 0)
      ⟨⟨3, [], List.ofFn S⟩, fun c x => synthesis 2 (List.ofFn c) (point x).1 (point x).2, fun _ => 1, fun _ => []⟩ point := by
    refine ⟨hb, by norm_num, fun p _ => ?_, fun _ _ => rfl⟩
    change (List.ofFn S)[(p : ℕ)]? = _
    rw [List.getElem?_ofFn, dif_pos p.2]
  obtain ⟨a, b, h, -⟩ := C95_curves _ point hs ![1, I, 2, 0]
  exact ⟨S, _, _, a, b, hs, rfl, h⟩

/-- the setting of the scripts: base 3, smallest scale 2, `L = 128`. -/
example : ∃ w wavelets v a b, Wavelets.slepianForward (List.replicate 91 I) (Tiling.complexKappas (128 ^ 2) 3 2) (91 : ℕ) = .ok w ∧
    Wavelets.createAxisym 128 (Tiling.createKappas 128 3 2) = .ok wavelets ∧ Wavelets.axisymForward 128 (List.replicate (128 ^ 2) 1) wavelets = .ok v ∧
    sparsityFigure 2 w.rows v 91 = .ok (a, b) := by
  obtain ⟨w, ws, v, a, b, h1, h2, h3, h4, -⟩ := C95_sparsity_partial 3 128 2 91 (by norm_num)
    (Nat.succ_le_of_lt ((Nat.lt_clog_iff_pow_lt (by norm_num)).2 (by norm_num))) (by norm_num) (by norm_num) (List.replicate 91 I) (List.replicate (128 ^ 2) 1)
    (by simp) (fun p hp => by rw [List.getD_eq_getElem?_getD, List.getElem?_replicate, if_pos hp]; exact I_ne_zero) (by rw [List.length_replicate])
  exact ⟨w, ws, v, a, b, h1, h2, h3, h4⟩

/-- base 2 from scale 0: for the signal `[0, 1]` the line of the scaling function shows scale 0. -/
example : ∃ w lines k ys, Wavelets.slepianForward [0, 1] (Tiling.complexKappas 2 2 0) (2 : ℕ) = .ok w ∧ sortedLines 0 w.rows none = .ok lines ∧
    (Tiling.createKappas 2 2 0)[1]? = some k ∧ lines[0]? = some (none, ys) ∧ Decreasing ys ((List.range 2).map fun p => k.getD p 0 * ‖([0, 1] : List ℂ).getD p 0‖) := by
  obtain ⟨w, l, k, k0, ys, h1, h2, -, h3, h4, h5, -⟩ := C95_sparsity_label_violation 2 2 0 2 le_rfl (Nat.zero_le _) (by norm_num) le_rfl [0, 1] le_rfl
    (fun p hp => by obtain rfl : p = 0 := by simpa using hp
                    rfl) one_ne_zero
  exact ⟨w, l, k, ys, h1, h2, h3, h4, h5⟩

/-- norms at three colatitudes, with exact harmonics. -/
example : ∃ points top, translationFigure (exactYlm 2) [1, 1, 1, 1] (3 / 4) [0, Real.pi / 2, Real.pi] = .ok (points, top) := by
  obtain ⟨p, t, h, -⟩ := C95_translation_norms (exactYlm 2) (exactYlm_creates 2) [1, 1, 1, 1] (by simp) (3 / 4) [0, Real.pi / 2, Real.pi]
    (by
      intro th hth
      have := Real.pi_pos
      simp only [List.mem_cons, List.not_mem_nil, or_false] at hth
      rcases hth with rfl | rfl | rfl <;> constructor <;> linarith) (by simp)
  exact ⟨p, t, h⟩

end Sleplet.Props
