import Verif.Lemmas.SumOfNumbers
import Verif.Props.CacheOrders
import Verif.Props.EndToEnd
import Verif.Props.RelatedRegions

/-!
C114: how much the eigenvalues change when the region changes.
-/
namespace Sleplet.Props

open Complex Sleplet.Spec Sleplet.Gaunt Sleplet.RealMat Sleplet.Eigen Sleplet.LatLon

/-- by how much two lists of eigenvalues differ in all. -/
noncomputable def distance (L : ℕ) (e e' : List ℝ) : ℝ := ∑ k ∈ Finset.range (L ^ 2), |e'.getD k 0 - e.getD k 0|

theorem distance_comm (L : ℕ) (e e' : List ℝ) : distance L e e' = distance L e' e :=
  Finset.sum_congr rfl fun _ _ => abs_sub_comm _ _

theorem distance_triangle (L : ℕ) (a b c : List ℝ) : distance L a c ≤ distance L a b + distance L b c := by
  unfold distance
  rw [← Finset.sum_add_distrib]
  exact Finset.sum_le_sum fun k _ => by rw [add_comm]; exact abs_sub_le _ _ _

/-- no eigenvalue differs by more. -/
theorem le_distance {L : ℕ} (e e' : List ℝ) {k : ℕ} (hk : k < L ^ 2) : |e'.getD k 0 - e.getD k 0| ≤ distance L e e' :=
  Finset.single_le_sum (f := fun k => |e'.getD k 0 - e.getD k 0|) (fun _ _ => abs_nonneg _) (Finset.mem_range.2 hk)

theorem numbers_sum {L : ℕ} {R : (ℝ → ℝ → ℂ) → ℝ} {e : List ℝ} (h : Numbers L R e) :
    ∑ k ∈ Finset.range (L ^ 2), e.getD k 0 = ∑ i : Fin (L ^ 2), R (harm i) := by
  obtain ⟨-, s, h⟩ := h
  rw [← Fin.sum_univ_eq_sum_range (fun k => e.getD k 0)]
  exact h.sum_numbers (fun i : Fin (L ^ 2) => harm i) (fun i => harm_mem i) fun f hf => parseval_harm hf

theorem numbers_distance {L : ℕ} {R R' : (ℝ → ℝ → ℂ) → ℝ} {e e' : List ℝ} (h : Numbers L R e) (h' : Numbers L R' e')
    (hle : ∀ k < L ^ 2, e.getD k 0 ≤ e'.getD k 0) :
    distance L e e' = ∑ i : Fin (L ^ 2), R' (harm i) - ∑ i : Fin (L ^ 2), R (harm i) := by
  rw [← numbers_sum h, ← numbers_sum h', ← Finset.sum_sub_distrib]
  exact Finset.sum_congr rfl fun k hk => abs_of_nonneg (sub_nonneg.2 (hle k (Finset.mem_range.1 hk)))

/-- the area of a region limited in latitude and longitude. -/
noncomputable def boxArea (B : Bounds) : ℝ := (B.pmax - B.pmin) * (Real.cos B.tmin - Real.cos B.tmax)

/-- C114.  The eigenvalues of a region and of a greater one differ by the Shannon number of the part added, in all. -/
theorem C114_lat_lon (L : ℕ) (B B' : Bounds) (h0 : 0 ≤ B'.tmin) (h1 : B'.tmin ≤ B.tmin) (h2 : B.tmin ≤ B.tmax)
    (h3 : B.tmax ≤ B'.tmax) (h4 : B'.tmax ≤ Real.pi) (h5 : B'.pmin ≤ B.pmin) (h6 : B.pmin ≤ B.pmax) (h7 : B.pmax ≤ B'.pmax)
    (e e' : List ℝ) (he : LatLonEigenvalues L B e) (he' : LatLonEigenvalues L B' e') :
    distance L e e' = L ^ 2 / (4 * Real.pi) * (boxArea B' - boxArea B) := by
  rw [numbers_distance (lat_lon_numbers ⟨by linarith, by linarith⟩ ⟨by linarith, by linarith⟩ he)
    (lat_lon_numbers ⟨by linarith, by linarith⟩ ⟨by linarith, by linarith⟩ he')
    (C111_lat_lon_nested L L le_rfl B B' h0 h1 h2 h3 h4 h5 h6 h7 e e' he he'), sum_surfaceEnergy, sum_surfaceEnergy, boxArea, boxArea]
  ring

/-- C114.  Those of any two regions differ by no more than the Shannon number of the parts by which a box around both exceeds them. -/
theorem C114_lat_lon_any (L : ℕ) (hL : 1 ≤ L) (B B' U : Bounds) (h0 : B.tmin ∈ Set.Icc 0 Real.pi) (h1 : B.tmin ≤ B.tmax)
    (h2 : B.tmax ∈ Set.Icc 0 Real.pi) (h3 : B.pmin ≤ B.pmax) (h0' : B'.tmin ∈ Set.Icc 0 Real.pi) (h1' : B'.tmin ≤ B'.tmax)
    (h2' : B'.tmax ∈ Set.Icc 0 Real.pi) (h3' : B'.pmin ≤ B'.pmax)
    (hU : U = ⟨min B.tmin B'.tmin, max B.tmax B'.tmax, min B.pmin B'.pmin, max B.pmax B'.pmax⟩)
    (e e' : List ℝ) (he : LatLonEigenvalues L B e) (he' : LatLonEigenvalues L B' e') :
    distance L e e' ≤ L ^ 2 / (4 * Real.pi) * ((boxArea U - boxArea B) + (boxArea U - boxArea B')) := by
  subst hU
  have a0 : (0 : ℝ) ≤ min B.tmin B'.tmin := le_min h0.1 h0'.1
  have a1 : max B.tmax B'.tmax ≤ Real.pi := max_le h2.2 h2'.2
  obtain ⟨u, hu⟩ := (C111_runs_exist L hL).2 ⟨min B.tmin B'.tmin, max B.tmax B'.tmax, min B.pmin B'.pmin, max B.pmax B'.pmax⟩
    ⟨a0, (min_le_left _ _).trans h0.2⟩ ⟨h2.1.trans (le_max_left _ _), a1⟩
  have b := C114_lat_lon L B ⟨min B.tmin B'.tmin, max B.tmax B'.tmax, min B.pmin B'.pmin, max B.pmax B'.pmax⟩ a0 (min_le_left _ _) h1
    (le_max_left _ _) a1 (min_le_left _ _) h3 (le_max_left _ _) e u he hu
  have b' := C114_lat_lon L B' ⟨min B.tmin B'.tmin, max B.tmax B'.tmax, min B.pmin B'.pmin, max B.pmax B'.pmax⟩ a0 (min_le_right _ _) h1'
    (le_max_right _ _) a1 (min_le_right _ _) h3' (le_max_right _ _) e' u he' hu
  have := distance_triangle L e u e'
  rw [distance_comm L u e', b, b'] at this
  rw [mul_add]
  exact this

theorem capEnergy_sum (L : ℕ) (gap : Bool) (t : ℝ) :
    ∑ i : Fin (L ^ 2), capEnergy gap t (harm i) = (if gap then 2 else 1) * (L ^ 2 / 2 * (1 - Real.cos t)) := by
  have := sum_capEnergy (n := L ^ 2) L rfl gap t
  refine Eq.trans this ?_
  have hpi := Real.pi_pos.ne'
  field_simp
  ring

/-- C114.  Those of two polar caps, or of two gaps, differ by `L²/2` times the difference of the cosines, in all; for gaps twice that. -/
theorem C114_polar (L : ℕ) (gap : Bool) (t t' : ℝ) (h0 : t ∈ Set.Icc 0 Real.pi) (h0' : t' ∈ Set.Icc 0 Real.pi)
    (e e' : List ℝ) (he : PolarEigenvalues L gap t e) (he' : PolarEigenvalues L gap t' e') :
    distance L e e' = (if gap then 2 else 1) * (L ^ 2 / 2 * |Real.cos t - Real.cos t'|) := by
  wlog h : t ≤ t' generalizing t t' e e'
  · rw [distance_comm, abs_sub_comm]
    exact this t' t h0' h0 e' e he' he (le_of_not_ge h)
  rw [numbers_distance (polar_numbers h0.1 h0.2 he) (polar_numbers h0'.1 h0'.2 he')
    (C111_polar_nested L L le_rfl gap gap id t t' h0.1 h h0'.2 e e' he he'), capEnergy_sum, capEnergy_sum,
    abs_of_nonneg (sub_nonneg.2 (Real.cos_le_cos_of_nonneg_of_le_pi h0.1 h0'.2 h))]
  ring

/-- C114.  Those of two masks differ by no more than the Shannon number of the pixels by which the masks differ, by exactly that much
if one of them has all pixels of the other. -/
theorem C114_masks (L : ℕ) (hL : 1 ≤ L) (m m' : Integration.Grid (2 * L) → Bool) (e e' : List ℝ) (he : MaskEigenvalues L m e)
    (he' : MaskEigenvalues L m' e') :
    distance L e e' ≤ L ^ 2 / (4 * Real.pi) * ∑ x with m x ≠ m' x, Integration.weight (2 * L) x ∧
    ((∀ x, m x = true → m' x = true) →
      distance L e e' = L ^ 2 / (4 * Real.pi) * ∑ x with m x ≠ m' x, Integration.weight (2 * L) x) := by
  have hsum : ∀ m : Integration.Grid (2 * L) → Bool, ∑ i : Fin (L ^ 2), ∑ x with m x,
      ‖harm i (Integration.theta x) (Integration.phi x)‖ ^ 2 * Integration.weight (2 * L) x =
      L ^ 2 / (4 * Real.pi) * ∑ x, if m x then Integration.weight (2 * L) x else 0 := by
    intro m
    rw [Finset.sum_comm, ← Finset.sum_filter, Finset.mul_sum]
    refine Finset.sum_congr rfl fun x _ => ?_
    rw [← Finset.sum_mul, sum_norm_harm]
  have nested : ∀ (m m' : Integration.Grid (2 * L) → Bool) (e e' : List ℝ), MaskEigenvalues L m e → MaskEigenvalues L m' e' →
      (∀ x, m x = true → m' x = true) → distance L e e' = L ^ 2 / (4 * Real.pi) * ∑ x with m x ≠ m' x, Integration.weight (2 * L) x := by
    intro m m' e e' he he' hm
    rw [numbers_distance (mask_numbers he) (mask_numbers he') (C111_masks_nested L m m' hm e e' he he'), hsum, hsum, ← mul_sub,
      ← Finset.sum_sub_distrib, Finset.sum_filter]
    congr 1
    refine Finset.sum_congr rfl fun x _ => ?_
    have := hm x
    cases h1 : m x <;> cases h2 : m' x <;> simp_all
  refine ⟨?_, nested m m' e e' he he'⟩
  obtain ⟨n, hn, P, we, M, w, V, ev, S, a, b, c, d⟩ := C50_arbitrary_runs_exist L hL fun x => m x || m' x
  have hu : MaskEigenvalues L (fun x => m x || m' x) (List.ofFn ev) := ⟨n, P, 3, we, M, w, V, ev, S, hn, a, by norm_num, b, c, d, rfl⟩
  have h1 := nested m _ e _ he hu fun x hx => by simp [hx]
  have h2 := nested m' _ e' _ he' hu fun x hx => by simp [hx]
  have h3 := distance_triangle L e (List.ofFn ev) e'
  rw [distance_comm L (List.ofFn ev) e', h1, h2, ← mul_add] at h3
  refine h3.trans (le_of_eq ?_)
  congr 1
  simp only [Finset.sum_filter]
  rw [← Finset.sum_add_distrib]
  refine Finset.sum_congr rfl fun x _ => ?_
  cases h1 : m x <;> cases h2 : m' x <;> simp

/-- C114.  On a mesh, with the same basis functions, the eigenvalues of a region and of a greater one differ by the squares of the basis
functions at the vertices added, in all. -/
theorem C114_mesh {Vert : Type} [Fintype Vert] {K : ℕ} (ms ms' : MeshT.MeshSlepian Vert) (φ : Fin K → Vert → ℝ) (e e' : Fin K → ℝ)
    (S S' : Fin K → Fin K → ℝ) (rows rows' : ℕ) (h : BuiltMesh ms φ e S rows) (h' : BuiltMesh ms' φ e' S' rows')
    (hr : ∀ v, ms.region v = true → ms'.region v = true) :
    ∑ k, |e' k - e k| = ∑ v with ms.region v ≠ ms'.region v, ∑ i, φ i v ^ 2 := by
  have hmem : ∀ i, φ i ∈ {f : Vert → ℝ | ∃ c : Fin K → ℝ, f = fun v => ∑ i, c i * φ i v} := fun i =>
    ⟨fun j => if j = i then 1 else 0, by funext v; simp⟩
  have hP : ∀ f ∈ {f : Vert → ℝ | ∃ c : Fin K → ℝ, f = fun v => ∑ i, c i * φ i v},
      ∑ i, ‖∑ v, φ i v * f v‖ ^ 2 = RCLike.re (∑ v, f v * f v) := by
    rintro f ⟨c, rfl⟩
    have h1 : ∀ i, ∑ v, φ i v * ∑ j, c j * φ j v = c i := by
      intro i
      simp only [Finset.mul_sum]
      rw [Finset.sum_comm]
      have : ∀ j, ∑ v, φ i v * (c j * φ j v) = c j * if i = j then 1 else 0 := by
        intro j
        rw [← h.orth i j, Finset.mul_sum]
        exact Finset.sum_congr rfl fun v _ => by ring
      simp [this]
    simp only [h1, Real.norm_eq_abs, sq_abs, RCLike.re_to_real]
    have : ∀ v, (∑ j, c j * φ j v) * (∑ j, c j * φ j v) = ∑ i, c i * (φ i v * ∑ j, c j * φ j v) := by
      intro v
      rw [Finset.sum_mul]
      exact Finset.sum_congr rfl fun i _ => by ring
    simp only [this]
    rw [Finset.sum_comm]
    refine Finset.sum_congr rfl fun i _ => ?_
    rw [← Finset.mul_sum, h1, sq]
  have s1 := (C88_mesh ms φ e S rows h).sum_numbers φ hmem hP
  have s2 := (C88_mesh ms' φ e' S' rows' h').sum_numbers φ hmem hP
  have hle := (C111_mesh ms ms' φ e e' S S' rows rows' h h').1 hr
  rw [Finset.sum_congr rfl fun k _ => abs_of_nonneg (sub_nonneg.2 (hle k)), Finset.sum_sub_distrib, s1, s2, ← Finset.sum_sub_distrib,
    Finset.sum_comm]
  refine Finset.sum_congr rfl fun i _ => ?_
  simp only [Finset.sum_filter]
  rw [← Finset.sum_sub_distrib]
  refine Finset.sum_congr rfl fun v _ => ?_
  have := hr v
  cases h1 : ms.region v <;> cases h2 : ms'.region v <;> simp_all

/-- a decreasing list of parts with a given sum. -/
theorem rank_bounds {n : ℕ} (e : ℕ → ℝ) (hdec : ∀ j k, j ≤ k → k < n → e k ≤ e j) (h0 : ∀ k < n, 0 ≤ e k) (k : ℕ) (hk : k < n) :
    (k + 1) * e k ≤ ∑ j ∈ Finset.range n, e j ∧
    ((∀ j < n, e j ≤ 1) → (n - k) * (1 - e k) ≤ n - ∑ j ∈ Finset.range n, e j) := by
  have hsplit : ∀ m ≤ n, ∑ j ∈ Finset.range n, e j = ∑ j ∈ Finset.range m, e j + ∑ j ∈ Finset.Ico m n, e j := fun m hm =>
    (Finset.sum_range_add_sum_Ico e hm).symm
  constructor
  · have h1 : ((k + 1 : ℕ) : ℝ) * e k ≤ ∑ j ∈ Finset.range (k + 1), e j := by
      have := Finset.card_nsmul_le_sum (Finset.range (k + 1)) e (e k) fun j hj => hdec j k (by have := Finset.mem_range.1 hj; omega) hk
      simpa using this
    have h2 : 0 ≤ ∑ j ∈ Finset.Ico (k + 1) n, e j := Finset.sum_nonneg fun j hj => h0 j (Finset.mem_Ico.1 hj).2
    rw [hsplit (k + 1) hk]
    push_cast at h1
    linarith
  · intro h1
    have h2 : ∑ j ∈ Finset.Ico k n, e j ≤ ((n - k : ℕ) : ℝ) * e k := by
      have := Finset.sum_le_card_nsmul (Finset.Ico k n) e (e k) fun j hj => hdec k j (Finset.mem_Ico.1 hj).1 (Finset.mem_Ico.1 hj).2
      simpa using this
    have h3 : ∑ j ∈ Finset.range k, e j ≤ k := by
      have := Finset.sum_le_card_nsmul (Finset.range k) e 1 fun j hj => h1 j (by have := Finset.mem_range.1 hj; omega)
      simpa using this
    rw [Nat.cast_sub hk.le] at h2
    rw [hsplit k hk.le]
    nlinarith

theorem numbers_decrease {L : ℕ} {R : (ℝ → ℝ → ℂ) → ℝ} {e : List ℝ} (h : Numbers L R e) (j k : ℕ) (hjk : j ≤ k) (hk : k < L ^ 2) :
    e.getD k 0 ≤ e.getD j 0 := by
  obtain ⟨-, s, h⟩ := h
  exact h.antitone (a := ⟨j, by omega⟩) (b := ⟨k, hk⟩) hjk

/-- C114.  The eigenvalue of rank `k`, counted from zero, is at most the Shannon number over `k + 1`, and falls short of one by at most
what the Shannon number falls short of `L²`, over `L² - k`.  Thus the first is at least the fraction of the sphere covered. -/
theorem C114_lat_lon_ranks (L : ℕ) (B : Bounds) (h0 : 0 ≤ B.tmin) (h1 : B.tmin ≤ B.tmax) (h2 : B.tmax ≤ Real.pi) (h3 : B.pmin ≤ B.pmax)
    (h4 : B.pmax ≤ B.pmin + 2 * Real.pi) (e : List ℝ) (he : LatLonEigenvalues L B e) (k : ℕ) (hk : k < L ^ 2) :
    (k + 1) * e.getD k 0 ≤ boxArea B * L ^ 2 / (4 * Real.pi) ∧
    (L ^ 2 - k) * (1 - e.getD k 0) ≤ L ^ 2 - boxArea B * L ^ 2 / (4 * Real.pi) ∧ boxArea B / (4 * Real.pi) ≤ e.getD 0 0 := by
  have hn := lat_lon_numbers (L := L) ⟨h0, h1.trans h2⟩ ⟨h0.trans h1, h2⟩ he
  have hs := numbers_sum hn
  rw [sum_surfaceEnergy] at hs
  have hs : ∑ k ∈ Finset.range (L ^ 2), e.getD k 0 = boxArea B * L ^ 2 / (4 * Real.pi) := by rw [hs, boxArea]; ring
  have hb : ∀ j < L ^ 2, 0 ≤ e.getD j 0 ∧ e.getD j 0 ≤ 1 := by
    intro j hj
    obtain ⟨f, hf, h5, h6⟩ := numbers_bounds hn j hj
    rw [← h6]
    refine ⟨surfaceEnergy_nonneg h0 h1 h2 h3 f, ?_⟩
    rw [← h5, sphereInner_self, ← surfaceEnergy_round hf 0 Real.pi B.pmin]
    exact surfaceEnergy_le le_rfl h0 h1 h2 le_rfl h3 le_rfl h4 (continuous_bandlimited hf)
  have key := fun k hk => rank_bounds (fun k => e.getD k 0) (numbers_decrease hn) (fun j hj => (hb j hj).1) k hk
  rw [hs] at key
  refine ⟨(key k hk).1, ?_, ?_⟩
  · have := (key k hk).2 fun j hj => (hb j hj).2
    push_cast at this
    exact this
  · have := (key 0 (by omega)).2 fun j hj => (hb j hj).2
    have hpos : (0 : ℝ) < L ^ 2 := by exact_mod_cast (Nat.zero_lt_of_lt hk)
    push_cast at this
    have h7 : L ^ 2 * (boxArea B / (4 * Real.pi)) ≤ L ^ 2 * e.getD 0 0 := by
      rw [show (L : ℝ) ^ 2 * (boxArea B / (4 * Real.pi)) = boxArea B * L ^ 2 / (4 * Real.pi) by ring]
      linarith
    exact le_of_mul_le_mul_left h7 hpos

/-- C114.  The same for polar caps and gaps. -/
theorem C114_polar_ranks (L : ℕ) (gap : Bool) (t : ℝ) (h0 : 0 ≤ t) (h1 : t ≤ Real.pi) (hg : gap = true → t ≤ Real.pi / 2)
    (e : List ℝ) (he : PolarEigenvalues L gap t e) (k : ℕ) (hk : k < L ^ 2) (s : ℝ) (hs : s = (if gap then 2 else 1) * ((1 - Real.cos t) / 2)) :
    (k + 1) * e.getD k 0 ≤ s * L ^ 2 ∧ (L ^ 2 - k) * (1 - e.getD k 0) ≤ (1 - s) * L ^ 2 ∧ s ≤ e.getD 0 0 := by
  have hpi := Real.pi_pos
  have hn := polar_numbers (L := L) h0 h1 he
  have hsum := numbers_sum hn
  rw [capEnergy_sum] at hsum
  have hsum : ∑ k ∈ Finset.range (L ^ 2), e.getD k 0 = s * L ^ 2 := by rw [hsum, hs]; ring
  have hb : ∀ j < L ^ 2, 0 ≤ e.getD j 0 ∧ e.getD j 0 ≤ 1 := by
    intro j hj
    obtain ⟨f, hf, h5, h6⟩ := numbers_bounds hn j hj
    rw [← h6]
    refine ⟨?_, ?_⟩
    · have a := surfaceEnergy_nonneg (t0 := 0) (t1 := t) (p0 := 0) (p1 := 2 * Real.pi) le_rfl h0 h1 (by linarith) f
      have b := surfaceEnergy_nonneg (t0 := Real.pi - t) (t1 := Real.pi) (p0 := 0) (p1 := 2 * Real.pi) (by linarith) (by linarith)
        le_rfl (by linarith) f
      unfold capEnergy
      cases gap <;> simp <;> linarith
    · rw [← h5, sphereInner_self]
      exact capEnergy_le h0 h1 gap hg (continuous_bandlimited hf)
  have key := fun k hk => rank_bounds (fun k => e.getD k 0) (numbers_decrease hn) (fun j hj => (hb j hj).1) k hk
  rw [hsum] at key
  refine ⟨(key k hk).1, ?_, ?_⟩
  · have := (key k hk).2 fun j hj => (hb j hj).2
    push_cast at this
    linarith
  · have := (key 0 (by omega)).2 fun j hj => (hb j hj).2
    have hpos : (0 : ℝ) < L ^ 2 := by exact_mod_cast (Nat.zero_lt_of_lt hk)
    push_cast at this
    exact le_of_mul_le_mul_left (by linarith : (L : ℝ) ^ 2 * s ≤ L ^ 2 * e.getD 0 0) hpos

section WrongFile
open Sleplet.Region Sleplet.Cache

theorem polar_name {L : ℕ} {t : ℝ} {gap : Bool} (h1 : t ≠ Real.pi) {r : Obj} (h : (Region.Slepian.polarCap L t gap).createRegion = .ok r) :
    r.nameEnding = "polar" ++ (if gap then "_gap" else "") ++ toString (angleAsDegree t) := by
  obtain ⟨-, -, hid⟩ := mk_ok_args h
  have hp : OnlyThetaMax { gap := gap, thetaMax := t } := ⟨rfl, rfl, rfl, h1⟩
  unfold identify at hid
  rw [if_pos ((isPolarCap_iff _).2 hp)] at hid
  simp only [Except.ok.injEq, Prod.mk.injEq] at hid
  rw [← hid.2]

/-- two polar caps, or gaps, with the same cache files have Shannon numbers near to each other before rounding. -/
theorem shared_polar (env : Env) (L : ℕ) (gap : Bool) (t t' : ℝ) (h1 : t ≠ Real.pi) (h1' : t' ≠ Real.pi) (r r' : Obj)
    (hr : (Region.Slepian.polarCap L t gap).createRegion = .ok r) (hr' : (Region.Slepian.polarCap L t' gap).createRegion = .ok r')
    (hloc : env.location (.polarCap L t gap) r = env.location (.polarCap L t' gap) r') :
    env.shannon (.polarCap L t gap) = env.shannon (.polarCap L t' gap) ∧
    (if gap then 2 else 1) * ((L : ℝ) ^ 2 / 2 * |Real.cos t - Real.cos t'|) ≤ (if gap then 2 else 1) ∧
      (if gap then 2 else 1) * ((L : ℝ) ^ 2 / 2 * |Real.cos t - Real.cos t'|) ≤ (if gap then 2 else 1) * (L ^ 2 * Real.pi / 360) := by
  have hpi := Real.pi_pos
  obtain ⟨hx, -, hN⟩ := C12_location_parses _ _ _ _ _ _ hloc
  refine ⟨hN, ?_⟩
  change r.nameEnding = r'.nameEnding at hx
  rw [polar_name h1 hr, polar_name h1' hr'] at hx
  have hd := (polar_ending_inj hx).2
  have hc : (0 : ℝ) ≤ if gap then 2 else 1 := by split_ifs <;> norm_num
  constructor
  · have hle : (L : ℝ) ^ 2 / 2 * |Real.cos t - Real.cos t'| ≤ 1 := by
      unfold Slepian.shannon at hN
      simp only [Slepian.area, Slepian.L] at hN
      have e1 : ∀ t : ℝ, 2 * Real.pi * (1 - Real.cos t) * (L : ℝ) ^ 2 / (4 * Real.pi) = L ^ 2 / 2 * (1 - Real.cos t) := by
        intro t; field_simp; ring
      rw [e1, e1] at hN
      have a := Py.round_le_add_half ((L : ℝ) ^ 2 / 2 * (1 - Real.cos t))
      have b := Py.sub_half_le_round ((L : ℝ) ^ 2 / 2 * (1 - Real.cos t))
      have a' := Py.round_le_add_half ((L : ℝ) ^ 2 / 2 * (1 - Real.cos t'))
      have b' := Py.sub_half_le_round ((L : ℝ) ^ 2 / 2 * (1 - Real.cos t'))
      rw [hN] at a b
      rw [← abs_of_nonneg (by positivity : (0 : ℝ) ≤ L ^ 2 / 2), ← abs_mul, abs_le]
      constructor <;> linarith
    calc _ ≤ (if gap then 2 else 1) * (1 : ℝ) := mul_le_mul_of_nonneg_left hle hc
      _ = _ := by rw [mul_one]
  · refine mul_le_mul_of_nonneg_left ?_ hc
    have h3 : |t - t'| ≤ Real.pi / 180 := by
      unfold angleAsDegree at hd
      have a := Py.round_le_add_half (Py.rad2deg t)
      have b := Py.sub_half_le_round (Py.rad2deg t)
      have a' := Py.round_le_add_half (Py.rad2deg t')
      have b' := Py.sub_half_le_round (Py.rad2deg t')
      rw [hd] at a b
      have h4 : |Py.rad2deg t - Py.rad2deg t'| ≤ 1 := by rw [abs_le]; constructor <;> linarith
      have h5 : Py.rad2deg t - Py.rad2deg t' = (t - t') * (180 / Real.pi) := by unfold Py.rad2deg; ring
      rw [h5, abs_mul, abs_of_pos (by positivity : 0 < 180 / Real.pi)] at h4
      have h6 : |t - t'| = |t - t'| * (180 / Real.pi) * (Real.pi / 180) := by field_simp
      rw [h6]
      calc _ ≤ 1 * (Real.pi / 180) := mul_le_mul_of_nonneg_right h4 (by positivity)
        _ = _ := one_mul _
    have h4 := Real.abs_cos_sub_cos_le t t'
    calc (L : ℝ) ^ 2 / 2 * |Real.cos t - Real.cos t'| ≤ L ^ 2 / 2 * (Real.pi / 180) :=
          mul_le_mul_of_nonneg_left (h4.trans h3) (by positivity)
      _ = _ := by ring

/-- C114.  Two polar caps, or gaps, with the same cache files have eigenvalues that differ by no more than one in all, two for gaps, nor
by more than `L² π / 360` in all, twice that for gaps. -/
theorem C114_shared_files (env : Env) (L : ℕ) (gap : Bool) (t t' : ℝ) (h0 : t ∈ Set.Icc 0 Real.pi) (h0' : t' ∈ Set.Icc 0 Real.pi)
    (h1 : t ≠ Real.pi) (h1' : t' ≠ Real.pi) (r r' : Obj)
    (hr : (Region.Slepian.polarCap L t gap).createRegion = .ok r) (hr' : (Region.Slepian.polarCap L t' gap).createRegion = .ok r')
    (hloc : env.location (.polarCap L t gap) r = env.location (.polarCap L t' gap) r')
    (e e' : List ℝ) (he : PolarEigenvalues L gap t e) (he' : PolarEigenvalues L gap t' e') :
    distance L e e' ≤ (if gap then 2 else 1) ∧ distance L e e' ≤ (if gap then 2 else 1) * (L ^ 2 * Real.pi / 360) := by
  rw [C114_polar L gap t t' h0 h0' e e' he he']
  exact (shared_polar env L gap t t' h1 h1' r r' hr hr' hloc).2

/-- C114.  So the eigenvalues of a cap constructed after another one with the same files, in a session that starts with none, are off by no
more than that. -/
theorem C114_wrong_file (env : Env) (L : ℕ) (gap : Bool) (t t' : ℝ) (h0 : 0 < t) (h0' : 0 < t') (h1 : t < Real.pi) (h1' : t' < Real.pi)
    (r r' : Obj) (hr : (Region.Slepian.polarCap L t gap).createRegion = .ok r) (hr' : (Region.Slepian.polarCap L t' gap).createRegion = .ok r')
    (hloc : env.location (.polarCap L t gap) r = env.location (.polarCap L t' gap) r')
    (hsolve : ∀ u, 0 < u → u < Real.pi → PolarEigenvalues L gap u (env.solve (.polarCap L u gap)).1)
    (fs : FS) (h2 : ∀ n, fs.registry n = none) (h3 : ∀ n, fs.user n = none) :
    ∃ w v o, (runAlone (runAlone fs (construct env ⟨.polarCap L t gap, none⟩)).2 (construct env ⟨.polarCap L t' gap, none⟩)).1 =
        .ok ⟨.evals w, v, o⟩ ∧
      distance L w (env.solve (.polarCap L t' gap)).1 ≤ (if gap then 2 else 1) ∧
      ∀ k < L ^ 2, |(env.solve (.polarCap L t' gap)).1.getD k 0 - w.getD k 0| ≤ (if gap then 2 else 1) * (L ^ 2 * Real.pi / 360) := by
  have hc := C11_collision env L t t' gap r r' h0.ne' h0'.ne' hr hr' hloc fs h2 h3
  obtain ⟨a, b⟩ := C114_shared_files env L gap t t' ⟨h0.le, h1.le⟩ ⟨h0'.le, h1'.le⟩ h1.ne h1'.ne r r' hr hr' hloc _ _
    (hsolve t h0 h1) (hsolve t' h0' h1')
  exact ⟨_, _, _, hc, a, fun k hk => (le_distance _ _ hk).trans b⟩

/-- the hypotheses are met: for the angles one and 1.001, both 57 degrees, there are regions and eigenvalues and the files are the same. -/
example : ∃ (env : Env) (r r' : Obj), (Region.Slepian.polarCap 1 1 false).createRegion = .ok r ∧
    (Region.Slepian.polarCap 1 (1 + 1 / 1000) false).createRegion = .ok r' ∧
    env.location (.polarCap 1 1 false) r = env.location (.polarCap 1 (1 + 1 / 1000) false) r' ∧
    ∀ u, 0 < u → u < Real.pi → PolarEigenvalues 1 false u (env.solve (.polarCap 1 u false)).1 := by
  have hpi := Real.pi_gt_d2
  have hpi' := Real.pi_lt_d2
  obtain ⟨env, -, h1, -⟩ := exists_solver fun _ _ _ => false
  have region : ∀ t : ℝ, 0 ≤ t → t < Real.pi → ∃ r, (Slepian.polarCap 1 t false).createRegion = .ok r := by
    intro t h0 hlt
    have hp : OnlyThetaMax { gap := false, thetaMax := t } := ⟨rfl, rfl, rfl, hlt.ne⟩
    obtain ⟨r, h, -⟩ := ((C09_classification { gap := false, thetaMax := t }).2
      ⟨⟨by simp; linarith, le_rfl⟩, ⟨le_rfl, by simp; linarith⟩, ⟨h0, hlt.le⟩, le_rfl, by linarith⟩).1 hp
    exact ⟨r, h⟩
  obtain ⟨r, hr⟩ := region 1 (by norm_num) (by linarith)
  obtain ⟨r', hr'⟩ := region (1 + 1 / 1000) (by norm_num) (by linarith)
  have hd : ∀ t : ℝ, 1 ≤ t → t ≤ 1 + 1 / 1000 → angleAsDegree t = 57 := by
    intro t ha hb
    unfold angleAsDegree
    apply round_near
    unfold Py.rad2deg
    rw [abs_lt]
    push_cast
    constructor
    · have : 57 - 1 / 2 < t * 180 / Real.pi := by rw [lt_div_iff₀ (by linarith)]; nlinarith
      linarith
    · have : t * 180 / Real.pi < 57 + 1 / 2 := by rw [div_lt_iff₀ (by linarith)]; nlinarith
      linarith
  have hn : ∀ t : ℝ, 0 ≤ t → t < Real.pi / 2 → (Slepian.polarCap 1 t false).shannon 0 = 0 := by
    intro t ha hb
    unfold Slepian.shannon
    apply round_near
    have h2 : (Slepian.polarCap 1 t false).area 0 * ((Slepian.polarCap 1 t false).L : ℝ) ^ 2 / (4 * Real.pi) = (1 - Real.cos t) / 2 := by
      simp only [Slepian.area, Slepian.L]
      push_cast
      field_simp
      ring
    have h3 := Real.cos_pos_of_mem_Ioo (x := t) ⟨by linarith, hb⟩
    have h4 := Real.cos_le_one t
    rw [h2, abs_lt]
    push_cast
    constructor <;> linarith
  refine ⟨env, r, r', hr, hr', ?_, fun u h0 h2 => ?_⟩
  · show "slepian_eigensolutions_D_" ++ r.nameEnding ++ "_L" ++ _ ++ "_N" ++ toString ((Slepian.polarCap 1 1 false).shannon 0) =
      "slepian_eigensolutions_D_" ++ r'.nameEnding ++ "_L" ++ _ ++ "_N" ++ toString ((Slepian.polarCap 1 (1 + 1 / 1000) false).shannon 0)
    rw [polar_name (by linarith) hr, polar_name (by linarith) hr', hd 1 le_rfl (by norm_num), hd (1 + 1 / 1000) (by norm_num) le_rfl,
      hn 1 (by norm_num) (by linarith), hn (1 + 1 / 1000) (by norm_num) (by linarith)]
    rfl
  · obtain ⟨plm, M, sol, a, b, c, d, s⟩ := h1 1 u false le_rfl h0.le h2.le
    exact ⟨plm, M, sol, _, _, a, b, c, d, s⟩

theorem latLon_name {L : ℕ} {tn tm pn pm : ℝ} (h1 : ¬ (pn = 0 ∧ pm = 2 * Real.pi ∧ tn = 0)) {r : Obj}
    (h : (Region.Slepian.limitLatLon L tn tm pn pm).createRegion = .ok r) :
    r.nameEnding = "theta" ++ toString (angleAsDegree tn) ++ "-" ++ toString (angleAsDegree tm) ++
      "_phi" ++ toString (angleAsDegree pn) ++ "-" ++ toString (angleAsDegree pm) := by
  obtain ⟨-, -, hid⟩ := mk_ok_args h
  have hp : ¬ OnlyThetaMax { thetaMin := tn, thetaMax := tm, phiMin := pn, phiMax := pm } := fun h => h1 ⟨h.1, h.2.1, h.2.2.1⟩
  have ho : OtherAngle { thetaMin := tn, thetaMax := tm, phiMin := pn, phiMax := pm } := by
    unfold OtherAngle
    by_contra hc
    push Not at hc
    exact h1 hc
  unfold identify at hid
  rw [if_neg (fun h => hp ((isPolarCap_iff _).1 h)), if_pos ((isLimitedLatLon_iff _).2 ho)] at hid
  simp only [Except.ok.injEq, Prod.mk.injEq] at hid
  rw [← hid.2]

theorem degree_nonneg {t : ℝ} (h : 0 ≤ t) : 0 ≤ angleAsDegree t := by
  unfold angleAsDegree
  have b := Py.sub_half_le_round (Py.rad2deg t)
  have hx : 0 ≤ Py.rad2deg t := by unfold Py.rad2deg; positivity
  by_contra hc
  push Not at hc
  have : (Py.round (Py.rad2deg t) : ℝ) ≤ -1 := by exact_mod_cast (by omega : Py.round (Py.rad2deg t) ≤ -1)
  linarith

theorem degree_close {t t' : ℝ} (hd : angleAsDegree t = angleAsDegree t') : |t - t'| ≤ Real.pi / 180 := by
  have hpi := Real.pi_pos
  unfold angleAsDegree at hd
  have a := Py.round_le_add_half (Py.rad2deg t)
  have b := Py.sub_half_le_round (Py.rad2deg t)
  have a' := Py.round_le_add_half (Py.rad2deg t')
  have b' := Py.sub_half_le_round (Py.rad2deg t')
  rw [hd] at a b
  have h4 : |Py.rad2deg t - Py.rad2deg t'| ≤ 1 := by rw [abs_le]; constructor <;> linarith
  have h5 : Py.rad2deg t - Py.rad2deg t' = (t - t') * (180 / Real.pi) := by unfold Py.rad2deg; ring
  rw [h5, abs_mul, abs_of_pos (by positivity : 0 < 180 / Real.pi)] at h4
  have h6 : |t - t'| = |t - t'| * (180 / Real.pi) * (Real.pi / 180) := by field_simp
  rw [h6]
  calc _ ≤ 1 * (Real.pi / 180) := mul_le_mul_of_nonneg_right h4 (by positivity)
    _ = _ := one_mul _

private theorem hull_area {B B' : Bounds} {d : ℝ} (h0 : B.tmin ∈ Set.Icc 0 Real.pi) (h2 : B.tmax ∈ Set.Icc 0 Real.pi)
    (h3 : 0 ≤ B.pmin) (h3' : B.pmin ≤ B.pmax) (h4 : B.pmax ≤ 2 * Real.pi) (k0 : B'.tmin ∈ Set.Icc 0 Real.pi) (k2 : B'.tmax ∈ Set.Icc 0 Real.pi)
    (k3 : 0 ≤ B'.pmin) (k3' : B'.pmin ≤ B'.pmax) (k4 : B'.pmax ≤ 2 * Real.pi) (d1 : |B.tmin - B'.tmin| ≤ d) (d2 : |B.tmax - B'.tmax| ≤ d)
    (d3 : |B.pmin - B'.pmin| ≤ d) (d4 : |B.pmax - B'.pmax| ≤ d) (U : Bounds)
    (hU : U = ⟨min B.tmin B'.tmin, max B.tmax B'.tmax, min B.pmin B'.pmin, max B.pmax B'.pmax⟩) :
    (boxArea U - boxArea B) + (boxArea U - boxArea B') ≤ 4 * d * (Real.pi + 1) := by
  have hpi := Real.pi_pos
  have c1 := (Real.abs_cos_sub_cos_le B.tmin B'.tmin).trans d1
  have c2 := (Real.abs_cos_sub_cos_le B.tmax B'.tmax).trans d2
  have hd : 0 ≤ d := (abs_nonneg _).trans d1
  have e1 : Real.cos (min B.tmin B'.tmin) = max (Real.cos B.tmin) (Real.cos B'.tmin) := by
    rcases le_total B.tmin B'.tmin with h | h
    · rw [min_eq_left h, max_eq_left (Real.cos_le_cos_of_nonneg_of_le_pi h0.1 k0.2 h)]
    · rw [min_eq_right h, max_eq_right (Real.cos_le_cos_of_nonneg_of_le_pi k0.1 h0.2 h)]
  have e2 : Real.cos (max B.tmax B'.tmax) = min (Real.cos B.tmax) (Real.cos B'.tmax) := by
    rcases le_total B.tmax B'.tmax with h | h
    · rw [max_eq_right h, min_eq_right (Real.cos_le_cos_of_nonneg_of_le_pi h2.1 k2.2 h)]
    · rw [max_eq_left h, min_eq_left (Real.cos_le_cos_of_nonneg_of_le_pi k2.1 h2.2 h)]
  subst hU
  unfold boxArea
  dsimp only
  rw [e1, e2]
  set x := Real.cos B.tmin
  set x' := Real.cos B'.tmin
  set y := Real.cos B.tmax
  set y' := Real.cos B'.tmax
  have hx : x ≤ 1 := Real.cos_le_one _
  have hx' : x' ≤ 1 := Real.cos_le_one _
  have hy : -1 ≤ y := Real.neg_one_le_cos _
  have hy' : -1 ≤ y' := Real.neg_one_le_cos _
  have s1 : 2 * max x x' = x + x' + |x - x'| := by
    rcases le_total x x' with h | h
    · rw [max_eq_right h, abs_of_nonpos (by linarith)]; ring
    · rw [max_eq_left h, abs_of_nonneg (by linarith)]; ring
  have s2 : 2 * min y y' = y + y' - |y - y'| := by
    rcases le_total y y' with h | h
    · rw [min_eq_left h, abs_of_nonpos (by linarith)]; ring
    · rw [min_eq_right h, abs_of_nonneg (by linarith)]; ring
  have s3 : 2 * max B.pmax B'.pmax = B.pmax + B'.pmax + |B.pmax - B'.pmax| := by
    rcases le_total B.pmax B'.pmax with h | h
    · rw [max_eq_right h, abs_of_nonpos (by linarith)]; ring
    · rw [max_eq_left h, abs_of_nonneg (by linarith)]; ring
  have s4 : 2 * min B.pmin B'.pmin = B.pmin + B'.pmin - |B.pmin - B'.pmin| := by
    rcases le_total B.pmin B'.pmin with h | h
    · rw [min_eq_left h, abs_of_nonpos (by linarith)]; ring
    · rw [min_eq_right h, abs_of_nonneg (by linarith)]; ring
  -- the hull in latitude `a` and longitude `b`, of the two regions `a₁ b₁` and `a₂ b₂`
  have ha1 : x - y ≤ max x x' - min y y' := sub_le_sub (le_max_left _ _) (min_le_left _ _)
  have ha2 : x' - y' ≤ max x x' - min y y' := sub_le_sub (le_max_right _ _) (min_le_right _ _)
  have ha : max x x' - min y y' ≤ 2 := by
    have := max_le hx hx'
    have := le_min hy hy'
    linarith
  have hb1 : B.pmax - B.pmin ≤ max B.pmax B'.pmax - min B.pmin B'.pmin := sub_le_sub (le_max_left _ _) (min_le_left _ _)
  have hb2 : B'.pmax - B'.pmin ≤ max B.pmax B'.pmax - min B.pmin B'.pmin := sub_le_sub (le_max_right _ _) (min_le_right _ _)
  have hsa : (max x x' - min y y' - (x - y)) + (max x x' - min y y' - (x' - y')) ≤ 2 * d := by linarith
  have hsb : (max B.pmax B'.pmax - min B.pmin B'.pmin - (B.pmax - B.pmin)) +
      (max B.pmax B'.pmax - min B.pmin B'.pmin - (B'.pmax - B'.pmin)) ≤ 2 * d := by linarith
  generalize max x x' - min y y' = a at *
  generalize max B.pmax B'.pmax - min B.pmin B'.pmin = b at *
  generalize hA : x - y = a₁ at *
  generalize hA' : x' - y' = a₂ at *
  have hp1 : B.pmax - B.pmin ≤ 2 * Real.pi := by linarith
  have hp2 : B'.pmax - B'.pmin ≤ 2 * Real.pi := by linarith
  have hq1 : 0 ≤ B.pmax - B.pmin := by linarith
  have hq2 : 0 ≤ B'.pmax - B'.pmin := by linarith
  generalize B.pmax - B.pmin = b₁ at *
  generalize B'.pmax - B'.pmin = b₂ at *
  have i1 : b * a - b₁ * a₁ = a * (b - b₁) + b₁ * (a - a₁) := by ring
  have i2 : b * a - b₂ * a₂ = a * (b - b₂) + b₂ * (a - a₂) := by ring
  have j1 : b₁ * (a - a₁) ≤ 2 * Real.pi * (a - a₁) := mul_le_mul_of_nonneg_right hp1 (by linarith)
  have j2 : b₂ * (a - a₂) ≤ 2 * Real.pi * (a - a₂) := mul_le_mul_of_nonneg_right hp2 (by linarith)
  have j3 : a * (b - b₁) ≤ 2 * (b - b₁) := mul_le_mul_of_nonneg_right ha (by linarith)
  have j4 : a * (b - b₂) ≤ 2 * (b - b₂) := mul_le_mul_of_nonneg_right ha (by linarith)
  have j5 : 2 * Real.pi * ((a - a₁) + (a - a₂)) ≤ 2 * Real.pi * (2 * d) := mul_le_mul_of_nonneg_left hsa (by positivity)
  rw [i1, i2]
  nlinarith

/-- C114.  Two regions limited in latitude and longitude with the same cache files have eigenvalues that differ by no more than
`L² (π + 1) / 180` in all, and by no more than one if one of them contains the other. -/
theorem C114_shared_lat_lon (env : Env) (L : ℕ) (hL : 1 ≤ L) (B B' : Bounds) (h1 : B.tmin ≤ B.tmax) (h2 : B.pmin ≤ B.pmax)
    (h1' : B'.tmin ≤ B'.tmax) (h2' : B'.pmin ≤ B'.pmax) (hp : ¬ (B.pmin = 0 ∧ B.pmax = 2 * Real.pi ∧ B.tmin = 0))
    (hp' : ¬ (B'.pmin = 0 ∧ B'.pmax = 2 * Real.pi ∧ B'.tmin = 0)) (r r' : Obj)
    (hr : (Region.Slepian.limitLatLon L B.tmin B.tmax B.pmin B.pmax).createRegion = .ok r)
    (hr' : (Region.Slepian.limitLatLon L B'.tmin B'.tmax B'.pmin B'.pmax).createRegion = .ok r')
    (hloc : env.location (.limitLatLon L B.tmin B.tmax B.pmin B.pmax) r = env.location (.limitLatLon L B'.tmin B'.tmax B'.pmin B'.pmax) r')
    (e e' : List ℝ) (he : LatLonEigenvalues L B e) (he' : LatLonEigenvalues L B' e') :
    distance L e e' ≤ L ^ 2 * (Real.pi + 1) / 180 ∧
    (B'.tmin ≤ B.tmin → B.tmax ≤ B'.tmax → B'.pmin ≤ B.pmin → B.pmax ≤ B'.pmax → distance L e e' ≤ 1) := by
  have hpi := Real.pi_pos
  obtain ⟨hx, -, hN⟩ := C12_location_parses _ _ _ _ _ _ hloc
  change r.nameEnding = r'.nameEnding at hx
  rw [latLon_name hp hr, latLon_name hp' hr'] at hx
  obtain ⟨⟨g1, g2, g3, g4⟩, -, -⟩ := mk_ok_args hr
  obtain ⟨⟨g1', g2', g3', g4'⟩, -, -⟩ := mk_ok_args hr'
  dsimp only at g1 g2 g3 g4 g1' g2' g3' g4'
  obtain ⟨d1, d2, d3, d4⟩ := latLon_ending_inj (degree_nonneg g4.1) (degree_nonneg g2.1) (degree_nonneg g4'.1) (degree_nonneg g2'.1) hx
  constructor
  · have hb := C114_lat_lon_any L hL B B' _ g4 h1 g3 h2 g4' h1' g3' h2' rfl e e' he he'
    have hh := hull_area (B := B) (B' := B') (d := Real.pi / 180) g4 g3 g2.1 h2 g1.2 g4' g3' g2'.1 h2' g1'.2 (degree_close d1) (degree_close d2)
      (degree_close d3) (degree_close d4) _ rfl
    calc distance L e e' ≤ L ^ 2 / (4 * Real.pi) * (4 * (Real.pi / 180) * (Real.pi + 1)) :=
          hb.trans (mul_le_mul_of_nonneg_left hh (by positivity))
      _ = _ := by field_simp
  · intro k1 k2 k3 k4
    rw [C114_lat_lon L B B' g4'.1 k1 h1 k2 g3'.2 k3 h2 k4 e e' he he']
    have hN : Slepian.shannon (env.area (.limitLatLon L B.tmin B.tmax B.pmin B.pmax)) (.limitLatLon L B.tmin B.tmax B.pmin B.pmax) =
        Slepian.shannon (env.area (.limitLatLon L B'.tmin B'.tmax B'.pmin B'.pmax)) (.limitLatLon L B'.tmin B'.tmax B'.pmin B'.pmax) := hN
    unfold Slepian.shannon at hN
    simp only [Slepian.area, Slepian.L] at hN
    have a := Py.sub_half_le_round ((B'.pmax - B'.pmin) * (Real.cos B'.tmin - Real.cos B'.tmax) * (L : ℝ) ^ 2 / (4 * Real.pi))
    have b := Py.round_le_add_half ((B.pmax - B.pmin) * (Real.cos B.tmin - Real.cos B.tmax) * (L : ℝ) ^ 2 / (4 * Real.pi))
    rw [hN] at b
    have : (L : ℝ) ^ 2 / (4 * Real.pi) * (boxArea B' - boxArea B) =
        (B'.pmax - B'.pmin) * (Real.cos B'.tmin - Real.cos B'.tmax) * (L : ℝ) ^ 2 / (4 * Real.pi) -
          (B.pmax - B.pmin) * (Real.cos B.tmin - Real.cos B.tmax) * (L : ℝ) ^ 2 / (4 * Real.pi) := by
      unfold boxArea; ring
    rw [this]
    linarith

/-- such a region constructed after another one with the same files, in a session that starts with none, has the eigenvalues and the rows
that were saved for the other. -/
theorem lat_lon_reload (env : Env) (L : ℕ) (B B' : Bounds) (r r' : Obj) (s s' : Region.Slepian)
    (hs : s = .limitLatLon L B.tmin B.tmax B.pmin B.pmax) (hs' : s' = .limitLatLon L B'.tmin B'.tmax B'.pmin B'.pmax)
    (hr : s.createRegion = .ok r) (hr' : s'.createRegion = .ok r') (hloc : env.location s r = env.location s' r')
    (fs : FS) (g1 : ∀ n, fs.registry n = none) (g2 : ∀ n, fs.user n = none) :
    (runAlone (runAlone fs (construct env ⟨s, none⟩)).2 (construct env ⟨s', none⟩)).1 =
      .ok ⟨.evals (env.solve s).1, .evecs (slice (env.solve s).2.1 (env.shannon s)), none⟩ := by
  have hc : construct env ⟨s, none⟩ = solvePlain (env.location s r) (env.shannon s) (env.solve s).1 (env.solve s).2.1 := by
    subst hs
    unfold construct
    simp only [Slepian.validate, hr]
  have hc' : construct env ⟨s', none⟩ = solvePlain (env.location s' r') (env.shannon s') (env.solve s').1 (env.solve s').2.1 := by
    subst hs'
    unfold construct
    simp only [Slepian.validate, hr']
  have hl : ∀ n, npLoad fs (find fs n) = .error .typeError := by
    intro n; simp [find, g1, g2, npLoad]
  have hfresh : runAlone fs (construct env ⟨s, none⟩) = (.ok ⟨.evals (env.solve s).1, .evecs (env.solve s).2.1, none⟩,
      (fs.write (evalFile (env.location s r)) (some (.evals (env.solve s).1))).write (evecFile (env.location s r))
        (some (.evecs (slice (env.solve s).2.1 (env.shannon s))))) := by
    rw [hc]
    unfold solvePlain runAlone
    rw [hl]
    rfl
  rw [hfresh]
  dsimp only
  generalize hfs' : (fs.write (evalFile (env.location s r)) (some (.evals (env.solve s).1))).write (evecFile (env.location s r))
        (some (.evecs (slice (env.solve s).2.1 (env.shannon s)))) = fs'
  have hreg : ∀ n, fs'.registry n = none := by rw [← hfs']; exact g1
  have n1 := (files_ne (env.location s r)).1
  have l1 : npLoad fs' (find fs' (evalFile (env.location s r))) = .ok (.evals (env.solve s).1) := by
    have : fs'.user (evalFile (env.location s r)) = some (.evals (env.solve s).1) := by
      simp [← hfs', FS.write, n1]
    simp [find, hreg, this, npLoad, FS.read]
  have l2 : npLoad fs' (find fs' (evecFile (env.location s r))) = .ok (.evecs (slice (env.solve s).2.1 (env.shannon s))) := by
    have : fs'.user (evecFile (env.location s r)) = some (.evecs (slice (env.solve s).2.1 (env.shannon s))) := by
      simp [← hfs', FS.write]
    simp [find, hreg, this, npLoad, FS.read]
  rw [hc', ← hloc]
  unfold solvePlain runAlone
  rw [l1]
  simp only
  unfold runAlone
  rw [l2]
  rfl

/-- C114.  So the eigenvalues of such a region constructed after another one with the same files, in a session that starts with none, are
those of the other, off by no more than that. -/
theorem C114_wrong_lat_lon_file (env : Env) (L : ℕ) (hL : 1 ≤ L) (B B' : Bounds) (h1 : B.tmin ≤ B.tmax) (h2 : B.pmin ≤ B.pmax)
    (h1' : B'.tmin ≤ B'.tmax) (h2' : B'.pmin ≤ B'.pmax) (hp : ¬ (B.pmin = 0 ∧ B.pmax = 2 * Real.pi ∧ B.tmin = 0))
    (hp' : ¬ (B'.pmin = 0 ∧ B'.pmax = 2 * Real.pi ∧ B'.tmin = 0)) (r r' : Obj) (s s' : Region.Slepian)
    (hs : s = .limitLatLon L B.tmin B.tmax B.pmin B.pmax) (hs' : s' = .limitLatLon L B'.tmin B'.tmax B'.pmin B'.pmax)
    (hr : s.createRegion = .ok r) (hr' : s'.createRegion = .ok r') (hloc : env.location s r = env.location s' r')
    (hsolve : LatLonEigenvalues L B (env.solve s).1) (hsolve' : LatLonEigenvalues L B' (env.solve s').1)
    (fs : FS) (g1 : ∀ n, fs.registry n = none) (g2 : ∀ n, fs.user n = none) :
    ∃ v, (runAlone (runAlone fs (construct env ⟨s, none⟩)).2 (construct env ⟨s', none⟩)).1 = .ok ⟨.evals (env.solve s).1, v, none⟩ ∧
      distance L (env.solve s).1 (env.solve s').1 ≤ L ^ 2 * (Real.pi + 1) / 180 ∧
      ∀ k < L ^ 2, |(env.solve s').1.getD k 0 - (env.solve s).1.getD k 0| ≤ L ^ 2 * (Real.pi + 1) / 180 := by
  have hb := (C114_shared_lat_lon env L hL B B' h1 h2 h1' h2' hp hp' r r' (hs ▸ hr) (hs' ▸ hr') (hs ▸ hs' ▸ hloc) _ _ hsolve hsolve').1
  exact ⟨_, lat_lon_reload env L B B' r r' s s' hs hs' hr hr' hloc fs g1 g2, hb, fun k hk => (le_distance _ _ hk).trans hb⟩

/-- the hypotheses are met: for two boxes that end at the longitudes one and 1.001 there are regions and eigenvalues and the
files are the same. -/
example : ∃ (env : Env) (r r' : Obj), (Region.Slepian.limitLatLon 1 0 1 0 1).createRegion = .ok r ∧
    (Region.Slepian.limitLatLon 1 0 1 0 (1 + 1 / 1000)).createRegion = .ok r' ∧
    env.location (.limitLatLon 1 0 1 0 1) r = env.location (.limitLatLon 1 0 1 0 (1 + 1 / 1000)) r' ∧
    LatLonEigenvalues 1 ⟨0, 1, 0, 1⟩ (env.solve (.limitLatLon 1 0 1 0 1)).1 ∧
    LatLonEigenvalues 1 ⟨0, 1, 0, 1 + 1 / 1000⟩ (env.solve (.limitLatLon 1 0 1 0 (1 + 1 / 1000))).1 := by
  have hpi := Real.pi_gt_d2
  have hpi' := Real.pi_lt_d2
  obtain ⟨env, -, -, h1, -⟩ := exists_solver fun _ _ _ => false
  have region : ∀ t : ℝ, 0 ≤ t → t < Real.pi → ∃ r, (Slepian.limitLatLon 1 0 1 0 t).createRegion = .ok r := by
    intro t h0 hlt
    have hp : OtherAngle { thetaMin := 0, thetaMax := 1, phiMin := 0, phiMax := t } := Or.inr (Or.inl (by simp; linarith))
    obtain ⟨r, h, -⟩ := ((C09_classification { thetaMin := 0, thetaMax := 1, phiMin := 0, phiMax := t }).2
      ⟨⟨h0, by simp; linarith⟩, ⟨le_rfl, by simp; linarith⟩, ⟨by simp, by simp; linarith⟩, le_rfl, by simp; linarith⟩).2.1 hp
    exact ⟨r, h⟩
  have solved : ∀ t : ℝ, LatLonEigenvalues 1 ⟨0, 1, 0, t⟩ (env.solve (.limitLatLon 1 0 1 0 t)).1 := by
    intro t
    obtain ⟨n, dl, we, K, w, V, ev, S, q1, q2, q3, q4, q5, q6, -⟩ := h1 1 0 1 0 t le_rfl ⟨le_rfl, by linarith⟩ ⟨by linarith, by linarith⟩
    exact ⟨n, dl, we, K, w, V, ev, S, q1, q2, q3, q4, q5, q6⟩
  obtain ⟨r, hr⟩ := region 1 (by norm_num) (by linarith)
  obtain ⟨r', hr'⟩ := region (1 + 1 / 1000) (by norm_num) (by linarith)
  have hd : ∀ t : ℝ, 1 ≤ t → t ≤ 1 + 1 / 1000 → angleAsDegree t = 57 := by
    intro t ha hb
    unfold angleAsDegree
    apply round_near
    unfold Py.rad2deg
    rw [abs_lt]
    push_cast
    constructor
    · have : 57 - 1 / 2 < t * 180 / Real.pi := by rw [lt_div_iff₀ (by linarith)]; nlinarith
      linarith
    · have : t * 180 / Real.pi < 57 + 1 / 2 := by rw [div_lt_iff₀ (by linarith)]; nlinarith
      linarith
  have hn : ∀ t : ℝ, 0 ≤ t → t ≤ 3 → (Slepian.limitLatLon 1 0 1 0 t).shannon 0 = 0 := by
    intro t ha hb
    unfold Slepian.shannon
    apply round_near
    have h2 : (Slepian.limitLatLon 1 0 1 0 t).area 0 * ((Slepian.limitLatLon 1 0 1 0 t).L : ℝ) ^ 2 / (4 * Real.pi) =
        t * (1 - Real.cos 1) / (4 * Real.pi) := by
      simp only [Slepian.area, Slepian.L, Real.cos_zero]
      push_cast
      ring
    have h3 := Real.cos_pos_of_mem_Ioo (x := 1) ⟨by linarith, by linarith⟩
    have h4 := Real.cos_le_one 1
    have h5 : 0 ≤ t * (1 - Real.cos 1) / (4 * Real.pi) := div_nonneg (mul_nonneg ha (by linarith)) (by linarith)
    have h6 : t * (1 - Real.cos 1) / (4 * Real.pi) < 1 / 2 := by
      rw [div_lt_iff₀ (by linarith)]
      nlinarith
    rw [h2, abs_lt]
    push_cast
    constructor <;> linarith
  refine ⟨env, r, r', hr, hr', ?_, solved 1, solved _⟩
  show "slepian_eigensolutions_D_" ++ r.nameEnding ++ "_L" ++ _ ++ "_N" ++ toString ((Slepian.limitLatLon 1 0 1 0 1).shannon 0) =
    "slepian_eigensolutions_D_" ++ r'.nameEnding ++ "_L" ++ _ ++ "_N" ++ toString ((Slepian.limitLatLon 1 0 1 0 (1 + 1 / 1000)).shannon 0)
  rw [latLon_name (by intro h; linarith [h.2.1]) hr, latLon_name (by intro h; linarith [h.2.1]) hr', hd 1 le_rfl (by norm_num),
    hd (1 + 1 / 1000) (by norm_num) le_rfl, hn 1 (by norm_num) (by linarith), hn (1 + 1 / 1000) (by norm_num) (by linarith)]
  rfl

end WrongFile

/-- the hypotheses are met: a belt and its western half at `L = 3`, two caps, two masks. -/
example : ∃ e e' a b c d : List ℝ, LatLonEigenvalues 3 ⟨1, 2, 0, Real.pi⟩ e ∧ LatLonEigenvalues 3 ⟨1, 2, 0, 2 * Real.pi⟩ e' ∧
    distance 3 e e' = 9 / 4 * (Real.cos 1 - Real.cos 2) ∧ PolarEigenvalues 3 true 1 a ∧ PolarEigenvalues 3 true (1 / 2) b ∧
    distance 3 a b = 9 * |Real.cos 1 - Real.cos (1 / 2)| ∧ MaskEigenvalues 3 (fun _ => true) c ∧ MaskEigenvalues 3 (fun _ => false) d := by
  have hpi := Real.pi_gt_three
  have h12 : (1 : ℝ) ∈ Set.Icc 0 Real.pi ∧ (2 : ℝ) ∈ Set.Icc 0 Real.pi := ⟨⟨by linarith, by linarith⟩, ⟨by linarith, by linarith⟩⟩
  obtain ⟨e, he⟩ := (C111_runs_exist 3 (by norm_num)).2 ⟨1, 2, 0, Real.pi⟩ h12.1 h12.2
  obtain ⟨e', he'⟩ := (C111_runs_exist 3 (by norm_num)).2 ⟨1, 2, 0, 2 * Real.pi⟩ h12.1 h12.2
  obtain ⟨a, ha⟩ := (C111_runs_exist 3 (by norm_num)).1 true 1 (by linarith) (by linarith)
  obtain ⟨b, hb⟩ := (C111_runs_exist 3 (by norm_num)).1 true (1 / 2) (by linarith) (by linarith)
  have hm : ∀ m : Integration.Grid (2 * 3) → Bool, ∃ c, MaskEigenvalues 3 m c := by
    intro m
    obtain ⟨n, hn, P, we, M, w, V, ev, S, a, b, c, d⟩ := C50_arbitrary_runs_exist 3 (by norm_num) m
    exact ⟨_, n, P, 3, we, M, w, V, ev, S, hn, a, by norm_num, b, c, d, rfl⟩
  obtain ⟨c, hc⟩ := hm fun _ => true
  obtain ⟨d, hd⟩ := hm fun _ => false
  refine ⟨e, e', a, b, c, d, he, he', ?_, ha, hb, ?_, hc, hd⟩
  · rw [C114_lat_lon 3 ⟨1, 2, 0, Real.pi⟩ ⟨1, 2, 0, 2 * Real.pi⟩ (by norm_num) le_rfl (by norm_num) le_rfl h12.2.2 le_rfl (by show (0 : ℝ) ≤ Real.pi; linarith)
      (by show Real.pi ≤ 2 * Real.pi; linarith) e e' he he']
    unfold boxArea
    push_cast
    field_simp
    ring
  · rw [C114_polar 3 true 1 (1 / 2) h12.1 ⟨by norm_num, by linarith⟩ a b ha hb]
    push_cast
    norm_num
    ring

end Sleplet.Props
