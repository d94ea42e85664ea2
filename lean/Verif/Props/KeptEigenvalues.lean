import Verif.Lemmas.MaskCount
import Verif.Lemmas.MaskRank
import Verif.Props.EigenvalueFigure
import Verif.Props.RelatedRegions

/-!
C130: the eigenvalues that the region method divides by.
-/
namespace Sleplet.Props

open Sleplet.Spec Sleplet.Eigen Sleplet.LatLon Sleplet.Integration Sleplet.Gaunt Sleplet.RealMat

/-- numbers that never rise, none above `M`: the sum bounds each from below and above. -/
private theorem kept {n : ℕ} {e : ℕ → ℝ} {M : ℝ} (hanti : ∀ i j, i ≤ j → j < n → e j ≤ e i) (hM : ∀ p < n, e p ≤ M) {p : ℕ} (hp : p < n) :
    ∑ i ∈ Finset.range n, e i ≤ p * M + (n - p) * e p ∧
    ((∀ i < n, 0 ≤ e i) → (p + 1) * e p ≤ ∑ i ∈ Finset.range n, e i) := by
  obtain ⟨k, rfl⟩ := Nat.exists_eq_add_of_lt hp
  constructor
  · rw [show p + k + 1 = p + (k + 1) by omega, Finset.sum_range_add]
    have h1 : ∑ i ∈ Finset.range p, e i ≤ ∑ _i ∈ Finset.range p, M := Finset.sum_le_sum fun i hi => hM i (by
      have := Finset.mem_range.1 hi; omega)
    have h2 : ∑ i ∈ Finset.range (k + 1), e (p + i) ≤ ∑ _i ∈ Finset.range (k + 1), e p := Finset.sum_le_sum fun i hi =>
      hanti p (p + i) (by omega) (by have := Finset.mem_range.1 hi; omega)
    rw [Finset.sum_const, Finset.card_range, nsmul_eq_mul] at h1 h2
    push_cast at h2 ⊢
    have : ((p : ℝ) + (k + 1) - p) = k + 1 := by ring
    rw [this]
    linarith
  · intro h0
    rw [show p + k + 1 = (p + 1) + k by omega, Finset.sum_range_add]
    have h1 : ∑ _i ∈ Finset.range (p + 1), e p ≤ ∑ i ∈ Finset.range (p + 1), e i := Finset.sum_le_sum fun i hi =>
      hanti i p (by have := Finset.mem_range.1 hi; omega) (by omega)
    have h2 : 0 ≤ ∑ i ∈ Finset.range k, e (p + 1 + i) := Finset.sum_nonneg fun i hi => h0 _ (by have := Finset.mem_range.1 hi; omega)
    rw [Finset.sum_const, Finset.card_range, nsmul_eq_mul] at h1
    push_cast at h1
    linarith

/-- the kept eigenvalues of a list whose sum is at most half below the number kept. -/
private theorem kept_list {n : ℕ} {e : List ℝ} (hlen : e.length = n) (hd : e.Pairwise (· ≥ ·)) (h0 : ∀ p < n, 0 ≤ e.getD p 0)
    (h1 : ∀ p < n, e.getD p 0 ≤ 1) {N : ℤ} (hN : (N : ℝ) ≤ ∑ p ∈ Finset.range n, e.getD p 0 + 1 / 2) {p : ℕ} (hp : (p : ℤ) < N) :
    p < n ∧ ∑ q ∈ Finset.range n, e.getD q 0 - p ≤ (n - p) * e.getD p 0 ∧ 1 / 2 ≤ ((n : ℝ) - p) * e.getD p 0 ∧ 1 ≤ 2 * n * e.getD p 0 ∧
      (p + 1) * e.getD p 0 ≤ ∑ q ∈ Finset.range n, e.getD q 0 := by
  have hpN : (p : ℝ) + 1 ≤ N := by exact_mod_cast hp
  have hle : ∑ q ∈ Finset.range n, e.getD q 0 ≤ n := by
    have := Finset.sum_le_sum fun q (hq : q ∈ Finset.range n) => h1 q (Finset.mem_range.1 hq)
    simpa using this
  have hpn : p < n := by
    have : (p : ℝ) < n := by linarith
    exact_mod_cast this
  have hanti : ∀ i j, i ≤ j → j < n → e.getD j 0 ≤ e.getD i 0 := by
    intro i j hij hj
    rcases eq_or_lt_of_le hij with rfl | hlt
    · exact le_rfl
    · have hi : i < e.length := by omega
      have hj' : j < e.length := by omega
      have := List.pairwise_iff_getElem.1 hd i j hi hj' hlt
      simpa [List.getD_eq_getElem?_getD, List.getElem?_eq_getElem hi, List.getElem?_eq_getElem hj'] using this
  obtain ⟨a, b⟩ := kept hanti h1 hpn
  have hp0 : (0 : ℝ) ≤ p := Nat.cast_nonneg p
  have he := mul_nonneg hp0 (h0 p hpn)
  refine ⟨hpn, by linarith, by linarith, by linarith, b h0⟩

/-- C130, polar caps and gaps.  Each eigenvalue `e_p` of a rank below the number of functions that is kept by default is at least
`1 / (2 (L² - p))`, so the region method, which divides by it, never divides by zero and enlarges nothing more than `2 L²` times; and it is
at most a share `1 / (p + 1)` of the sum of all the eigenvalues. -/
theorem C130_polar (L : ℕ) (gap : Bool) (t : ℝ) (h0 : 0 ≤ t) (h1 : t ≤ Real.pi) (hgap : gap = true → t ≤ Real.pi / 2)
    (e : List ℝ) (he : PolarEigenvalues L gap t e) (area : ℝ) (p : ℕ) (hp : (p : ℤ) < (Region.Slepian.polarCap L t gap).shannon area) :
    p < L ^ 2 ∧ 1 / 2 ≤ ((L : ℝ) ^ 2 - p) * e.getD p 0 ∧ 1 ≤ 2 * (L : ℝ) ^ 2 * e.getD p 0 ∧
      (p + 1) * e.getD p 0 ≤ (L : ℝ) ^ 2 / (4 * Real.pi) * ((if gap then 2 else 1) * (2 * Real.pi * (1 - Real.cos t))) := by
  obtain ⟨plm, M, sol, v, o, a, b, c, d, s⟩ := he
  obtain ⟨e', v', o', hr, hl, -, -, -, hnn, hle, hs, hd⟩ := C50_polar_energy_ratio L gap t h0 h1 plm a b M c sol d _ s
  injection hr with hr
  obtain ⟨rfl, rfl, rfl⟩ : e = e' ∧ v = v' ∧ o = o' := by simpa using hr
  have hpi := Real.pi_pos
  have hN : ((Region.Slepian.polarCap L t gap).shannon area : ℝ) ≤ ∑ p ∈ Finset.range (L ^ 2), e.getD p 0 + 1 / 2 := by
    have hround := Py.round_le_add_half ((Region.Slepian.polarCap L t gap).area area * (L : ℝ) ^ 2 / (4 * Real.pi))
    have : (Region.Slepian.polarCap L t gap).area area * (L : ℝ) ^ 2 / (4 * Real.pi) ≤ ∑ p ∈ Finset.range (L ^ 2), e.getD p 0 := by
      rw [hs]
      simp only [Region.Slepian.area]
      have hc : 0 ≤ (L : ℝ) ^ 2 / (4 * Real.pi) * (2 * Real.pi * (1 - Real.cos t)) := by
        have := Real.cos_le_one t
        have : 0 ≤ 1 - Real.cos t := by linarith
        positivity
      have heq : 2 * Real.pi * (1 - Real.cos t) * (L : ℝ) ^ 2 / (4 * Real.pi) = (L : ℝ) ^ 2 / (4 * Real.pi) * (2 * Real.pi * (1 - Real.cos t)) := by
        ring
      cases gap <;> simp <;> linarith
    exact hround.trans (by linarith)
  obtain ⟨x1, -, x2, x3, x4⟩ := kept_list hl hd hnn (hle hgap) hN hp
  rw [hs] at x4
  push_cast at x2 x3
  exact ⟨x1, x2, x3, x4⟩

/-- a hemisphere at bandlimit 4: eight functions are kept, and the last of their eigenvalues is at least 1/18. -/
example : ∃ e, PolarEigenvalues 4 false (Real.pi / 2) e ∧ (Region.Slepian.polarCap 4 (Real.pi / 2) false).shannon 0 = 8 ∧
    1 / 2 ≤ ((4 : ℝ) ^ 2 - 7) * e.getD 7 0 := by
  have hpi := Real.pi_pos
  obtain ⟨e, he⟩ := (C111_runs_exist 4 (by norm_num)).1 false (Real.pi / 2) (by positivity) (by linarith)
  have hN : (Region.Slepian.polarCap 4 (Real.pi / 2) false).shannon 0 = 8 := by
    simp only [Region.Slepian.shannon, Region.Slepian.area, Region.Slepian.L, Real.cos_pi_div_two]
    rw [show 2 * Real.pi * (1 - 0) * ((4 : ℕ) : ℝ) ^ 2 / (4 * Real.pi) = ((8 : ℤ) : ℝ) by push_cast; field_simp; norm_num]
    exact Py.round_intCast 8
  have := (C130_polar 4 false _ (by positivity) (by linarith) (by simp) e he 0 7 (by rw [hN]; norm_num)).2.1
  exact ⟨e, he, hN, by exact_mod_cast this⟩

/-- C130, regions limited in latitude and longitude. -/
theorem C130_lat_lon (L : ℕ) (B : Bounds) (h0 : 0 ≤ B.tmin) (h1 : B.tmin ≤ B.tmax) (h2 : B.tmax ≤ Real.pi) (h3 : 0 ≤ B.pmin)
    (h4 : B.pmin ≤ B.pmax) (h5 : B.pmax ≤ 2 * Real.pi) (e : List ℝ) (he : LatLonEigenvalues L B e) (area : ℝ) (p : ℕ)
    (hp : (p : ℤ) < (Region.Slepian.limitLatLon L B.tmin B.tmax B.pmin B.pmax).shannon area) :
    p < L ^ 2 ∧ 1 / 2 ≤ ((L : ℝ) ^ 2 - p) * e.getD p 0 ∧ 1 ≤ 2 * (L : ℝ) ^ 2 * e.getD p 0 ∧
      (p + 1) * e.getD p 0 ≤ (L : ℝ) ^ 2 / (4 * Real.pi) * ((B.pmax - B.pmin) * (Real.cos B.tmin - Real.cos B.tmax)) := by
  obtain ⟨n, dl, we, K, w, V, ev, S, hn, a, b, c, d, rfl⟩ := he
  obtain ⟨-, -, -, hs, hb⟩ := C50_lat_lon_energy_ratio L n hn B dl a ⟨h0, h1.trans h2⟩ ⟨h0.trans h1, h2⟩ we K b w V c ev S d
  obtain ⟨hnn, hle⟩ := hb h1 h4
  have hg : ∀ p (hp : p < L ^ 2), (List.ofFn ev).getD p 0 = ev ⟨p, hn ▸ hp⟩ := by
    intro p hp
    have : p < n + 1 := hn ▸ hp
    simp only [List.getD_eq_getElem?_getD, List.getElem?_ofFn, this, dif_pos, Option.getD_some]
  have hsum : ∑ p ∈ Finset.range (L ^ 2), (List.ofFn ev).getD p 0 = ∑ p, ev p := by
    rw [← hn]
    have := sum_getD (List.ofFn ev)
    rw [List.length_ofFn, List.sum_ofFn] at this
    exact this
  obtain ⟨x1, -, x2, x3, x4⟩ := kept_list (n := L ^ 2) (e := List.ofFn ev) (by simpa using hn)
    (by rw [List.pairwise_ofFn]; exact fun i j hij => (C17_lat_lon_sorted_and_paired w V ev S d).1 hij.le)
    (fun p hp => by rw [hg p hp]; exact hnn _) (fun p hp => by rw [hg p hp]; exact (hle h3 h5 _).1)
    (N := (Region.Slepian.limitLatLon L B.tmin B.tmax B.pmin B.pmax).shannon area) (by
      rw [hsum, hs]
      refine le_of_le_of_eq (Py.round_le_add_half _) ?_
      simp only [Region.Slepian.area, Region.Slepian.L]
      ring) hp
  rw [hsum, hs] at x4
  push_cast at x2 x3
  exact ⟨x1, x2, x3, x4⟩

/-- a quarter of the sphere at bandlimit 4. -/
example : ∃ e, LatLonEigenvalues 4 ⟨0, Real.pi / 2, 0, Real.pi⟩ e ∧
    (Region.Slepian.limitLatLon 4 0 (Real.pi / 2) 0 Real.pi).shannon 0 = 4 ∧ 1 / 2 ≤ ((4 : ℝ) ^ 2 - 3) * e.getD 3 0 := by
  have hpi := Real.pi_pos
  obtain ⟨e, he⟩ := (C111_runs_exist 4 (by norm_num)).2 ⟨0, Real.pi / 2, 0, Real.pi⟩ ⟨le_rfl, hpi.le⟩
    ⟨by change (0 : ℝ) ≤ Real.pi / 2; positivity, by change Real.pi / 2 ≤ Real.pi; linarith⟩
  have hN : (Region.Slepian.limitLatLon 4 0 (Real.pi / 2) 0 Real.pi).shannon 0 = 4 := by
    simp only [Region.Slepian.shannon, Region.Slepian.area, Region.Slepian.L, Real.cos_pi_div_two, Real.cos_zero]
    rw [show (Real.pi - 0) * (1 - 0) * ((4 : ℕ) : ℝ) ^ 2 / (4 * Real.pi) = ((4 : ℤ) : ℝ) by push_cast; field_simp; norm_num]
    exact Py.round_intCast 4
  have := (C130_lat_lon 4 ⟨0, Real.pi / 2, 0, Real.pi⟩ le_rfl (by change (0 : ℝ) ≤ Real.pi / 2; positivity)
    (by change Real.pi / 2 ≤ Real.pi; linarith) le_rfl hpi.le (by change Real.pi ≤ 2 * Real.pi; linarith) e he 0 3
    (by change _ < (Region.Slepian.limitLatLon 4 0 (Real.pi / 2) 0 Real.pi).shannon 0; rw [hN]; norm_num)).2.1
  exact ⟨e, he, hN, by exact_mod_cast this⟩

/-- C130, masks, how large: the eigenvalues of a mask can exceed one, up to 4/3, so the bound covers the ranks below three quarters
of the sum of the eigenvalues. -/
theorem C130_mask_bound (L : ℕ) (m : Grid (2 * L) → Bool) (e : List ℝ) (he : MaskEigenvalues L m e) (p : ℕ) (hp : p < L ^ 2) :
    (L : ℝ) ^ 2 / (4 * Real.pi) * maskArea L m - 4 / 3 * p ≤ ((L : ℝ) ^ 2 - p) * e.getD p 0 ∧
      (p + 1) * e.getD p 0 ≤ (L : ℝ) ^ 2 / (4 * Real.pi) * maskArea L m ∧
      ∀ name, ((p : ℝ) < 3 / 4 * ((Region.Slepian.arbitrary L name).shannon (maskArea L m) - 1 / 2) → 0 < e.getD p 0) := by
  obtain ⟨n, P, ncpu, we, M, w, V, ev, S, hn, a, b, c, d, f, rfl⟩ := he
  obtain ⟨hb, hs, hN, -⟩ := C50_arbitrary_bounded_partial L n hn m P a ncpu b we M c w V d ev S f
  have hg : ∀ p (hp : p < L ^ 2), (List.ofFn ev).getD p 0 = ev ⟨p, hn ▸ hp⟩ := by
    intro p hp
    have : p < n + 1 := hn ▸ hp
    simp only [List.getD_eq_getElem?_getD, List.getElem?_ofFn, this, dif_pos, Option.getD_some]
  have hsum : ∑ p ∈ Finset.range (L ^ 2), (List.ofFn ev).getD p 0 = ∑ p, ev p := by
    rw [← hn]
    have := sum_getD (List.ofFn ev)
    rw [List.length_ofFn, List.sum_ofFn] at this
    exact this
  obtain ⟨x, y⟩ := kept (n := L ^ 2) (e := fun p => (List.ofFn ev).getD p 0) (M := 4 / 3)
    (fun i j hij hj => by
      rw [hg j hj, hg i (by omega)]
      exact (C17_arbitrary_sorted_and_paired w V ev S f).1 hij)
    (fun p hp => by rw [hg p hp]; exact (hb _).2) hp
  have y := y fun i hi => by rw [hg i hi]; exact (hb _).1
  rw [hsum] at x y
  push_cast at x
  refine ⟨by linarith, by linarith, fun name hname => ?_⟩
  have hN := (abs_le.1 (hN name)).2
  have hpos : 0 < ((L : ℝ) ^ 2 - p) * (List.ofFn ev).getD p 0 := by linarith
  have hL : (p : ℝ) < (L : ℝ) ^ 2 := by exact_mod_cast hp
  exact (mul_pos_iff_of_pos_left (by linarith)).1 hpos

private theorem phi_val {L : ℕ} (hL : 1 ≤ L) (x : Grid (2 * L)) : phi x = (x.2 : ℕ) * (Real.pi / (2 * L)) := by
  have hx := x.2.isLt
  have : (L : ℝ) ≠ 0 := by positivity
  simp only [phi, phis, List.getD_eq_getElem?_getD, List.getElem?_map, List.getElem?_range hx, Option.map_some, Option.getD_some]
  push_cast
  field_simp

/-- C130, masks.  Every kept eigenvalue of a mask is positive: the samples of the mask on the rings of the grid tell apart as many bandlimited
fields as are kept. -/
theorem C130_mask (L : ℕ) (m : Grid (2 * L) → Bool) (e : List ℝ) (he : MaskEigenvalues L m e) (name : String) (p : ℕ)
    (hp : (p : ℤ) < (Region.Slepian.arbitrary L name).shannon (maskArea L m)) : p < L ^ 2 ∧ 0 < e.getD p 0 := by
  classical
  have hpi := Real.pi_pos
  have hL : 1 ≤ L := by
    obtain ⟨n, P, ncpu, we, M, w, V, ev, S, hn, -⟩ := he
    rcases Nat.eq_zero_or_pos L with rfl | h
    · simp at hn
    · exact h
  have hLr : (0 : ℝ) < L := by positivity
  obtain ⟨σ, hσ⟩ := area_le_count hL m
  let t : Fin L → ℕ := fun i => σ ⟨i, by have := i.2; omega⟩ + 1
  have ht : ∀ i, t i < 2 * L := fun i => by have := (σ ⟨i, by have := i.2; omega⟩).2; simp only [t]; omega
  have ht0 : ∀ i, 0 < t i := fun i => by simp only [t]; omega
  let k : Fin L → ℕ := fun i => min (ringCount m (t i)) (2 * (L - 1 - (i : ℕ)) + 1)
  have hρ : p < ∑ i, k i := by
    have h1 := Py.round_le_add_half ((Region.Slepian.arbitrary L name).area (maskArea L m) * (L : ℝ) ^ 2 / (4 * Real.pi))
    have h2 : ((p : ℝ) + 1) ≤ ((Region.Slepian.arbitrary L name).shannon (maskArea L m) : ℝ) := by exact_mod_cast hp
    have h3 : (Region.Slepian.arbitrary L name).area (maskArea L m) * (L : ℝ) ^ 2 / (4 * Real.pi) =
        (L : ℝ) ^ 2 / (4 * Real.pi) * maskArea L m := by
      simp only [Region.Slepian.area]
      ring
    rw [h3] at h1
    have h4 : ((Region.Slepian.arbitrary L name).shannon (maskArea L m) : ℝ) ≤ (L : ℝ) ^ 2 / (4 * Real.pi) * maskArea L m + 1 / 2 := by
      refine le_trans (le_of_eq ?_) h1
      simp only [Region.Slepian.shannon, Region.Slepian.L]
      rw [h3]
    have h5 : (p : ℝ) < ((∑ i, k i : ℕ) : ℝ) := by
      push_cast
      simp only [k, t]
      push_cast at hσ ⊢
      linarith
    exact_mod_cast h5
  have hsum : ∑ i, k i ≤ L ^ 2 := by
    have h1 : ∑ i, k i ≤ ∑ i : Fin L, (2 * (L - 1 - (i : ℕ)) + 1) := Finset.sum_le_sum fun i _ => min_le_right _ _
    have h2 : ∀ n : ℕ, ∑ i ∈ Finset.range n, (2 * (n - 1 - i) + 1) = n ^ 2 := by
      intro n
      rw [Finset.sum_range_reflect (fun i => 2 * i + 1) n]
      induction n with
      | zero => simp
      | succ n ih => rw [Finset.sum_range_succ, ih]; ring
    rw [Finset.sum_range (fun i => 2 * (L - 1 - i) + 1) |>.symm.trans (h2 L)] at h1
    exact h1
  have hpL : p < L ^ 2 := by omega
  obtain ⟨-, s, hb⟩ := mask_numbers he
  refine ⟨hpL, ?_⟩
  let ring : Fin L → Fin (2 * L + 1) := fun i => ⟨t i, by have := ht i; omega⟩
  let th : Fin L → ℝ := fun i => (t i : ℝ) * (Real.pi / (2 * L))
  have hth : ∀ i, 0 < th i ∧ th i < Real.pi := by
    intro i
    have h1 : (0 : ℝ) < t i := by exact_mod_cast ht0 i
    have h2 : (t i : ℝ) < 2 * L := by exact_mod_cast ht i
    refine ⟨by simp only [th]; positivity, ?_⟩
    calc th i < 2 * L * (Real.pi / (2 * L)) := by simp only [th]; gcongr
      _ = Real.pi := by field_simp
  have htheta : ∀ i q, theta ((ring i, q) : Grid (2 * L)) = th i := by
    intro i q
    rw [theta_eq (by omega)]
    simp [th, ring]
  let A : Fin L → Finset ℝ := fun i => (Finset.univ.filter fun q : Fin (2 * (2 * L)) => m (ring i, q) = true).image fun (q : Fin (2 * (2 * L))) =>
    ((q : ℕ) : ℝ) * (Real.pi / (2 * L))
  have hstep : (0 : ℝ) < Real.pi / (2 * L) := by positivity
  have hcard : ∀ i, (A i).card = ringCount m (t i) := by
    intro i
    simp only [A]
    rw [Finset.card_image_of_injective _ fun a b hab => Fin.ext (by exact_mod_cast mul_right_cancel₀ hstep.ne' hab)]
    unfold ringCount
    rw [dif_pos (by have := ht i; omega)]
  have hA : ∀ i, Set.InjOn (fun ph : ℝ => Complex.exp (Complex.I * ph)) (A i) := by
    intro i x hx y hy hxy
    have hmem : ∀ x ∈ A i, 0 ≤ x ∧ x < 2 * Real.pi := by
      intro x hx
      obtain ⟨q, -, rfl⟩ := Finset.mem_image.1 hx
      have h1 : ((q : ℕ) : ℝ) < 2 * (2 * L) := by exact_mod_cast q.2
      refine ⟨by positivity, ?_⟩
      calc ((q : ℕ) : ℝ) * (Real.pi / (2 * L)) < 2 * (2 * L) * (Real.pi / (2 * L)) := by gcongr
        _ = 2 * Real.pi := by field_simp
    obtain ⟨n, hn⟩ := Complex.exp_eq_exp_iff_exists_int.1 hxy
    have h1 : (x : ℂ) = y + n * (2 * Real.pi) := by
      have hI := Complex.I_ne_zero
      apply mul_left_cancel₀ hI
      rw [hn]
      ring
    have h2 : x = y + n * (2 * Real.pi) := by exact_mod_cast h1
    obtain ⟨a1, a2⟩ := hmem x hx
    obtain ⟨b1, b2⟩ := hmem y hy
    have h3 : (n : ℝ) < 1 := by nlinarith
    have h4 : (-1 : ℝ) < n := by nlinarith
    have h5 : n = 0 := by
      have : n < 1 := by exact_mod_cast h3
      have : -1 < n := by exact_mod_cast h4
      omega
    rw [h2, h5]
    simp
  obtain ⟨F, hF, hinj⟩ := told_apart th
    (fun i j hij => by
      have h1 := Real.injOn_cos ⟨(hth i).1.le, (hth i).2.le⟩ ⟨(hth j).1.le, (hth j).2.le⟩ hij
      have h2 : (t i : ℝ) = t j := mul_right_cancel₀ hstep.ne' h1
      have h3 : t i = t j := by exact_mod_cast h2
      have h4 : σ ⟨i, by have := i.2; omega⟩ = σ ⟨j, by have := j.2; omega⟩ := Fin.ext (by simp only [t] at h3; omega)
      have h5 := σ.injective h4
      exact Fin.ext (by simpa using h5))
    (fun i => by
      have h1 := Real.sin_pos_of_pos_of_lt_pi (hth i).1 (hth i).2
      have h2 := Real.sin_sq_add_cos_sq (th i)
      nlinarith)
    A hA k (fun i => by rw [hcard]; exact min_le_left _ _) (fun i => min_le_right _ _)
  have := numbers_pos hb (ρ := ∑ i, k i) (fun j => F (finSigmaFinEquiv.symm j)) (fun j => hF _) (fun a ha => ?_) ⟨p, hpL⟩ hρ
  · exact this
  · have hterm : ∀ x ∈ Finset.univ.filter fun x => m x = true, 0 ≤ ‖(∑ j, a j • F (finSigmaFinEquiv.symm j)) (theta x) (phi x)‖ ^ 2 *
        weight (2 * L) x := fun x _ => mul_nonneg (sq_nonneg _) (weight_nonneg (by omega) x)
    refine lt_of_le_of_ne (Finset.sum_nonneg hterm) fun h0 => ha ?_
    have hz := (Finset.sum_eq_zero_iff_of_nonneg hterm).1 h0.symm
    have h1 : (fun x => a (finSigmaFinEquiv x)) = 0 := by
      refine hinj _ fun i ph hph => ?_
      obtain ⟨q, hq, rfl⟩ := Finset.mem_image.1 hph
      have hq : m (ring i, q) = true := by simpa using hq
      have h2 := hz (ring i, q) (by simpa using hq)
      have hw : 0 < weight (2 * L) ((ring i, q) : Grid (2 * L)) := by
        rw [weight_eq (by omega)]
        have h3 := Real.sin_pos_of_pos_of_lt_pi (hth i).1 (hth i).2
        have h4 : ((((ring i, q) : Grid (2 * L)).1 : ℕ) : ℝ) * (Real.pi / ((2 * L : ℕ) : ℝ)) = th i := by simp [ring, th]
        rw [h4]
        positivity
      have h3 := (mul_eq_zero.1 h2).resolve_right hw.ne'
      rw [sq_eq_zero_iff, norm_eq_zero, htheta, phi_val hL] at h3
      rw [Finset.sum_apply, Finset.sum_apply] at h3
      rw [← h3, ← Equiv.sum_comp finSigmaFinEquiv]
      exact Finset.sum_congr rfl fun x _ => by simp
    funext j
    have h2 := congrFun h1 (finSigmaFinEquiv.symm j)
    simpa using h2

/-- the whole grid at bandlimit 6. -/
example : ∃ e, MaskEigenvalues 6 (fun _ => true) e ∧ ∀ name (p : ℕ),
    (p : ℤ) < (Region.Slepian.arbitrary 6 name).shannon (maskArea 6 fun _ => true) → 0 < e.getD p 0 := by
  obtain ⟨n, hn, P, we, M, w, V, e, S, h1, h2, h3, h4⟩ := C50_arbitrary_runs_exist 6 (by norm_num) fun _ => true
  have he : MaskEigenvalues 6 (fun _ => true) (List.ofFn e) := ⟨n, P, 3, we, M, w, V, e, S, hn, h1, by norm_num, h2, h3, h4, rfl⟩
  exact ⟨_, he, fun name p hp => (C130_mask 6 _ _ he name p hp).2⟩

example (m : Grid (2 * 6) → Bool) : ∃ e, MaskEigenvalues 6 m e := by
  obtain ⟨n, hn, P, we, M, w, V, e, S, h1, h2, h3, h4⟩ := C50_arbitrary_runs_exist 6 (by norm_num) m
  exact ⟨_, n, P, 3, we, M, w, V, e, S, hn, h1, by norm_num, h2, h3, h4, rfl⟩

/-- every orthonormal basis on the vertices and every region has an eigendecomposition, so the object exists. -/
theorem exists_built {V : Type} [Fintype V] {K : ℕ} (φ : Fin K → V → ℝ) (hφ : OrthonormalOnVertices φ) (region : V → Bool) (N : ℕ) (hN : N ≤ K) :
    ∃ (ms : MeshT.MeshSlepian V) (e : Fin K → ℝ) (S : Fin K → Fin K → ℝ), ms.region = region ∧ ms.N = N ∧ BuiltMesh ms φ e S K := by
  classical
  obtain ⟨we, M, hM⟩ := C05_run_exists K (RealMat.meshHelper K (RealMat.meshIntegral region (List.ofFn φ))) RealMat.fillUpper 3 (by norm_num)
  obtain ⟨-, M', h1, -, h3⟩ := C05_mesh_matrix_schedule_independent region (List.ofFn φ) K (by simp) 3 (by norm_num) we _ hM
  injection h1 with h1
  subst h1
  let A : Matrix (Fin K) (Fin K) ℝ := fun i j => M i j
  have hA : A.IsHermitian := by
    ext i j
    simp only [star_trivial, A]
    exact h3 j j.2 i i.2
  let w : Fin K → ℝ := hA.eigenvalues
  let W : Fin K → Fin K → ℝ := fun r k => hA.eigenvectorBasis k r
  refine ⟨⟨K, List.ofFn φ, region, N, List.ofFn (cleanMesh (Tuple.sort w) w W).1,
    (List.ofFn fun p => List.ofFn ((cleanMesh (Tuple.sort w) w W).2 p)).take K⟩, _, _, rfl, rfl,
    ⟨rfl, rfl, hφ, ⟨3, we, M, w, W, by norm_num, hM, ⟨fun k r => ?_, fun k k' => ?_⟩, Tuple.sort w, Tuple.monotone_sort _, rfl⟩, rfl, hN,
      le_rfl, rfl⟩⟩
  · have h1 := congrFun (hA.mulVec_eigenvectorBasis k) r
    simp only [Matrix.mulVec, dotProduct, Pi.smul_apply, smul_eq_mul] at h1
    exact h1
  · have h1 := orthonormal_iff_ite.1 hA.eigenvectorBasis.orthonormal k' k
    simp only [PiLp.inner_apply, RCLike.inner_apply, conj_trivial] at h1
    rw [h1]
    simp only [eq_comm]

/-- C130, meshes, the part that holds: the sum of the eigenvalues bounds them from below and above; with as many basis functions as vertices
the kept eigenvalues, as many as there are vertices in the region, are one and all others zero. -/
theorem C130_mesh_partial {V : Type} [Fintype V] {K : ℕ} (ms : MeshT.MeshSlepian V) (φ : Fin K → V → ℝ) (e : Fin K → ℝ)
    (S : Fin K → Fin K → ℝ) (rows : ℕ) (h : BuiltMesh ms φ e S rows) (p : Fin K) :
    ∑ q, e q - p ≤ ((K : ℝ) - p) * e p ∧ (p + 1) * e p ≤ ∑ q, e q ∧
    (K = Fintype.card V → meshShannon ms.region K = (Finset.univ.filter fun v => ms.region v = true).card ∧
      e p = if (p : ℤ) < meshShannon ms.region K then 1 else 0) := by
  classical
  obtain ⟨hs, hr, hb, hanti, -⟩ := C50_mesh_energy_ratio ms φ e S rows h
  dsimp only at hs hr
  obtain ⟨s, hsd⟩ : ∃ s : Fin K → V → ℝ, ∀ q v, ∑ i, S q i * φ i v = s q v := ⟨_, fun _ _ => rfl⟩
  simp only [hsd] at hs hr
  let g : ℕ → ℝ := fun q => if hq : q < K then e ⟨q, hq⟩ else 0
  have hg : ∀ q : Fin K, g q = e q := fun q => by simp [g]
  have hsum : ∑ q ∈ Finset.range K, g q = ∑ q, e q := by
    rw [← Fin.sum_univ_eq_sum_range]
    exact Finset.sum_congr rfl fun q _ => hg q
  obtain ⟨x, y⟩ := kept (n := K) (e := g) (M := 1) (fun i j hij hj => by
      have hi : i < K := by omega
      simp only [g, hi, hj, dif_pos]
      exact hanti hij) (fun q hq => by simp only [g, hq, dif_pos]; exact (hb _).2) p.2
  have y := y fun i hi => by simp only [g, hi, dif_pos]; exact (hb _).1
  rw [hsum, hg] at x y
  refine ⟨by linarith, y, fun hcard => ?_⟩
  have hK : K ≠ 0 := by have := p.2; omega
  have hN : meshShannon ms.region K = (Finset.univ.filter fun v => ms.region v = true).card := by
    unfold meshShannon
    rw [← hcard, div_mul_cancel₀ _ (by exact_mod_cast hK)]
    exact_mod_cast Py.round_intCast ((Finset.univ.filter fun v => ms.region v = true).card : ℤ)
  refine ⟨hN, ?_⟩
  -- the Slepian functions are a complete orthonormal basis of the vertices
  have hcols : ∀ v u, ∑ q, s q v * s q u = if v = u then 1 else 0 := by
    intro v u
    have h1 : (Matrix.of fun (q : Fin K) (v : V) => s q v).submatrix id (Fintype.equivFinOfCardEq hcard.symm).symm *
        ((Matrix.of fun (q : Fin K) (v : V) => s q v).submatrix id (Fintype.equivFinOfCardEq hcard.symm).symm).transpose = 1 := by
      ext i j
      rw [Matrix.mul_apply, Matrix.one_apply, ← hs i j]
      exact (Fintype.equivFinOfCardEq hcard.symm).symm.sum_comp fun v => s i v * s j v
    have h3 := mul_eq_one_comm.1 h1
    have h2 := congrFun (congrFun h3 (Fintype.equivFinOfCardEq hcard.symm v)) (Fintype.equivFinOfCardEq hcard.symm u)
    rw [Matrix.mul_apply, Matrix.one_apply] at h2
    simpa using h2
  have hsq : e p * e p = e p := by
    have h1 : ∑ q, (∑ v with ms.region v = true, s p v * s q v) *
        (∑ v with ms.region v = true, s p v * s q v) = e p * e p := by
      simp only [hr]
      simp
    rw [← h1]
    simp only [Finset.sum_mul_sum]
    rw [Finset.sum_comm]
    have h2 : ∀ v ∈ Finset.univ.filter fun v => ms.region v = true, ∑ q, ∑ u with ms.region u = true,
        (s p v * s q v) * (s p u * s q u) =
        s p v * s p v := by
      intro v hv
      rw [Finset.sum_comm]
      have : ∀ u, ∑ q, (s p v * s q v) * (s p u * s q u) =
          s p v * s p u * if v = u then 1 else 0 := by
        intro u
        rw [← hcols v u, Finset.mul_sum]
        exact Finset.sum_congr rfl fun q _ => by ring
      simp only [this]
      rw [Finset.sum_eq_single v (fun u _ hu => by simp [Ne.symm hu]) (fun h => absurd hv h)]
      simp
    rw [Finset.sum_congr rfl h2, hr p p, if_pos rfl]
  have hS : ∑ q, e q = (Finset.univ.filter fun v => ms.region v = true).card := by
    have h1 : ∀ q, e q = ∑ v with ms.region v = true, s q v * s q v := fun q => by rw [hr q q, if_pos rfl]
    rw [Finset.sum_congr rfl fun q _ => h1 q, Finset.sum_comm]
    simp [hcols]
  rw [hN]
  rw [hS] at x y
  have h01 : e p = 0 ∨ e p = 1 := by
    rcases eq_or_ne (e p) 0 with h0 | h0
    · exact Or.inl h0
    · exact Or.inr (mul_left_cancel₀ h0 (by rw [hsq, mul_one]))
  rcases h01 with h0 | h1
  · rw [h0] at x ⊢
    rw [if_neg]
    push Not
    have : ((Finset.univ.filter fun v => ms.region v = true).card : ℝ) ≤ (p : ℕ) := by linarith
    exact_mod_cast this
  · rw [h1] at y ⊢
    rw [if_pos]
    have : ((p : ℕ) : ℝ) + 1 ≤ ((Finset.univ.filter fun v => ms.region v = true).card : ℝ) := by linarith
    have : (p : ℕ) + 1 ≤ (Finset.univ.filter fun v => ms.region v = true).card := by exact_mod_cast this
    omega

/-- two vertices, one in the region, and two basis functions that are not the vertices: the kept eigenvalue is one. -/
example : ∃ (ms : MeshT.MeshSlepian (Fin 2)) (φ : Fin 2 → Fin 2 → ℝ) (e : Fin 2 → ℝ) (S : Fin 2 → Fin 2 → ℝ),
    BuiltMesh ms φ e S 2 ∧ φ 0 0 = 3 / 5 ∧ meshShannon ms.region 2 = 1 ∧ e 0 = 1 ∧ e 1 = 0 := by
  obtain ⟨ms, e, S, hr, -, h⟩ := exists_built (V := Fin 2) ![![3 / 5, 4 / 5], ![-4 / 5, 3 / 5]]
    (by intro i j; fin_cases i <;> fin_cases j <;> simp [Fin.sum_univ_two] <;> norm_num) (fun v => decide (v = 0)) 1 (by norm_num)
  have h0 := (C130_mesh_partial ms _ e S 2 h 0).2.2 rfl
  have h1 := (C130_mesh_partial ms _ e S 2 h 1).2.2 rfl
  have hN : meshShannon ms.region 2 = 1 := by
    rw [h0.1, hr]
    simp only [decide_eq_true_eq]
    decide
  rw [hN] at h0 h1
  exact ⟨ms, _, e, S, h, by simp, hN, by simpa using h0.2, by simpa using h1.2⟩

/-- C130, violated by meshes with fewer basis functions than vertices: the number of functions kept counts vertices, and the region method
divides by an eigenvalue that is zero. -/
theorem C130_mesh_violation : ∃ (ms : MeshT.MeshSlepian (Fin 3)) (φ : Fin 1 → Fin 3 → ℝ) (e : Fin 1 → ℝ) (S : Fin 1 → Fin 1 → ℝ),
    BuiltMesh ms φ e S 1 ∧ (ms.N : ℤ) = meshShannon ms.region 1 ∧ ms.N = 1 ∧ ms.evals.getD 0 1 = 0 := by
  let φ : Fin 1 → Fin 3 → ℝ := ![![1, 0, 0]]
  let S : Fin 1 → Fin 1 → ℝ := ![![1]]
  let ms : MeshT.MeshSlepian (Fin 3) := ⟨1, List.ofFn φ, fun v => decide (v ≠ 0), 1, List.ofFn ![0],
    (List.ofFn fun p => List.ofFn (S p)).take 1⟩
  obtain ⟨we, M, hM⟩ := C05_run_exists 1 (RealMat.meshHelper 1 (RealMat.meshIntegral ms.region ms.basis)) RealMat.fillUpper 3
    (by norm_num)
  obtain ⟨-, M', h1, h2, -⟩ := C05_mesh_matrix_schedule_independent ms.region ms.basis 1 (by simp [ms]) 3 (by norm_num) we _ hM
  injection h1 with h1
  subst h1
  have hN : meshShannon ms.region 1 = 1 := by
    have hc : (Finset.univ.filter fun v => ms.region v = true).card = 2 := by simp only [ms, decide_eq_true_eq]; decide
    unfold meshShannon
    rw [hc, Fintype.card_fin]
    have h1 : ⌊(2 : ℝ) / 3⌋ = 0 := by rw [Int.floor_eq_zero_iff]; constructor <;> norm_num
    have h2 : Int.fract ((2 : ℝ) / 3) = 2 / 3 := by rw [Int.fract, h1]; norm_num
    rw [show ((2 : ℕ) : ℝ) / ((3 : ℕ) : ℝ) * ((1 : ℕ) : ℝ) = 2 / 3 by norm_num]
    unfold Py.round
    rw [h2, h1, if_neg (by norm_num), if_pos (by norm_num)]
    norm_num
  refine ⟨ms, φ, ![0], S, ⟨rfl, rfl, ?_, ⟨3, we, M, ![0], ![![1]], by norm_num, hM, ⟨?_, ?_⟩, ?_⟩, rfl, le_rfl,
    by norm_num, rfl⟩, by rw [hN]; rfl, rfl, by simp [ms]⟩
  · intro i j
    fin_cases i; fin_cases j; simp [φ, Fin.sum_univ_three]
  · have hMv : M 0 0 = 0 := by
      rw [h2 0 (by simp [ms]) 0 (by simp [ms])]
      simp [meshInner, ms, φ, Finset.sum_filter, Fin.sum_univ_three]
    intro k r
    fin_cases k; fin_cases r; simp [hMv]
  · intro k k'
    fin_cases k; fin_cases k'; simp
  · refine ⟨Equiv.refl _, ?_, ?_⟩
    · intro a b hab
      fin_cases a; fin_cases b; simp
    · simp only [cleanMesh, Prod.mk.injEq]
      constructor
      · funext p; fin_cases p; simp
      · funext p c; fin_cases p; fin_cases c; simp [S]

end Sleplet.Props
