import Verif.Lemmas.Leakage
import Verif.Props.KeptEigenvalues

/-!
C140: how many functions are concentrated in the region, against how many are kept.  What is neither in nor out is measured by the sum
of `λ (1 - λ)` over all eigenvalues.
-/
namespace Sleplet.Props

open Sleplet.Spec Sleplet.Eigen Sleplet.LatLon Sleplet.Integration Sleplet.Gaunt Sleplet.RealMat

/-- how many of the first `n` eigenvalues exceed one half. -/
noncomputable def concentrated (n : ℕ) (e : List ℝ) : ℕ := ((Finset.range n).filter fun p => 1 / 2 < e.getD p 0).card

/-- the parts of the energies inside and outside the region, multiplied and summed over all functions. -/
noncomputable def between (n : ℕ) (e : List ℝ) : ℝ := ∑ p ∈ Finset.range n, e.getD p 0 * (1 - e.getD p 0)

private theorem polar_facts {L : ℕ} {gap : Bool} {t : ℝ} (h0 : 0 ≤ t) (h1 : t ≤ Real.pi) (hgap : gap = true → t ≤ Real.pi / 2) {e : List ℝ}
    (he : PolarEigenvalues L gap t e) : (∀ p < L ^ 2, 0 ≤ e.getD p 0 ∧ e.getD p 0 ≤ 1) ∧ (∀ p q, p ≤ q → q < L ^ 2 → e.getD q 0 ≤ e.getD p 0) ∧
    ∑ p ∈ Finset.range (L ^ 2), e.getD p 0 = L ^ 2 / (4 * Real.pi) * ((if gap then 2 else 1) * (2 * Real.pi * (1 - Real.cos t))) := by
  obtain ⟨plm, M, sol, v, o, a, b, c, d, s⟩ := he
  obtain ⟨e', v', o', hr, hl, -, -, -, hnn, hle, hs, hd⟩ := C50_polar_energy_ratio L gap t h0 h1 plm a b M c sol d _ s
  injection hr with hr
  simp only [Prod.mk.injEq] at hr
  obtain ⟨rfl, rfl, rfl⟩ := hr
  refine ⟨fun p hp => ⟨hnn p hp, hle hgap p hp⟩, fun p q hpq hq => ?_, hs⟩
  rcases Nat.eq_or_lt_of_le hpq with rfl | hlt
  · exact le_rfl
  · have hp' : p < e.length := by omega
    have hq' : q < e.length := by omega
    have := List.pairwise_iff_getElem.1 hd p q hp' hq' hlt
    simpa [List.getD_eq_getElem?_getD, hp', hq'] using this

/-- C140, polar caps.  `N` is the number of functions kept by default: it differs from the number of functions with more than half of
their energy in the cap by at most `2 T + 1 / 2`, and what the functions kept have outside the cap and the others have inside it adds up
to at most `4 T + 1 / 2`, with the sum `T` of all `λ (1 - λ)`. -/
theorem C140_cap (L : ℕ) (t : ℝ) (h0 : 0 ≤ t) (h1 : t ≤ Real.pi) (e : List ℝ) (he : PolarEigenvalues L false t e) (area : ℝ) (N : ℕ)
    (hN : (Region.Slepian.polarCap L t false).shannon area = N) :
    N ≤ L ^ 2 ∧ |(concentrated (L ^ 2) e : ℝ) - N| ≤ 2 * between (L ^ 2) e + 1 / 2 ∧
    ∑ p ∈ Finset.range N, (1 - e.getD p 0) + ∑ p ∈ Finset.Ico N (L ^ 2), e.getD p 0 ≤ 4 * between (L ^ 2) e + 1 / 2 := by
  obtain ⟨a, b, c⟩ := polar_facts h0 h1 (by simp) he
  refine cut_near_sum a b ?_
  rw [c]
  have h2 : ((Region.Slepian.polarCap L t false).shannon area : ℝ) = N := by rw [hN]; simp
  rw [← h2]
  refine abs_round_sub ?_
  simp only [Region.Slepian.area, Region.Slepian.L, Bool.false_eq_true, if_false]
  ring

/-- C140, polar gaps.  The number of functions concentrated in the two caps is near twice the number kept, which counts one cap. -/
theorem C140_gap (L : ℕ) (t : ℝ) (h0 : 0 ≤ t) (h1 : t ≤ Real.pi / 2) (e : List ℝ) (he : PolarEigenvalues L true t e) (area : ℝ) :
    |(concentrated (L ^ 2) e : ℝ) - 2 * (Region.Slepian.polarCap L t true).shannon area| ≤ 2 * between (L ^ 2) e + 1 := by
  have hpi := Real.pi_pos
  obtain ⟨a, -, c⟩ := polar_facts h0 (by linarith) (fun _ => h1) he
  have h2 := (count_near_sum (Finset.range (L ^ 2)) (fun p => e.getD p 0) fun p hp => a p (Finset.mem_range.1 hp)).1
  have h3 : |((Region.Slepian.polarCap L t true).shannon area : ℝ) - (∑ p ∈ Finset.range (L ^ 2), e.getD p 0) / 2| ≤ 1 / 2 := by
    rw [c]
    refine abs_round_sub ?_
    simp only [Region.Slepian.area, Region.Slepian.L, if_true]
    ring
  unfold concentrated between
  have x := abs_le.1 h2
  have y := abs_le.1 h3
  rw [abs_le]
  constructor <;> linarith [x.1, x.2, y.1, y.2]

/-- C140, regions limited in latitude and longitude. -/
theorem C140_lat_lon (L : ℕ) (B : Bounds) (h0 : 0 ≤ B.tmin) (h1 : B.tmin ≤ B.tmax) (h2 : B.tmax ≤ Real.pi) (h3 : 0 ≤ B.pmin)
    (h4 : B.pmin ≤ B.pmax) (h5 : B.pmax ≤ 2 * Real.pi) (e : List ℝ) (he : LatLonEigenvalues L B e) (area : ℝ) (N : ℕ)
    (hN : (Region.Slepian.limitLatLon L B.tmin B.tmax B.pmin B.pmax).shannon area = N) :
    N ≤ L ^ 2 ∧ |(concentrated (L ^ 2) e : ℝ) - N| ≤ 2 * between (L ^ 2) e + 1 / 2 ∧
    ∑ p ∈ Finset.range N, (1 - e.getD p 0) + ∑ p ∈ Finset.Ico N (L ^ 2), e.getD p 0 ≤ 4 * between (L ^ 2) e + 1 / 2 := by
  obtain ⟨n, dl, we, K, w, V, ev, S, hn, a, b, c, d, rfl⟩ := he
  obtain ⟨-, -, -, hs, hb⟩ := C50_lat_lon_energy_ratio L n hn B dl a ⟨h0, h1.trans h2⟩ ⟨h0.trans h1, h2⟩ we K b w V c ev S d
  obtain ⟨hnn, hle⟩ := hb h1 h4
  have hg : ∀ p (hp : p < L ^ 2), (List.ofFn ev).getD p 0 = ev ⟨p, hn ▸ hp⟩ := by
    intro p hp
    have : p < n + 1 := hn ▸ hp
    simp only [List.getD_eq_getElem?_getD, List.getElem?_ofFn, this, dif_pos, Option.getD_some]
  have hsum : ∑ p ∈ Finset.range (L ^ 2), (List.ofFn ev).getD p 0 = ∑ p, ev p := by
    rw [← hn]
    have := sum_getD (List.ofFn ev)
    rw [List.length_ofFn, List.sum_ofFn] at this
    exact this
  refine cut_near_sum (fun p hp => by rw [hg p hp]; exact ⟨hnn _, (hle h3 h5 _).1⟩) (fun p q hpq hq => ?_) ?_
  · rw [hg q hq, hg p (by omega)]
    exact (C17_lat_lon_sorted_and_paired w V ev S d).1 hpq
  · rw [hsum, hs]
    have h6 : ((Region.Slepian.limitLatLon L B.tmin B.tmax B.pmin B.pmax).shannon area : ℝ) = N := by rw [hN]; simp
    rw [← h6]
    refine abs_round_sub ?_
    simp only [Region.Slepian.area, Region.Slepian.L]
    ring

/-- C140, meshes.  The number of functions concentrated in the region is near the squares of the basis functions summed over the
vertices of the region. -/
theorem C140_mesh {Vert : Type} [Fintype Vert] {K : ℕ} (ms : MeshT.MeshSlepian Vert) (φ : Fin K → Vert → ℝ) (e : Fin K → ℝ)
    (S : Fin K → Fin K → ℝ) (rows : ℕ) (h : BuiltMesh ms φ e S rows) :
    |((Finset.univ.filter fun p => 1 / 2 < e p).card : ℝ) - ∑ i, ∑ v with ms.region v = true, φ i v ^ 2| ≤ 2 * ∑ p, e p * (1 - e p) := by
  obtain ⟨-, -, h1, -, h2⟩ := C50_mesh_energy_ratio ms φ e S rows h
  rw [← h2]
  exact (count_near_sum Finset.univ e fun p _ => h1 p).1

/-- the sphere itself as a cap, a gap and a part of a belt at bandlimit 3 and 4. -/
example : (∃ e, PolarEigenvalues 3 false Real.pi e ∧ |(concentrated (3 ^ 2) e : ℝ) - 9| ≤ 2 * between (3 ^ 2) e + 1 / 2) ∧
    (∃ e, PolarEigenvalues 4 true 1 e ∧
      |(concentrated (4 ^ 2) e : ℝ) - 2 * (Region.Slepian.polarCap 4 1 true).shannon 0| ≤ 2 * between (4 ^ 2) e + 1) ∧
    ∃ e, LatLonEigenvalues 4 ⟨0, Real.pi / 2, 0, Real.pi⟩ e ∧ |(concentrated (4 ^ 2) e : ℝ) - 4| ≤ 2 * between (4 ^ 2) e + 1 / 2 := by
  have hpi := Real.pi_gt_three
  refine ⟨?_, ?_, ?_⟩
  · obtain ⟨e, he⟩ := (C111_runs_exist 3 (by norm_num)).1 false Real.pi (by linarith) le_rfl
    have hN : (Region.Slepian.polarCap 3 Real.pi false).shannon 0 = (9 : ℕ) := by
      simp only [Region.Slepian.shannon, Region.Slepian.area, Region.Slepian.L, Real.cos_pi]
      rw [show 2 * Real.pi * (1 - -1) * ((3 : ℕ) : ℝ) ^ 2 / (4 * Real.pi) = ((9 : ℤ) : ℝ) by push_cast; field_simp; norm_num]
      exact Py.round_intCast 9
    exact ⟨e, he, by exact_mod_cast (C140_cap 3 Real.pi (by linarith) le_rfl e he 0 9 hN).2.1⟩
  · obtain ⟨e, he⟩ := (C111_runs_exist 4 (by norm_num)).1 true 1 (by linarith) (by linarith)
    exact ⟨e, he, C140_gap 4 1 (by norm_num) (by linarith) e he 0⟩
  · obtain ⟨e, he⟩ := (C111_runs_exist 4 (by norm_num)).2 ⟨0, Real.pi / 2, 0, Real.pi⟩ ⟨le_rfl, by change (0 : ℝ) ≤ Real.pi; linarith⟩
      ⟨by change (0 : ℝ) ≤ Real.pi / 2; positivity, by change Real.pi / 2 ≤ Real.pi; linarith⟩
    have hN : (Region.Slepian.limitLatLon 4 0 (Real.pi / 2) 0 Real.pi).shannon 0 = (4 : ℕ) := by
      simp only [Region.Slepian.shannon, Region.Slepian.area, Region.Slepian.L, Real.cos_pi_div_two, Real.cos_zero]
      rw [show (Real.pi - 0) * (1 - 0) * ((4 : ℕ) : ℝ) ^ 2 / (4 * Real.pi) = ((4 : ℤ) : ℝ) by push_cast; field_simp; norm_num]
      exact Py.round_intCast 4
    exact ⟨e, he, by exact_mod_cast (C140_lat_lon 4 ⟨0, Real.pi / 2, 0, Real.pi⟩ le_rfl (by change (0 : ℝ) ≤ Real.pi / 2; positivity)
      (by change Real.pi / 2 ≤ Real.pi; linarith) le_rfl (by change (0 : ℝ) ≤ Real.pi; linarith) (by change Real.pi ≤ 2 * Real.pi; linarith)
      e he 0 4 hN).2.1⟩

/-- two basis functions on three vertices, one vertex in the region. -/
example : ∃ (ms : MeshT.MeshSlepian (Fin 3)) (e : Fin 2 → ℝ) (S : Fin 2 → Fin 2 → ℝ), BuiltMesh ms ![![0, 3 / 5, 4 / 5], ![1, 0, 0]] e S 2 ∧
    |((Finset.univ.filter fun p => 1 / 2 < e p).card : ℝ) - 9 / 25| ≤ 2 * ∑ p, e p * (1 - e p) := by
  have o2 : OrthonormalOnVertices (V := Fin 3) (K := 2) ![![0, 3 / 5, 4 / 5], ![1, 0, 0]] := by
    intro i j
    fin_cases i <;> fin_cases j <;> norm_num [Fin.sum_univ_succ]
  obtain ⟨ms, e, S, r, -, b⟩ := exists_built _ o2 (fun v => v == 1) 1 (by norm_num)
  have := C140_mesh ms _ e S 2 b
  rw [r] at this
  refine ⟨ms, e, S, b, le_of_eq_of_le ?_ this⟩
  norm_num [Finset.sum_filter, Fin.sum_univ_succ]

end Sleplet.Props
