import Verif.Model.EigenvalueFigure
import Verif.Props.ConcentrationGrid
import Verif.Props.ConcentrationLatLon
import Verif.Props.ConcentrationPolar
import Verif.Props.MeshTransform

/-! C98: the figures of eigenvalues mark the number of well concentrated functions. -/
namespace Sleplet.Props

open Sleplet.EigenFigure Sleplet.Spec Sleplet.Eigen Sleplet.LatLon Sleplet.Integration Sleplet.Gaunt Sleplet.RealMat

theorem ceil_logb (n : ℕ) (hn : n ≠ 0) : ⌈Real.logb 2 n + 1⌉.toNat = Nat.clog 2 n + 1 := by
  have h : ⌈Real.logb 2 (n : ℝ)⌉ = (Nat.clog 2 n : ℤ) := by
    have := Real.ceil_logb_natCast (b := 2) (r := (n : ℝ)) (by positivity)
    rw [show ((2 : ℕ) : ℝ) = 2 by norm_num] at this
    rw [this, Int.clog_natCast]
  rw [Int.ceil_add_one, h]
  omega

theorem ticks_ok {n : ℕ} (hn : n ≠ 0) :
    ticks n = .ok ((List.range (Nat.clog 2 n + 1)).map fun k => (2 ^ k, 2 ^ k)) := by
  unfold ticks arange
  rw [if_neg hn, ceil_logb n hn]
  dsimp only
  rw [List.zip_map']

theorem pow_lt_double_iff {n k : ℕ} (hn : n ≠ 0) : 2 ^ k < 2 * n ↔ k < Nat.clog 2 n + 1 := by
  rcases k with _ | k
  · simp; omega
  · rw [pow_succ, mul_comm, Nat.mul_lt_mul_left (by norm_num), ← Nat.lt_clog_iff_pow_lt (by norm_num)]
    omega

theorem points_spec (e : List ℝ) (p : ℕ) (x : ℕ × ℝ) : ((List.range e.length).zip e)[p]? = some x ↔ x.1 = p ∧ e[p]? = some x.2 := by
  obtain ⟨a, b⟩ := x
  rw [List.getElem?_zip_eq_some]
  constructor
  · rintro ⟨h1, h2⟩
    have := (List.getElem?_eq_some_iff.1 h1)
    obtain ⟨h3, h4⟩ := this
    rw [List.getElem_range] at h4
    exact ⟨h4.symm, h2⟩
  · rintro ⟨h1, h2⟩
    dsimp only at h1 h2
    subst h1
    obtain ⟨h3, -⟩ := List.getElem?_eq_some_iff.1 h2
    exact ⟨by rw [List.getElem?_range h3], h2⟩

/-- C98. What the figures draw: the point `(p, μ_p)` for every rank, a line at `N` with its number, and ticks at, and labelled with, the
powers of two up to the first that is not below the number of ranks, in order.  Eigenvalues of another number raise `ValueError`. -/
theorem C98_figure (n : ℕ) (e : List ℝ) (N : ℤ) :
    (e.length ≠ n → figure n e N = .error .valueError) ∧
    (n ≠ 0 → e.length = n → ∃ F, figure n e N = .ok F ∧ meshFigure n e N = .ok F ∧
      F.points.length = n ∧ (∀ (p : ℕ) (x : ℕ × ℝ), F.points[p]? = some x ↔ x.1 = p ∧ e[p]? = some x.2) ∧
      F.line = N ∧ F.text = "N=" ++ toString N ∧
      (∀ t, t ∈ F.ticks ↔ t.1 = t.2 ∧ ∃ k, t.2 = 2 ^ k ∧ t.2 < 2 * n) ∧ F.ticks.Pairwise fun s t => s.1 < t.1) ∧
    ∀ regions : List (List ℝ × ℤ), n ≠ 0 → (∀ r ∈ regions, r.1.length = n) → ∃ Fs, combined n regions = .ok Fs ∧
      List.Forall₂ (fun r F => figure n r.1 r.2 = .ok F) regions Fs := by
  refine ⟨fun h => if_pos h, fun hn he => ?_, fun regions hn h => ?_⟩
  · subst he
    refine ⟨_, by unfold figure; rw [if_neg (by simp), ticks_ok hn]; rfl, by unfold meshFigure; rw [ticks_ok hn]; rfl, by simp,
      points_spec e, rfl, rfl, ?_, ?_⟩
    · rintro ⟨a, b⟩
      simp only [List.mem_map, List.mem_range, Prod.mk.injEq]
      constructor
      · rintro ⟨k, h1, rfl, rfl⟩
        exact ⟨rfl, k, rfl, (pow_lt_double_iff hn).2 h1⟩
      · rintro ⟨rfl, k, rfl, h⟩
        exact ⟨k, (pow_lt_double_iff hn).1 h, rfl, rfl⟩
    · rw [List.pairwise_map]
      exact List.pairwise_lt_range.imp fun h => Nat.pow_lt_pow_right (by norm_num) h
  · unfold combined
    induction regions with
    | nil => exact ⟨[], rfl, List.Forall₂.nil⟩
    | cons r rs ih =>
      obtain ⟨Fs, h1, h2⟩ := ih fun r hr => h r (List.mem_cons_of_mem _ hr)
      have hr : ∃ F, figure n r.1 r.2 = .ok F := by
        unfold figure
        rw [if_neg (by simp [h r List.mem_cons_self]), ticks_ok hn]
        exact ⟨_, rfl⟩
      obtain ⟨F, hF⟩ := hr
      exact ⟨F :: Fs, by rw [List.mapM_cons, hF, h1]; rfl, List.Forall₂.cons hF h2⟩

example : ∃ F, figure 4 [1, 1 / 2, 1 / 4, 0] 2 = .ok F ∧ F.ticks = [(1, 1), (2, 2), (4, 4)] ∧ F.text = "N=2" := by
  refine ⟨_, by unfold figure; rw [if_neg (by simp), ticks_ok (by norm_num)]; rfl, ?_, by decide +kernel⟩
  rw [show Nat.clog 2 4 = 2 by decide]
  rfl

theorem abs_round_sub {x y : ℝ} (h : x = y) : |(Py.round x : ℝ) - y| ≤ 1 / 2 := by
  subst h
  have h1 := Py.round_le_add_half x
  have h2 := Py.sub_half_le_round x
  rw [abs_le]; constructor <;> linarith

theorem sum_getD (e : List ℝ) : ∑ p ∈ Finset.range e.length, e.getD p 0 = e.sum := by
  induction e with
  | nil => simp
  | cons x xs ih =>
    rw [List.length_cons, Finset.sum_range_succ', List.sum_cons, ← ih, add_comm]
    simp

theorem figure_ok {n : ℕ} {e : List ℝ} (hn : n ≠ 0) (he : e.length = n) (N : ℤ) :
    ∃ F, figure n e N = .ok F ∧ F.points.map Prod.snd = e ∧ F.line = N := by
  refine ⟨_, by unfold figure; rw [if_neg (by simp [he]), ticks_ok hn]; rfl, ?_, rfl⟩
  simp [he, List.map_snd_zip]

/-- C98, polar caps.  Whatever the solver and the schedules do, the figure exists, its points never rise, and its line is at a distance of at
most ½ from the sum of all the ordinates. -/
theorem C98_polar_partial (L : ℕ) (hL : 1 ≤ L) (t : ℝ) (ht0 : 0 ≤ t) (htpi : t ≤ Real.pi)
    (plm : List ℝ) (hlen : plm.length = (2 * L) ^ 2) (hplm : ∀ n < 2 * L, plm.getD (elm2ind n 0) 0 = (sphHarm n 0 t 0).re)
    (M : ℤ → ℕ → ℕ → ℝ) (hM : ∀ m : ℤ, m.natAbs < L → ∃ ncpu we, 1 ≤ ncpu ∧ CreatesOrder L false plm m ncpu we (.ok (M m)))
    (sol : ℤ → OrderSolution) (hsol : ∀ m : ℤ, m.natAbs < L → IsEighOrder (L - m.natAbs) (M m) (sol m))
    (r : Except Err (List ℝ × List (List ℂ) × List ℤ)) (h : SolvesAll L sol r) (area : ℝ) :
    ∃ e v o F, r = .ok (e, v, o) ∧ figure (L ^ 2) e ((Region.Slepian.polarCap L t false).shannon area) = .ok F ∧
      (F.points.map Prod.snd).Pairwise (· ≥ ·) ∧ |(F.line : ℝ) - (F.points.map Prod.snd).sum| ≤ 1 / 2 := by
  obtain ⟨e, v, o, rfl, he, -, -, -, -, -, hs, hp⟩ := C50_polar_energy_ratio L false t ht0 htpi plm hlen hplm M hM sol hsol r h
  obtain ⟨F, h1, hF, h4⟩ := figure_ok (n := L ^ 2) (by positivity) he ((Region.Slepian.polarCap L t false).shannon area)
  refine ⟨e, v, o, F, rfl, h1, hF ▸ hp, ?_⟩
  rw [hF, h4, ← sum_getD, he, hs]
  refine abs_round_sub ?_
  simp only [Region.Slepian.area, Region.Slepian.L, Bool.false_eq_true, if_false]
  ring

example : ∃ (plm : List ℝ) (M : ℤ → ℕ → ℕ → ℝ) (sol : ℤ → OrderSolution) (r : Except Err (List ℝ × List (List ℂ) × List ℤ)),
    plm.length = (2 * 8) ^ 2 ∧ (∀ n < 2 * 8, plm.getD (elm2ind n 0) 0 = (sphHarm n 0 1 0).re) ∧
    (∀ m : ℤ, m.natAbs < 8 → ∃ ncpu we, 1 ≤ ncpu ∧ CreatesOrder 8 false plm m ncpu we (.ok (M m))) ∧
    (∀ m : ℤ, m.natAbs < 8 → IsEighOrder (8 - m.natAbs) (M m) (sol m)) ∧ SolvesAll 8 sol r := C50_polar_runs_exist 8 false 1

/-- C98, violated for polar gaps: the line is at half the sum of the ordinates. -/
theorem C98_gap_violation (L : ℕ) (hL : 1 ≤ L) (t : ℝ) (ht0 : 0 ≤ t) (htpi : t ≤ Real.pi)
    (plm : List ℝ) (hlen : plm.length = (2 * L) ^ 2) (hplm : ∀ n < 2 * L, plm.getD (elm2ind n 0) 0 = (sphHarm n 0 t 0).re)
    (M : ℤ → ℕ → ℕ → ℝ) (hM : ∀ m : ℤ, m.natAbs < L → ∃ ncpu we, 1 ≤ ncpu ∧ CreatesOrder L true plm m ncpu we (.ok (M m)))
    (sol : ℤ → OrderSolution) (hsol : ∀ m : ℤ, m.natAbs < L → IsEighOrder (L - m.natAbs) (M m) (sol m))
    (r : Except Err (List ℝ × List (List ℂ) × List ℤ)) (h : SolvesAll L sol r) (area : ℝ) :
    ∃ e v o F, r = .ok (e, v, o) ∧ figure (L ^ 2) e ((Region.Slepian.polarCap L t true).shannon area) = .ok F ∧
      |(F.line : ℝ) - (F.points.map Prod.snd).sum / 2| ≤ 1 / 2 ∧ (F.points.map Prod.snd).sum = (L : ℝ) ^ 2 * (1 - Real.cos t) ∧
      (2 < (F.points.map Prod.snd).sum → 1 / 2 < |(F.line : ℝ) - (F.points.map Prod.snd).sum|) := by
  have hpi := Real.pi_pos
  obtain ⟨e, v, o, rfl, he, -, -, -, -, -, hs, hp⟩ := C50_polar_energy_ratio L true t ht0 htpi plm hlen hplm M hM sol hsol r h
  obtain ⟨F, h1, hF, h4⟩ := figure_ok (n := L ^ 2) (by positivity) he ((Region.Slepian.polarCap L t true).shannon area)
  have hsum : (F.points.map Prod.snd).sum = (L : ℝ) ^ 2 * (1 - Real.cos t) := by
    rw [hF, ← sum_getD, he, hs]
    simp only [if_true]
    field_simp
    ring
  have hline : |(F.line : ℝ) - (F.points.map Prod.snd).sum / 2| ≤ 1 / 2 := by
    rw [hsum, h4]
    refine abs_round_sub ?_
    simp only [Region.Slepian.area, Region.Slepian.L]
    field_simp
    ring
  refine ⟨e, v, o, F, rfl, h1, hline, hsum, fun h2 => ?_⟩
  rw [abs_le] at hline
  rw [lt_abs]
  right
  linarith [hline.2]

/-- the two hemispheres at bandlimit 2: runs exist, the ordinates sum to 4, and the line is more than ½ away from it. -/
example : ∃ (e : List ℝ) (F : EigenFigure.Figure),
    figure (2 ^ 2) e ((Region.Slepian.polarCap 2 (Real.pi / 2) true).shannon 0) = .ok F ∧ (F.points.map Prod.snd).sum = 4 ∧
      1 / 2 < |(F.line : ℝ) - (F.points.map Prod.snd).sum| := by
  have hpi := Real.pi_pos
  obtain ⟨plm, M, sol, r, h1, h2, h3, h4, h5⟩ := C50_polar_runs_exist 2 true (Real.pi / 2)
  obtain ⟨e, v, o, F, -, hF, -, hs, hd⟩ := C98_gap_violation 2 (by norm_num) _ (by positivity) (by linarith) plm h1 h2 M h3 sol h4 r h5 0
  rw [Real.cos_pi_div_two] at hs
  have hs' : (F.points.map Prod.snd).sum = 4 := by rw [hs]; norm_num
  exact ⟨e, F, hF, hs', hd (by rw [hs']; norm_num)⟩

/-- C98, limited latitude and longitude. -/
theorem C98_lat_lon (L : ℕ) (n : ℕ) (hn : n + 1 = L ^ 2) (B : Bounds) (dl : Table) (hdl : IsWigner L dl)
    (hB0 : B.tmin ∈ Set.Icc 0 Real.pi) (hB1 : B.tmax ∈ Set.Icc 0 Real.pi) (we : ℕ → Option Err)
    (K : Mat) (h : CreatesK L B dl we (.ok K)) (w : Fin (n + 1) → ℂ) (V : Fin (n + 1) → Fin (n + 1) → ℂ)
    (hD : IsEigh (fun r c : Fin (n + 1) => K r c) w V)
    (e : Fin (n + 1) → ℝ) (S : Fin (n + 1) → Fin (n + 1) → ℂ) (hS : CleansLatLon w V e S) (area : ℝ) :
    ∃ F, figure (L ^ 2) (List.ofFn e) ((Region.Slepian.limitLatLon L B.tmin B.tmax B.pmin B.pmax).shannon area) = .ok F ∧
      (F.points.map Prod.snd).Pairwise (· ≥ ·) ∧ |(F.line : ℝ) - (F.points.map Prod.snd).sum| ≤ 1 / 2 := by
  obtain ⟨-, -, -, hs, -⟩ := C50_lat_lon_energy_ratio L n hn B dl hdl hB0 hB1 we K h w V hD e S hS
  obtain ⟨F, h1, hF, h4⟩ := figure_ok (n := L ^ 2) (e := List.ofFn e) (by omega) (by simpa using hn)
    ((Region.Slepian.limitLatLon L B.tmin B.tmax B.pmin B.pmax).shannon area)
  refine ⟨F, h1, ?_, ?_⟩
  · rw [hF, List.pairwise_ofFn]
    exact fun i j hij => (C17_lat_lon_sorted_and_paired w V e S hS).1 hij.le
  · rw [hF, h4, List.sum_ofFn, hs]
    refine abs_round_sub ?_
    simp only [Region.Slepian.area, Region.Slepian.L]
    ring

/-- C98, masks. -/
theorem C98_arbitrary (L n : ℕ) (hn : n + 1 = L ^ 2) (m : Grid (2 * L) → Bool) (P : Arb.Params (Grid (2 * L)))
    (hP : OnGrid L m P) (ncpu : ℕ) (hpos : 1 ≤ ncpu) (we : ℕ → Option Err) (M : ℕ → ℕ → ℂ) (h : Arb.CreatesD P ncpu we (.ok M))
    (w : Fin (n + 1) → ℂ) (V : Fin (n + 1) → Fin (n + 1) → ℂ) (hD : IsEigh (fun r c : Fin (n + 1) => M r c) w V)
    (e : Fin (n + 1) → ℝ) (S : Fin (n + 1) → Fin (n + 1) → ℂ) (hS : CleansArbitrary w V e S) (name : String) :
    ∃ F, figure (L ^ 2) (List.ofFn e) ((Region.Slepian.arbitrary L name).shannon (maskArea L m)) = .ok F ∧
      (F.points.map Prod.snd).Pairwise (· ≥ ·) ∧ |(F.line : ℝ) - (F.points.map Prod.snd).sum| ≤ 1 / 2 := by
  obtain ⟨-, -, hs, -⟩ := C50_arbitrary_bounded_partial L n hn m P hP ncpu hpos we M h w V hD e S hS
  obtain ⟨F, h1, hF, h4⟩ := figure_ok (n := L ^ 2) (e := List.ofFn e) (by omega) (by simpa using hn)
    ((Region.Slepian.arbitrary L name).shannon (maskArea L m))
  refine ⟨F, h1, ?_, ?_⟩
  · rw [hF, List.pairwise_ofFn]
    exact fun i j hij => (C17_arbitrary_sorted_and_paired w V e S hS).1 hij.le
  · rw [hF, h4, List.sum_ofFn]
    exact hs name

/-- C98, meshes, the part that holds: the points never rise, and with as many basis functions as vertices the line is at the sum of the
ordinates, the number of vertices in the region. -/
theorem C98_mesh_partial {V : Type} [Fintype V] [Nonempty V] {K : ℕ} (hK : K ≠ 0) (ms : MeshT.MeshSlepian V) (φ : Fin K → V → ℝ)
    (e : Fin K → ℝ) (S : Fin K → Fin K → ℝ) (rows : ℕ) (h : BuiltMesh ms φ e S rows) :
    ∃ F, meshFigure K ms.evals (meshShannon ms.region K) = .ok F ∧ (F.points.map Prod.snd).Pairwise (· ≥ ·) ∧
      (K = Fintype.card V → (F.line : ℝ) = (F.points.map Prod.snd).sum ∧
        F.line = (Finset.univ.filter fun v => ms.region v = true).card) := by
  classical
  obtain ⟨-, -, -, hanti, htr⟩ := C50_mesh_energy_ratio ms φ e S rows h
  have hfig : ∃ F, meshFigure K ms.evals (meshShannon ms.region K) = .ok F ∧ F.points.map Prod.snd = ms.evals ∧
      F.line = meshShannon ms.region K := by
    refine ⟨_, by unfold meshFigure; rw [ticks_ok hK]; rfl, ?_, rfl⟩
    simp [List.map_snd_zip]
  obtain ⟨F, h1, hF, h4⟩ := hfig
  refine ⟨F, h1, ?_, fun hcard => ?_⟩
  · rw [hF, h.evals, List.pairwise_ofFn]
    exact fun i j hij => hanti hij.le
  · have hN : meshShannon ms.region K = (Finset.univ.filter fun v => ms.region v = true).card := by
      unfold meshShannon
      rw [← hcard, div_mul_cancel₀ _ (by exact_mod_cast hK)]
      exact_mod_cast Py.round_intCast ((Finset.univ.filter fun v => ms.region v = true).card : ℤ)
    have hcols : ∀ v, ∑ i, φ i v ^ 2 = 1 := by
      intro v
      have h1 : (Matrix.of φ).submatrix id (Fintype.equivFinOfCardEq hcard.symm).symm *
          ((Matrix.of φ).submatrix id (Fintype.equivFinOfCardEq hcard.symm).symm).transpose = 1 := by
        ext i j
        rw [Matrix.mul_apply, Matrix.one_apply, ← h.orth i j]
        exact (Fintype.equivFinOfCardEq hcard.symm).symm.sum_comp fun v => φ i v * φ j v
      have h3 := mul_eq_one_comm.1 h1
      have h2 := congrFun (congrFun h3 (Fintype.equivFinOfCardEq hcard.symm v)) (Fintype.equivFinOfCardEq hcard.symm v)
      rw [Matrix.mul_apply, Matrix.one_apply_eq] at h2
      simpa [pow_two] using h2
    rw [hF, h4, h.evals, List.sum_ofFn, htr, Finset.sum_comm]
    simp only [hcols]
    rw [hN]
    simp

/-- C98, meshes: orthonormality of the basis functions alone does not put the line near the sum of the ordinates, since it counts vertices
where the eigenvalues weigh them by the squares of the basis functions. -/
theorem C98_mesh_basis_dependent : ∃ (ms : MeshT.MeshSlepian (Fin 2)) (φ : Fin 1 → Fin 2 → ℝ) (e : Fin 1 → ℝ) (S : Fin 1 → Fin 1 → ℝ),
    BuiltMesh ms φ e S 0 ∧ ∃ F, meshFigure 1 ms.evals (meshShannon ms.region 1) = .ok F ∧ F.line = 0 ∧ (F.points.map Prod.snd).sum = 1 := by
  let φ : Fin 1 → Fin 2 → ℝ := ![![1, 0]]
  let S : Fin 1 → Fin 1 → ℝ := ![![1]]
  let ms : MeshT.MeshSlepian (Fin 2) := ⟨1, List.ofFn φ, fun v => decide (v = 0), 0, List.ofFn ![1],
    (List.ofFn fun p => List.ofFn (S p)).take 0⟩
  obtain ⟨we, M, hM⟩ := C05_run_exists 1 (RealMat.meshHelper 1 (RealMat.meshIntegral ms.region ms.basis)) RealMat.fillUpper 3
    (by norm_num)
  obtain ⟨-, M', h1, h2, -⟩ := C05_mesh_matrix_schedule_independent ms.region ms.basis 1 (by simp [ms]) 3 (by norm_num) we _ hM
  injection h1 with h1
  subst h1
  have hN : meshShannon ms.region 1 = 0 := by
    have hc : (Finset.univ.filter fun v => ms.region v = true).card = 1 := by simp only [ms, decide_eq_true_eq]; decide
    unfold meshShannon
    rw [hc, Fintype.card_fin]
    have h1 : ⌊(1 : ℝ) / 2⌋ = 0 := by rw [Int.floor_eq_zero_iff]; constructor <;> norm_num
    have h2 : Int.fract ((1 : ℝ) / 2) = 1 / 2 := by rw [Int.fract, h1]; norm_num
    rw [show ((1 : ℕ) : ℝ) / ((2 : ℕ) : ℝ) * ((1 : ℕ) : ℝ) = 1 / 2 by norm_num]
    unfold Py.round
    rw [h2, h1, if_neg (lt_irrefl _), if_neg (lt_irrefl _), if_pos Even.zero]
  refine ⟨ms, φ, ![1], S, ⟨rfl, rfl, ?_, ⟨3, we, M, ![1], ![![1]], by norm_num, hM, ⟨?_, ?_⟩, ?_⟩, rfl, le_rfl,
    by norm_num, rfl⟩, ?_⟩
  · intro i j
    fin_cases i; fin_cases j; simp [φ]
  · have hMv : M 0 0 = 1 := by
      rw [h2 0 (by simp [ms]) 0 (by simp [ms])]
      simp [meshInner, ms, φ, Finset.sum_filter]
    intro k r
    fin_cases k; fin_cases r; simp [hMv]
  · intro k k'
    fin_cases k; fin_cases k'; simp
  · refine ⟨Equiv.refl _, ?_, ?_⟩
    · intro a b hab
      fin_cases a; fin_cases b; simp
    · simp only [cleanMesh, Prod.mk.injEq]
      constructor
      · funext p; fin_cases p; simp
      · funext p c; fin_cases p; fin_cases c; simp [S]
  · refine ⟨_, by unfold meshFigure; rw [ticks_ok (by norm_num)]; rfl, hN, ?_⟩
    simp [ms]

/-- C98. Without ranks there is no figure. -/
theorem C98_empty (e : List ℝ) (N : ℤ) : figure 0 e N = .error .valueError := by
  by_cases h : e.length = 0
  · simp [figure, h, ticks, bind, Except.bind]
  · exact if_pos h

example : figure 0 [] 3 = .error .valueError := C98_empty [] 3

end Sleplet.Props
