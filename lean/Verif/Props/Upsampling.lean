import Mathlib.Data.Complex.BigOperators
import Verif.Props.Figure

/-!
C63: upsampling for plots, and the amplitude taken from an upsampled field.
-/
namespace Sleplet.Props

open Sleplet.Plot Real

/-- what is assumed of the external inverse transform: it evaluates the expansion in some functions `Y` of colatitude and
longitude, the same ones for every bandlimit, at the sample positions of the bandlimit. -/
def Evaluates (Y : ℕ → ℝ → ℝ → ℂ) (inverse : ℕ → List ℂ → List (List ℂ)) : Prop :=
  ∀ (L : ℕ) (c : List ℂ), 1 ≤ L → c.length = L ^ 2 →
    inverse L c = rows fun (t : Fin (L + 1)) (p : Fin (2 * L)) =>
      ∑ i ∈ Finset.range (L ^ 2), c.getD i 0 * Y i (t * π / L) (p * π / L)

/-- entry of an array given by its rows. -/
def at2 {α : Type} (f : List (List α)) (i j : ℕ) : Option α := f[i]?.bind fun r => r[j]?

theorem at2_rows {α : Type} {a b : ℕ} (F : Fin a → Fin b → α) (i j : ℕ) (hi : i < a) (hj : j < b) :
    at2 (rows F) i j = some (F ⟨i, hi⟩ ⟨j, hj⟩) := by
  simp [at2, rows, List.getElem?_ofFn, hi, hj]

/-- the upsampled field, explicitly. -/
theorem boostField_eq {Y : ℕ → ℝ → ℝ → ℂ} {forward : ℕ → List (List ℂ) → List ℂ}
    {inverse : ℕ → List ℂ → List (List ℂ)} (hY : Evaluates Y inverse) (L R : ℕ) (h : 1 ≤ L) (hR : L ≤ R) (c : List ℂ)
    (hc : c.length = L ^ 2) (hfi : forward L (inverse L c) = c) :
    boostField forward inverse (inverse L c) L R true = .ok (rows fun (t : Fin (R + 1)) (p : Fin (2 * R)) =>
      ∑ i ∈ Finset.range (L ^ 2), c.getD i 0 * Y i (t * π / R) (p * π / R)) := by
  have h0 : L ^ 2 ≤ R ^ 2 := Nat.pow_le_pow_left hR 2
  have hz : (R : ℤ) ^ 2 - (L : ℤ) ^ 2 = ((R ^ 2 - L ^ 2 : ℕ) : ℤ) := by push_cast [h0]; rfl
  simp only [boostField, Bool.not_true, Bool.false_eq_true, if_false, hfi, invertFlmBoosted, boostCoefficientResolution,
    hz, if_neg (show ¬ ((R ^ 2 - L ^ 2 : ℕ) : ℤ) < 0 by omega), bind, Except.bind, pure, Except.pure, Int.toNat_natCast]
  rw [hY R _ (by omega) (by simp [hc]; omega)]
  congr 2
  funext t p
  have hsub : Finset.range (L ^ 2) ⊆ Finset.range (R ^ 2) := Finset.range_subset_range.2 h0
  rw [← Finset.sum_subset hsub]
  · refine Finset.sum_congr rfl fun i hi => ?_
    rw [Finset.mem_range] at hi
    rw [List.getD_append _ _ _ _ (by omega)]
  · intro i hi hi'
    rw [Finset.mem_range] at hi hi'
    rw [List.getD_append_right _ _ _ _ (by omega)]
    have : (List.replicate (R ^ 2 - L ^ 2) (0 : ℂ)).getD (i - c.length) 0 = 0 := by
      rw [List.getD_eq_getElem?_getD, List.getElem?_replicate]
      split <;> rfl
    rw [this, zero_mul]

/-- C63. Upsampling for a plot never fails for a field computed from `L²` coefficients that the forward transform
recovers, and it only adds samples: the plot resolution is `k L` for some `k ≥ 1`, and sample `(k t, k p)` of the upsampled
field is sample `(t, p)` of the field. -/
theorem C63_upsampling_keeps_samples (Y : ℕ → ℝ → ℝ → ℂ) (forward : ℕ → List (List ℂ) → List ℂ)
    (inverse : ℕ → List ℂ → List (List ℂ)) (hY : Evaluates Y inverse) (L : ℕ) (h : 1 ≤ L) (c : List ℂ)
    (hc : c.length = L ^ 2) (hfi : forward L (inverse L c) = c) :
    ∃ k g, 1 ≤ k ∧ calcPlotResolution L = L * k ∧
      boostField forward inverse (inverse L c) L (calcPlotResolution L) true = .ok g ∧
      g.length = calcPlotResolution L + 1 ∧ (∀ r ∈ g, r.length = 2 * calcPlotResolution L) ∧
      ∀ t p, t ≤ L → p < 2 * L → ∃ z, at2 (inverse L c) t p = some z ∧ at2 g (k * t) (k * p) = some z := by
  obtain ⟨⟨e, -, he⟩, hle, -⟩ := C40_bounds L h
  have hk : 1 ≤ 2 ^ e := Nat.one_le_two_pow
  refine ⟨2 ^ e, _, hk, he, boostField_eq hY L _ h hle c hc hfi, ?_, ?_, ?_⟩
  · simp [rows]
  · intro r hr
    simp only [rows, List.mem_ofFn] at hr
    obtain ⟨t, rfl⟩ := hr
    simp
  · intro t p ht hp
    have h1 : 2 ^ e * t < calcPlotResolution L + 1 := by rw [he]; nlinarith
    have h2 : 2 ^ e * p < 2 * calcPlotResolution L := by
      rw [he]
      calc 2 ^ e * p < 2 ^ e * (2 * L) := by nlinarith
        _ = 2 * (L * 2 ^ e) := by ring
    refine ⟨_, ?_, at2_rows _ _ _ h1 h2⟩
    rw [hY L c h hc, at2_rows _ _ _ (by omega) hp]
    congr 1
    refine Finset.sum_congr rfl fun i _ => ?_
    have hL : (L : ℝ) ≠ 0 := by positivity
    have hk0 : ((2 ^ e : ℕ) : ℝ) ≠ 0 := by positivity
    have e1 : ((2 ^ e * t : ℕ) : ℝ) * π / (calcPlotResolution L : ℕ) = t * π / L := by
      rw [he]; push_cast; field_simp
    have e2 : ((2 ^ e * p : ℕ) : ℝ) * π / (calcPlotResolution L : ℕ) = p * π / L := by
      rw [he]; push_cast; field_simp
    simp only [e1, e2]

/-- bandlimit 1: constant fields. -/
noncomputable def constInverse : ℕ → List ℂ → List (List ℂ) := fun L c =>
  rows fun (t : Fin (L + 1)) (p : Fin (2 * L)) =>
    ∑ i ∈ Finset.range (L ^ 2), c.getD i 0 * (fun (_ : ℕ) (_ _ : ℝ) => (1 : ℂ)) i (t * π / L) (p * π / L)

example : Evaluates (fun _ _ _ => 1) constInverse ∧
    (fun (_ : ℕ) (f : List (List ℂ)) => [(f.headD []).headD 0]) 1 (constInverse 1 [5]) = [5] :=
  ⟨fun L c _ _ => rfl, by simp [constInverse, rows, List.ofFn_succ]⟩

/-- C63. The amplitude found for a function bounds the plotted part of its field at every sample of the function's own
grid, whether or not it is taken from the upsampled field, and it is attained by the (upsampled) field. -/
theorem C63_amplitude (Y : ℕ → ℝ → ℝ → ℂ) (forward : ℕ → List (List ℂ) → List ℂ)
    (inverse : ℕ → List ℂ → List (List ℂ)) (hY : Evaluates Y inverse) (L : ℕ) (h : 1 ≤ L) (c : List ℂ)
    (hc : c.length = L ^ 2) (hfi : forward L (inverse L c) = c) (plotType : String) (g : ℂ → ℝ)
    (hg : plotTypeFun plotType = .ok g) (upsample : Bool) :
    ∃ a B, findMaxAmplitude forward inverse c L plotType upsample = .ok a ∧
      boostField forward inverse (inverse L c) L (if upsample then calcPlotResolution L else L) upsample = .ok B ∧
      (∀ z ∈ B.flatten, |g z| ≤ a) ∧ (∃ z ∈ B.flatten, |g z| = a) ∧
      ∀ t p, t ≤ L → p < 2 * L → ∃ z, at2 (inverse L c) t p = some z ∧ |g z| ≤ a := by
  have mem2 : ∀ (f : List (List ℂ)) i j z, at2 f i j = some z → z ∈ f.flatten := by
    intro f i j z hz
    simp only [at2, Option.bind_eq_some_iff] at hz
    obtain ⟨r, hr, hz⟩ := hz
    exact List.mem_flatten.2 ⟨r, List.mem_of_getElem? hr, List.mem_of_getElem? hz⟩
  -- the boosted field and its relation to the original samples
  have hB : ∃ B, boostField forward inverse (inverse L c) L (if upsample then calcPlotResolution L else L) upsample = .ok B ∧
      ∀ t p, t ≤ L → p < 2 * L → ∃ z, at2 (inverse L c) t p = some z ∧ z ∈ B.flatten := by
    cases upsample
    · refine ⟨inverse L c, rfl, ?_⟩
      intro t p ht hp
      obtain ⟨z, hz⟩ : ∃ z, at2 (inverse L c) t p = some z := by
        rw [hY L c h hc]; exact ⟨_, at2_rows _ _ _ (by omega) hp⟩
      exact ⟨z, hz, mem2 _ _ _ _ hz⟩
    · obtain ⟨k, B, -, -, h1, -, -, h2⟩ := C63_upsampling_keeps_samples Y forward inverse hY L h c hc hfi
      refine ⟨B, h1, ?_⟩
      intro t p ht hp
      obtain ⟨z, z1, z2⟩ := h2 t p ht hp
      exact ⟨z, z1, mem2 _ _ _ _ z2⟩
  obtain ⟨B, hB1, hB2⟩ := hB
  have flat : (B.map fun r => r.map fun z => |g z|).flatten = B.flatten.map fun z => |g z| := by
    rw [List.map_flatten]
  have hne : (B.map fun r => r.map fun z => |g z|).flatten ≠ [] := by
    obtain ⟨z, -, hz⟩ := hB2 0 0 (by omega) (by omega)
    rw [flat]
    intro h0
    rw [List.map_eq_nil_iff] at h0
    rw [h0] at hz; simp at hz
  obtain ⟨a, a1, a2, a3⟩ := exists_amax hne
  have hall : ∀ z ∈ B.flatten, |g z| ≤ a := by
    intro z hz
    exact a3 _ (by rw [flat]; exact List.mem_map.2 ⟨z, hz, rfl⟩)
  refine ⟨a, B, ?_, hB1, hall, ?_, ?_⟩
  · simp only [findMaxAmplitude, hB1, hg, bind, Except.bind, a1]
  · rw [flat, List.mem_map] at a2
    exact a2
  · intro t p ht hp
    obtain ⟨z, z1, z2⟩ := hB2 t p ht hp
    exact ⟨z, z1, hall z z2⟩

/-- C63. Plotting a function with its own amplitude (same plot type and upsampling, no normalisation) therefore uses a
colour range that contains every colour outside masked areas. -/
theorem C63_own_amplitude_covers (forward : ℕ → List (List ℂ) → List ℂ) (inverse : ℕ → List ℂ → List (List ℂ))
    (c : List ℂ) (s : SphereSettings) (a : ℝ) (hn : s.normalise = false)
    (hamp : findMaxAmplitude forward inverse c s.L s.plotType s.upsample = .ok a) (ha : s.amplitude = some a)
    (fig : Figure) (h : executeSphere forward inverse s (inverse s.L c) = .ok (some fig)) :
    fig.cmin = -a ∧ fig.cmax = a ∧
    ∀ r ∈ fig.colours, ∀ x ∈ r, (fig.cmin ≤ x ∧ x ≤ fig.cmax) ∨ (s.mask.isSome ∧ x = sphereUnseen) := by
  obtain ⟨g, S, hp, hS, h1, h2, -⟩ := executeSphere_ok h
  obtain ⟨k1, -, k2, -⟩ := C60_sphere_range forward inverse s _ fig h
  have kmax := k2 a hn ha
  have kmin := k1 hn
  rw [kmax] at kmin
  refine ⟨kmin, kmax, ?_⟩
  -- the values of the field are bounded by the amplitude
  simp only [findMaxAmplitude] at hamp
  cases hb : boostField forward inverse (inverse s.L c) s.L (if s.upsample then calcPlotResolution s.L else s.L)
      s.upsample with
  | error e => rw [hb] at hamp; cases hamp
  | ok B =>
  cases hg : plotTypeFun s.plotType with
  | error e => rw [hb, hg] at hamp; cases hamp
  | ok q =>
  rw [hb, hg] at hamp
  simp only [bind, Except.bind] at hamp
  have hpq := prepareField_ok forward inverse s (inverse s.L c) B q hb hg hn
  rw [hp, Except.ok.injEq, Option.some.injEq] at hpq
  have bound : ∀ x ∈ g.flatten, |x| ≤ a := by
    intro x hx
    rw [hpq, ← List.map_flatten] at hx
    obtain ⟨z, hz, rfl⟩ := List.mem_map.1 hx
    refine (amax_spec hamp).2 _ ?_
    rw [show (fun r : List ℂ => r.map fun z => |q z|) = List.map (fun z => |q z|) from rfl, ← List.map_flatten]
    exact List.mem_map.2 ⟨z, hz, rfl⟩
  have hin : ∀ x ∈ S.fPlot.flatten, fig.cmin ≤ x ∧ x ≤ fig.cmax := by
    intro x hx
    obtain ⟨b1, b2⟩ := setupPlot_bounds hS
    obtain ⟨l1, l2⟩ := setupPlot_mem hS x hx
    have c1 := (abs_le.1 (bound _ b1)).1
    have c2 := (abs_le.1 (bound _ b2)).2
    rw [kmin, kmax]
    constructor <;> linarith
  intro r hr x hx
  cases hm : s.mask with
  | none =>
    rw [h1 hm] at hr
    exact Or.inl (hin x (List.mem_flatten.2 ⟨r, hr, hx⟩))
  | some mask =>
    rcases setOutsideRegion_mem (h2 mask hm) r hr x hx with e | e
    · exact Or.inr ⟨rfl, e⟩
    · exact Or.inl (hin x e)

example : ∃ a, findMaxAmplitude (fun _ _ => []) (fun _ _ => [[1, 2], [3, -4]]) [] 1 "real" false = .ok a ∧ a = 4 := by
  refine ⟨4, ?_, rfl⟩
  have e : amax [1, 2, 3, 4] = .ok 4 := amax_eq (by simp) (by simp; norm_num)
  simp only [findMaxAmplitude, boostField, plotTypeFun, bind, Except.bind]
  simpa using e

end Sleplet.Props
