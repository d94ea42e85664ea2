import Mathlib.Analysis.SpecialFunctions.Integrals.Basic
import Mathlib.Tactic.IntervalCases
import Verif.Model.Region

/-!
C08, C09, C10, C37, C47.
-/
namespace Sleplet.Props

open Real Sleplet.Region MeasureTheory

/-- all four angles are in their ranges. -/
def AnglesInRange (a : Args) : Prop :=
  (0 ≤ a.phiMax ∧ a.phiMax ≤ 2 * π) ∧ (0 ≤ a.phiMin ∧ a.phiMin ≤ 2 * π) ∧
  (0 ≤ a.thetaMax ∧ a.thetaMax ≤ π) ∧ (0 ≤ a.thetaMin ∧ a.thetaMin ≤ π)

/-- only `theta_max` differs from its default. -/
def OnlyThetaMax (a : Args) : Prop := a.phiMin = 0 ∧ a.phiMax = 2 * π ∧ a.thetaMin = 0 ∧ a.thetaMax ≠ π

/-- one of the other three angles differs from its default. -/
def OtherAngle (a : Args) : Prop := a.phiMin ≠ 0 ∨ a.phiMax ≠ 2 * π ∨ a.thetaMin ≠ 0

theorem isPolarCap_iff (a : Args) : isPolarCap a.phiMin a.phiMax a.thetaMin a.thetaMax = true ↔ OnlyThetaMax a := by
  simp only [isPolarCap, Bool.and_eq_true, decide_eq_true_eq]
  simp [OnlyThetaMax, phiMinDefault, phiMaxDefault, thetaMinDefault, thetaMaxDefault, and_assoc]

theorem isLimitedLatLon_iff (a : Args) : isLimitedLatLon a.phiMin a.phiMax a.thetaMin a.thetaMax = true ↔ OtherAngle a := by
  have h := isPolarCap_iff a
  simp only [isLimitedLatLon, Bool.or_eq_true, Bool.and_eq_true, decide_eq_true_eq, Bool.not_eq_true', ← Bool.not_eq_true]
  rw [h]
  simp only [OnlyThetaMax, OtherAngle, phiMinDefault, phiMaxDefault, thetaMinDefault]
  tauto

theorem checkPhi_ok {v : ℝ} : checkPhi v = .ok () ↔ 0 ≤ v ∧ v ≤ 2 * π := by
  unfold checkPhi phiMinDefault phiMaxDefault
  split
  · rename_i h; simp; intro h'; linarith
  · split
    · rename_i h; simp; intro _; linarith
    · rename_i h1 h2; simp; constructor <;> linarith

theorem checkTheta_ok {v : ℝ} : checkTheta v = .ok () ↔ 0 ≤ v ∧ v ≤ π := by
  unfold checkTheta thetaMinDefault thetaMaxDefault
  split
  · rename_i h; simp; intro h'; linarith
  · split
    · rename_i h; simp; intro _; linarith
    · rename_i h1 h2; simp; constructor <;> linarith

theorem checkPhi_cases (v : ℝ) : checkPhi v = .ok () ∨ checkPhi v = .error .valueError := by
  unfold checkPhi; split <;> [simp; (split <;> simp)]

theorem checkTheta_cases (v : ℝ) : checkTheta v = .ok () ∨ checkTheta v = .error .valueError := by
  unfold checkTheta; split <;> [simp; (split <;> simp)]

theorem mk_of_range {a : Args} (h : AnglesInRange a) :
    mk a = (identify a).map fun p => ⟨a, p.2, p.1⟩ := by
  obtain ⟨h1, h2, h3, h4⟩ := h
  unfold Region.mk
  rw [checkPhi_ok.2 h1, checkPhi_ok.2 h2, checkTheta_ok.2 h3, checkTheta_ok.2 h4]
  simp only [bind, Except.bind]
  cases identify a <;> rfl

theorem mk_of_not_range {a : Args} (h : ¬ AnglesInRange a) : mk a = .error .valueError := by
  unfold Region.mk
  rcases checkPhi_cases a.phiMax with h1 | h1
  · rcases checkPhi_cases a.phiMin with h2 | h2
    · rcases checkTheta_cases a.thetaMax with h3 | h3
      · rcases checkTheta_cases a.thetaMin with h4 | h4
        · exact absurd ⟨checkPhi_ok.1 h1, checkPhi_ok.1 h2, checkTheta_ok.1 h3, checkTheta_ok.1 h4⟩ h
        · simp [h1, h2, h3, h4, bind, Except.bind]
      · simp [h1, h2, h3, bind, Except.bind]
    · simp [h1, h2, bind, Except.bind]
  · simp [h1, bind, Except.bind]

/-- C09. For every combination of arguments: out-of-range angles are rejected with `ValueError` before anything else;
otherwise the region is a polar cap exactly when only `theta_max` differs from its default, a limited
latitude/longitude region exactly when one of the other angles differs, else arbitrary exactly when a mask is named,
else `AttributeError`.  The arguments are kept. -/
theorem C09_classification (a : Args) :
    (¬ AnglesInRange a → mk a = .error .valueError) ∧
    (AnglesInRange a →
      (OnlyThetaMax a → ∃ r, mk a = .ok r ∧ r.args = a ∧ r.regionType = "polar") ∧
      (OtherAngle a → ∃ r, mk a = .ok r ∧ r.args = a ∧ r.regionType = "lim_lat_lon") ∧
      (¬ OnlyThetaMax a → ¬ OtherAngle a → a.maskName ≠ "" →
        ∃ r, mk a = .ok r ∧ r.args = a ∧ r.regionType = "arbitrary" ∧ r.nameEnding = a.maskName) ∧
      (¬ OnlyThetaMax a → ¬ OtherAngle a → a.maskName = "" → mk a = .error .attributeError)) := by
  refine ⟨mk_of_not_range, fun h => ?_⟩
  rw [mk_of_range h]
  have hexcl : OtherAngle a → ¬ OnlyThetaMax a := by
    rintro h1 ⟨h2, h3, h4, -⟩
    rcases h1 with h1 | h1 | h1 <;> contradiction
  refine ⟨fun hp => ?_, fun ho => ?_, fun h1 h2 h3 => ?_, fun h1 h2 h3 => ?_⟩
  · unfold identify
    rw [if_pos ((isPolarCap_iff a).2 hp)]
    exact ⟨_, rfl, rfl, rfl⟩
  · unfold identify
    rw [if_neg (fun h => hexcl ho ((isPolarCap_iff a).1 h)), if_pos ((isLimitedLatLon_iff a).2 ho)]
    exact ⟨_, rfl, rfl, rfl⟩
  · unfold identify
    rw [if_neg (fun h => h1 ((isPolarCap_iff a).1 h)), if_neg (fun h => h2 ((isLimitedLatLon_iff a).1 h)), if_pos h3]
    exact ⟨_, rfl, rfl, rfl, rfl⟩
  · unfold identify
    rw [if_neg (fun h => h1 ((isPolarCap_iff a).1 h)), if_neg (fun h => h2 ((isLimitedLatLon_iff a).1 h)),
      if_neg (by simp [h3])]
    rfl

/-- a polar cap of 60 degrees named although a mask name is given as well. -/
example : ∃ r, mk { maskName := "africa", thetaMax := π / 3 } = .ok r ∧ r.regionType = "polar" := by
  have hpi := pi_pos
  obtain ⟨r, h1, -, h2⟩ := ((C09_classification { maskName := "africa", thetaMax := π / 3 }).2
    ⟨⟨by simp; positivity, le_rfl⟩, ⟨le_rfl, by simp; positivity⟩, ⟨by simp; positivity, by simp; linarith⟩, le_rfl, hpi.le⟩).1
    ⟨rfl, rfl, rfl, by simp; linarith⟩
  exact ⟨r, h1, h2⟩

theorem mk_ok_args {a : Args} {r : Obj} (h : mk a = .ok r) :
    AnglesInRange a ∧ r.args = a ∧ identify a = .ok (r.regionType, r.nameEnding) := by
  by_cases hr : AnglesInRange a
  · rw [mk_of_range hr] at h
    cases hi : identify a with
    | error e => rw [hi] at h; cases h
    | ok p =>
      rw [hi] at h
      simp only [Except.map, Except.ok.injEq] at h
      subst h
      exact ⟨hr, rfl, rfl⟩
  · rw [mk_of_not_range hr] at h; cases h

/-- C10. For every region that could be constructed and every bandlimit: choosing a Slepian method for it succeeds
unless it is a polar cap of size zero (`ValueError`), the class matches the region type, and the region that the new
object rebuilds has the same type, the same name ending, the same angles, the same gap flag for polar caps and the same
mask name for arbitrary regions. -/
theorem C10_choose_preserves_region (L : ℕ) (a : Args) (r : Obj) (h : mk a = .ok r) :
    (OnlyThetaMax a → a.thetaMax = 0 → choose L r = .error .valueError) ∧
    (OnlyThetaMax a → a.thetaMax ≠ 0 → ∃ r', choose L r = .ok (.polarCap L a.thetaMax a.gap, r') ∧
      r'.regionType = r.regionType ∧ r'.nameEnding = r.nameEnding ∧ r'.args = { a with maskName := "" }) ∧
    (OtherAngle a → ∃ r', choose L r = .ok (.limitLatLon L a.thetaMin a.thetaMax a.phiMin a.phiMax, r') ∧
      r'.regionType = r.regionType ∧ r'.nameEnding = r.nameEnding ∧ r'.args = { a with maskName := "", gap := false }) ∧
    (¬ OnlyThetaMax a → ¬ OtherAngle a → ∃ r', choose L r = .ok (.arbitrary L a.maskName, r') ∧
      r'.regionType = r.regionType ∧ r'.nameEnding = r.nameEnding ∧ r'.args = { a with gap := false }) := by
  obtain ⟨hr, hargs, hid⟩ := mk_ok_args h
  have hexcl : OtherAngle a → ¬ OnlyThetaMax a := by
    rintro h1 ⟨h2, h3, h4, -⟩
    rcases h1 with h1 | h1 | h1 <;> contradiction
  refine ⟨fun hp h0 => ?_, fun hp h0 => ?_, fun ho => ?_, fun h1 h2 => ?_⟩
  · unfold identify at hid
    rw [if_pos ((isPolarCap_iff a).2 hp)] at hid
    simp only [Except.ok.injEq, Prod.mk.injEq] at hid
    unfold choose
    simp [← hid.1, hargs, h0, Slepian.validate, bind, Except.bind]
  · have ha : ({ gap := a.gap, thetaMax := a.thetaMax } : Args) = { a with maskName := "" } := by
      obtain ⟨h1, h2, h3, -⟩ := hp
      cases a
      simp_all
    have hp' : OnlyThetaMax { a with maskName := "" } := hp
    have hr' : AnglesInRange { a with maskName := "" } := hr
    unfold identify at hid
    rw [if_pos ((isPolarCap_iff a).2 hp)] at hid
    simp only [Except.ok.injEq, Prod.mk.injEq] at hid
    refine ⟨⟨{ a with maskName := "" }, r.nameEnding, r.regionType⟩, ?_, rfl, rfl, rfl⟩
    unfold choose
    rw [if_pos hid.1.symm]
    simp only [bind, Except.bind, hargs, Slepian.validate, h0, if_false, Slepian.createRegion]
    rw [ha, mk_of_range hr', identify, if_pos ((isPolarCap_iff _).2 hp')]
    simp [Except.map, pure, Except.pure, ← hid.1, ← hid.2]
  · have ha : ({ thetaMin := a.thetaMin, thetaMax := a.thetaMax, phiMin := a.phiMin, phiMax := a.phiMax } : Args)
        = { a with maskName := "", gap := false } := rfl
    have ho' : OtherAngle { a with maskName := "", gap := false } := ho
    have hp' : ¬ OnlyThetaMax { a with maskName := "", gap := false } := hexcl ho
    have hr' : AnglesInRange { a with maskName := "", gap := false } := hr
    unfold identify at hid
    rw [if_neg (fun h => hexcl ho ((isPolarCap_iff a).1 h)), if_pos ((isLimitedLatLon_iff a).2 ho)] at hid
    simp only [Except.ok.injEq, Prod.mk.injEq] at hid
    refine ⟨⟨{ a with maskName := "", gap := false }, r.nameEnding, r.regionType⟩, ?_, rfl, rfl, rfl⟩
    unfold choose
    rw [if_neg (by rw [← hid.1]; decide), if_pos hid.1.symm]
    simp only [bind, Except.bind, hargs, Slepian.validate, Slepian.createRegion]
    rw [ha, mk_of_range hr', identify, if_neg (fun h => hp' ((isPolarCap_iff _).1 h)),
      if_pos ((isLimitedLatLon_iff _).2 ho')]
    simp [Except.map, pure, Except.pure, ← hid.1, ← hid.2]
  · have hm : a.maskName ≠ "" := by
      intro h0
      rw [((C09_classification a).2 hr).2.2.2 h1 h2 h0] at h
      cases h
    have ha : ({ maskName := a.maskName } : Args) = { a with gap := false } := by
      have : a.thetaMax = π := by
        by_contra h3
        exact h1 ⟨by by_contra h; exact h2 (Or.inl h), by by_contra h; exact h2 (Or.inr (Or.inl h)),
          by by_contra h; exact h2 (Or.inr (Or.inr h)), h3⟩
      unfold OtherAngle at h2
      push Not at h2
      cases a
      simp_all
    have ho' : ¬ OtherAngle { a with gap := false } := h2
    have hp' : ¬ OnlyThetaMax { a with gap := false } := h1
    have hr' : AnglesInRange { a with gap := false } := hr
    unfold identify at hid
    rw [if_neg (fun h => h1 ((isPolarCap_iff a).1 h)), if_neg (fun h => h2 ((isLimitedLatLon_iff a).1 h)), if_pos hm] at hid
    simp only [Except.ok.injEq, Prod.mk.injEq] at hid
    refine ⟨⟨{ a with gap := false }, r.nameEnding, r.regionType⟩, ?_, rfl, rfl, rfl⟩
    unfold choose
    rw [if_neg (by rw [← hid.1]; decide), if_neg (by rw [← hid.1]; decide), if_pos hid.1.symm]
    simp only [bind, Except.bind, hargs, Slepian.validate, Slepian.createRegion]
    rw [ha, mk_of_range hr', identify, if_neg (fun h => hp' ((isPolarCap_iff _).1 h)),
      if_neg (fun h => ho' ((isLimitedLatLon_iff _).1 h)), if_pos hm]
    simp [Except.map, pure, Except.pure, ← hid.1, ← hid.2]

/-- an arbitrary region is constructible, so the last case is not empty. -/
example : ∃ r, mk { maskName := "africa" } = .ok r ∧ ∃ r', choose 8 r = .ok (.arbitrary 8 "africa", r') := by
  have hpi := pi_pos
  have hr : AnglesInRange { maskName := "africa" } :=
    ⟨⟨by simp; positivity, le_rfl⟩, ⟨le_rfl, by simp; positivity⟩, ⟨hpi.le, le_rfl⟩, le_rfl, hpi.le⟩
  have h1 : ¬ OnlyThetaMax { maskName := "africa" } := by simp [OnlyThetaMax]
  have h2 : ¬ OtherAngle { maskName := "africa" } := by simp [OtherAngle]
  obtain ⟨r, h, -⟩ := ((C09_classification { maskName := "africa" }).2 hr).2.2.1 h1 h2 (by decide)
  obtain ⟨r', h', -⟩ := (C10_choose_preserves_region 8 _ r h).2.2.2 h1 h2
  exact ⟨r, h, r', h'⟩

/-- C37. Which points are in the mask of an angular region, and in a mesh region. -/
theorem C37_masks (a : Args) (r : Obj) (h : mk a = .ok r) :
    (OnlyThetaMax a → a.gap = false → ∀ theta phi, inMask r theta phi ↔ theta ≤ a.thetaMax) ∧
    (OnlyThetaMax a → a.gap = true → ∀ theta phi,
      (inMask r theta phi ↔ theta ≤ a.thetaMax ∨ π - a.thetaMax ≤ theta) ∧
      (inMask r theta phi ↔ inMask r (π - theta) phi)) ∧
    (OtherAngle a → ∀ theta phi, inMask r theta phi ↔
      theta ∈ Set.Icc a.thetaMin a.thetaMax ∧ phi ∈ Set.Icc a.phiMin a.phiMax) := by
  obtain ⟨hr, hargs, -⟩ := mk_ok_args h
  have hc := (C09_classification a).2 hr
  refine ⟨fun hp hg theta phi => ?_, fun hp hg theta phi => ?_, fun ho theta phi => ?_⟩
  · obtain ⟨r', h1, -, h3⟩ := hc.1 hp
    rw [h] at h1; injection h1 with h1; subst h1
    simp [inMask, h3, hargs, hg]
  · obtain ⟨r', h1, -, h3⟩ := hc.1 hp
    rw [h] at h1; injection h1 with h1; subst h1
    simp only [inMask, h3, hargs, hg, if_neg (show ¬ "polar" = "lim_lat_lon" by decide), true_and, ge_iff_le]
    constructor <;> (rintro (h | h) <;> [right; left] <;> linarith)
  · obtain ⟨r', h1, -, h3⟩ := hc.2.1 ho
    rw [h] at h1; injection h1 with h1; subst h1
    simp only [inMask, h3, hargs, if_true, Set.mem_Icc, ge_iff_le]
    tauto

/-- C37 on meshes. -/
theorem C37_mesh_region (b : Box) (x y z : ℝ) : createMeshRegion b x y z = true ↔
    x ∈ Set.Icc b.xmin b.xmax ∧ y ∈ Set.Icc b.ymin b.ymax ∧ z ∈ Set.Icc b.zmin b.zmax := by
  simp [createMeshRegion, Set.mem_Icc, and_assoc]

example : createMeshRegion ⟨0, 1, 0, 1, -1, 1⟩ 1 0 (1 / 2) = true := by
  rw [C37_mesh_region]; norm_num [Set.mem_Icc]

/-! ### C08 -/

open Classical in
/-- area of the part of the sphere that the mask of a region selects: `∫∫ sin θ · 1[mask] dφ dθ`. -/
noncomputable def maskedArea (r : Obj) : ℝ :=
  ∫ theta in (0)..π, ∫ phi in (0)..(2 * π), if inMask r theta phi then sin theta else 0

theorem integral_window (f : ℝ → ℝ) {a b c : ℝ} (h0 : 0 ≤ a) (hab : a ≤ b) (hbc : b ≤ c) :
    (∫ x in (0)..c, (Set.Icc a b).indicator f x) = ∫ x in a..b, f x := by
  rw [intervalIntegral.integral_of_le (h0.trans (hab.trans hbc)), intervalIntegral.integral_of_le hab,
    ← integral_Icc_eq_integral_Ioc, ← integral_Icc_eq_integral_Ioc, setIntegral_indicator measurableSet_Icc,
    Set.inter_eq_self_of_subset_right (Set.Icc_subset_Icc h0 hbc)]

/-- C08. For every region the validators accept, without the gap option and with bounds in the right order, the area
used is the surface integral of `sin θ` over the points its mask selects. -/
theorem C08_area_is_masked_area_partial (maskArea : ℝ) (L : ℕ) (a : Args) (r r' : Obj) (s : Slepian) (h : mk a = .ok r)
    (hc : choose L r = .ok (s, r')) (hang : OnlyThetaMax a ∨ OtherAngle a) (hgap : OnlyThetaMax a → a.gap = false)
    (hth : a.thetaMin ≤ a.thetaMax) (hph : a.phiMin ≤ a.phiMax) : s.area maskArea = maskedArea r := by
  classical
  obtain ⟨⟨⟨p1, p2⟩, ⟨p3, p4⟩, ⟨t1, t2⟩, ⟨t3, t4⟩⟩, hargs, -⟩ := mk_ok_args h
  have hC := C10_choose_preserves_region L a r h
  have hM := C37_masks a r h
  have hpi := pi_pos
  rcases hang with hp | ho
  · have h0 : a.thetaMax ≠ 0 := by
      intro h0
      rw [hC.1 hp h0] at hc; cases hc
    obtain ⟨r'', h1, -⟩ := hC.2.1 hp h0
    rw [hc] at h1; injection h1 with h1; rw [Prod.mk.injEq] at h1
    rw [h1.1]
    unfold maskedArea
    have : (∫ theta in (0)..π, ∫ phi in (0)..(2 * π), if inMask r theta phi then sin theta else 0)
        = ∫ theta in (0)..π, (Set.Icc 0 a.thetaMax).indicator (fun t => 2 * π * sin t) theta := by
      refine intervalIntegral.integral_congr fun t ht => ?_
      rw [Set.uIcc_of_le hpi.le] at ht
      simp only [hM.1 hp (hgap hp)]
      by_cases hh : t ≤ a.thetaMax
      · simp [hh, Set.indicator, ht.1]
      · simp [hh, Set.indicator]
    rw [this, integral_window _ le_rfl t1 t2, intervalIntegral.integral_const_mul, integral_sin]
    simp [Slepian.area]
  · obtain ⟨r'', h1, -⟩ := hC.2.2.1 ho
    rw [hc] at h1; injection h1 with h1; rw [Prod.mk.injEq] at h1
    rw [h1.1]
    unfold maskedArea
    have : (∫ theta in (0)..π, ∫ phi in (0)..(2 * π), if inMask r theta phi then sin theta else 0)
        = ∫ theta in (0)..π, (Set.Icc a.thetaMin a.thetaMax).indicator (fun t => (a.phiMax - a.phiMin) * sin t) theta := by
      refine intervalIntegral.integral_congr fun t ht => ?_
      simp only [hM.2.2 ho]
      by_cases hh : t ∈ Set.Icc a.thetaMin a.thetaMax
      · rw [Set.indicator_of_mem hh]
        have : ∀ phi, (if t ∈ Set.Icc a.thetaMin a.thetaMax ∧ phi ∈ Set.Icc a.phiMin a.phiMax then sin t else 0)
            = (Set.Icc a.phiMin a.phiMax).indicator (fun _ => sin t) phi := by
          intro phi
          simp [hh, Set.indicator]
        simp only [this]
        rw [integral_window _ p3 hph p2]
        simp
      · simp [hh, Set.indicator]
    rw [this, integral_window _ t3 hth t2, intervalIntegral.integral_const_mul, integral_sin]
    simp [Slepian.area]

/-- C08, polar gap. With the gap option the mask covers two caps: the area used is half of the masked area as long as
the caps do not overlap. -/
theorem C08_gap_area_is_half (maskArea : ℝ) (L : ℕ) (a : Args) (r r' : Obj) (s : Slepian) (h : mk a = .ok r)
    (hc : choose L r = .ok (s, r')) (hp : OnlyThetaMax a) (hgap : a.gap = true) (hhalf : a.thetaMax < π / 2) :
    2 * s.area maskArea = maskedArea r := by
  classical
  obtain ⟨⟨-, -, ⟨t1, t2⟩, -⟩, hargs, -⟩ := mk_ok_args h
  have hC := C10_choose_preserves_region L a r h
  have hM := C37_masks a r h
  have hpi := pi_pos
  have h0 : a.thetaMax ≠ 0 := by
    intro h0
    rw [hC.1 hp h0] at hc; cases hc
  obtain ⟨r'', h1, -⟩ := hC.2.1 hp h0
  rw [hc] at h1; injection h1 with h1; rw [Prod.mk.injEq] at h1
  rw [h1.1]
  unfold maskedArea
  have : (∫ theta in (0)..π, ∫ phi in (0)..(2 * π), if inMask r theta phi then sin theta else 0)
      = ∫ theta in (0)..π, ((Set.Icc 0 a.thetaMax).indicator (fun t => 2 * π * sin t) theta
        + (Set.Icc (π - a.thetaMax) π).indicator (fun t => 2 * π * sin t) theta) := by
    refine intervalIntegral.integral_congr fun t ht => ?_
    rw [Set.uIcc_of_le hpi.le] at ht
    simp only [(hM.2.1 hp hgap t _).1]
    by_cases hh : t ≤ a.thetaMax
    · have : ¬ π - a.thetaMax ≤ t := by linarith
      simp [hh, Set.indicator, ht.1, this]
    · by_cases h2 : π - a.thetaMax ≤ t
      · simp [hh, h2, Set.indicator, ht.2]
      · simp [hh, h2, Set.indicator]
  have hint : ∀ x y : ℝ, IntervalIntegrable ((Set.Icc x y).indicator fun t => 2 * π * sin t) volume 0 π := by
    intro x y
    rw [intervalIntegrable_iff_integrableOn_Icc_of_le hpi.le]
    exact ((by fun_prop : Continuous fun t => 2 * π * sin t).integrableOn_Icc).indicator measurableSet_Icc
  rw [this, intervalIntegral.integral_add (hint _ _) (hint _ _), integral_window _ le_rfl t1 t2,
    integral_window _ (by linarith) (by linarith) le_rfl, intervalIntegral.integral_const_mul,
    intervalIntegral.integral_const_mul, integral_sin, integral_sin]
  simp [Slepian.area, cos_pi_sub]
  ring

theorem polar60_gap : ∃ r, mk { gap := true, thetaMax := π / 3 } = .ok r ∧
    ∃ r', choose 8 r = .ok (.polarCap 8 (π / 3) true, r') := by
  have hpi := pi_pos
  have hp : OnlyThetaMax { gap := true, thetaMax := π / 3 } := ⟨rfl, rfl, rfl, by simp; linarith⟩
  obtain ⟨r, h1, -, h2⟩ := ((C09_classification { gap := true, thetaMax := π / 3 }).2
    ⟨⟨by simp; positivity, le_rfl⟩, ⟨le_rfl, by simp; positivity⟩, ⟨by simp; positivity, by simp; linarith⟩, le_rfl, hpi.le⟩).1
    hp
  obtain ⟨r', h3, -⟩ := (C10_choose_preserves_region 8 _ r h1).2.1 hp (by simp)
  exact ⟨r, h1, r', h3⟩

/-- C08 is violated with the gap option: a 60 degree gap region has masked area `2π` but area `π` is used. -/
theorem C08_gap_violation : ∃ (a : Args) (r r' : Obj) (s : Slepian), mk a = .ok r ∧ choose 8 r = .ok (s, r') ∧
    s.area 0 ≠ maskedArea r := by
  have hpi := pi_pos
  obtain ⟨r, h1, r', h2⟩ := polar60_gap
  refine ⟨_, r, r', _, h1, h2, ?_⟩
  rw [← C08_gap_area_is_half 0 8 _ r r' _ h1 h2 ⟨rfl, rfl, rfl, by simp; linarith⟩ rfl (by simp; linarith)]
  simp only [Slepian.area, cos_pi_div_three]
  nlinarith

/-- C08 is violated when the bounds are in the wrong order, which the validators accept: the mask is empty, but the
area used is not zero (here it is negative, and so is the Shannon number's argument). -/
theorem C08_inverted_violation : ∃ (a : Args) (r r' : Obj) (s : Slepian), mk a = .ok r ∧ choose 8 r = .ok (s, r') ∧
    maskedArea r = 0 ∧ s.area 0 = -(2 * π) := by
  have hpi := pi_pos
  set a : Args := { thetaMin := π / 2, thetaMax := 0 } with ha
  have ho : OtherAngle a := Or.inr (Or.inr (by simp [ha, hpi.ne']))
  obtain ⟨r, h1, h2, -⟩ := ((C09_classification a).2
    ⟨⟨by simp [ha]; positivity, le_rfl⟩, ⟨le_rfl, by simp [ha]; positivity⟩, ⟨le_rfl, by simp [ha]; positivity⟩,
      by simp [ha]; positivity, by simp [ha]; linarith⟩).2.1 ho
  obtain ⟨r', h3, -⟩ := (C10_choose_preserves_region 8 _ r h1).2.2.1 ho
  refine ⟨a, r, r', _, h1, h3, ?_, ?_⟩
  · unfold maskedArea
    have : ∀ theta phi, ¬ inMask r theta phi := by
      intro theta phi hm
      have := ((C37_masks a r h1).2.2 ho theta phi).1 hm
      have h5 := this.1.1
      have h6 := this.1.2
      simp only [ha] at h5 h6
      linarith
    simp [this]
  · simp [Slepian.area, ha]

/-- C08. The Shannon number is between 0 and `L²` when the bounds are in the right order. -/
theorem C08_shannon_bounds (maskArea : ℝ) (L : ℕ) (a : Args) (r r' : Obj) (s : Slepian) (h : mk a = .ok r)
    (hc : choose L r = .ok (s, r')) (hang : OnlyThetaMax a ∨ OtherAngle a)
    (hth : a.thetaMin ≤ a.thetaMax) (hph : a.phiMin ≤ a.phiMax) :
    0 ≤ s.shannon maskArea ∧ s.shannon maskArea ≤ (L : ℤ) ^ 2 := by
  obtain ⟨⟨⟨p1, p2⟩, ⟨p3, p4⟩, ⟨t1, t2⟩, ⟨t3, t4⟩⟩, hargs, -⟩ := mk_ok_args h
  have hC := C10_choose_preserves_region L a r h
  have hpi := pi_pos
  have key : s.L = L ∧ 0 ≤ s.area maskArea ∧ s.area maskArea ≤ 4 * π := by
    rcases hang with hp | ho
    · have h0 : a.thetaMax ≠ 0 := by
        intro h0
        rw [hC.1 hp h0] at hc; cases hc
      obtain ⟨r'', h1, -⟩ := hC.2.1 hp h0
      rw [hc] at h1; injection h1 with h1; rw [Prod.mk.injEq] at h1
      rw [h1.1]
      refine ⟨rfl, ?_, ?_⟩ <;> simp only [Slepian.area]
      · nlinarith [cos_le_one a.thetaMax]
      · nlinarith [neg_one_le_cos a.thetaMax]
    · obtain ⟨r'', h1, -⟩ := hC.2.2.1 ho
      rw [hc] at h1; injection h1 with h1; rw [Prod.mk.injEq] at h1
      rw [h1.1]
      have h5 := cos_le_cos_of_nonneg_of_le_pi t3 t2 hth
      have h6 := cos_le_one a.thetaMin
      have h7 := neg_one_le_cos a.thetaMax
      refine ⟨rfl, mul_nonneg (by linarith) (by linarith), ?_⟩
      calc (a.phiMax - a.phiMin) * (cos a.thetaMin - cos a.thetaMax) ≤ 2 * π * 2 :=
            mul_le_mul (by linarith) (by linarith) (by linarith) (by positivity)
        _ = 4 * π := by ring
  obtain ⟨kL, k0, k1⟩ := key
  unfold Slepian.shannon
  rw [kL]
  refine ⟨Py.round_nonneg (by positivity), ?_⟩
  have : s.area maskArea * (L : ℝ) ^ 2 / (4 * π) ≤ (((L : ℤ) ^ 2 : ℤ) : ℝ) := by
    rw [div_le_iff₀ (by positivity)]
    push_cast
    nlinarith [sq_nonneg (L : ℝ)]
  calc Py.round (s.area maskArea * (L : ℝ) ^ 2 / (4 * π)) ≤ Py.round (((L : ℤ) ^ 2 : ℤ) : ℝ) := Py.round_mono this
    _ = (L : ℤ) ^ 2 := Py.round_intCast _

private theorem round_half_sq (L : ℕ) : Py.round (2 * π * (L : ℝ) ^ 2 / (4 * π)) = ((L ^ 2 / 2 : ℕ) : ℤ) := by
  have hx : 2 * π * (L : ℝ) ^ 2 / (4 * π) = (L : ℝ) ^ 2 / 2 := by
    have := pi_ne_zero
    field_simp
    ring
  rw [hx]
  rcases Nat.even_or_odd' L with ⟨k, rfl | rfl⟩
  · have h1 : ((2 * k) ^ 2 / 2 : ℕ) = 2 * k ^ 2 := by
      rw [show (2 * k) ^ 2 = 2 * (2 * k ^ 2) by ring, Nat.mul_div_cancel_left _ (by norm_num)]
    rw [h1, show (((2 * k : ℕ) : ℝ)) ^ 2 / 2 = (((2 * k ^ 2 : ℕ) : ℤ) : ℝ) by push_cast; ring, Py.round_intCast]
  · have h1 : ((2 * k + 1) ^ 2 / 2 : ℕ) = 2 * (k ^ 2 + k) := by
      rw [show (2 * k + 1) ^ 2 = 1 + 2 * (2 * (k ^ 2 + k)) by ring, Nat.add_mul_div_left _ _ (by norm_num)]
      simp
    have hfl : ⌊(((2 * k + 1 : ℕ) : ℝ)) ^ 2 / 2⌋ = ((2 * (k ^ 2 + k) : ℕ) : ℤ) := by
      rw [Int.floor_eq_iff]
      push_cast
      constructor <;> nlinarith
    have hfr : Int.fract ((((2 * k + 1 : ℕ) : ℝ)) ^ 2 / 2) = 1 / 2 := by
      rw [Int.fract, hfl]
      push_cast
      ring
    rw [h1]
    unfold Py.round
    rw [if_neg (by rw [hfr]; norm_num), if_neg (by rw [hfr]; norm_num), hfl, if_pos]
    exact ⟨((k ^ 2 + k : ℕ) : ℤ), by push_cast; ring⟩

/-- C08. The Shannon number of half of the sphere, a polar cap of 90° or all colatitudes between two meridians 180° apart,
is half of `L²`, rounded down: two halves have all `L²` functions when `L` is even and all but one when it is odd. -/
theorem C08_hemisphere (maskArea : ℝ) (L : ℕ) (a : Args) (r r' : Obj) (s : Slepian) (h : mk a = .ok r) (hc : choose L r = .ok (s, r'))
    (hhalf : (OnlyThetaMax a ∧ a.thetaMax = π / 2) ∨ (a.phiMax = a.phiMin + π ∧ a.thetaMin = 0 ∧ a.thetaMax = π)) :
    s.shannon maskArea = ((L ^ 2 / 2 : ℕ) : ℤ) ∧ 2 * s.shannon maskArea = (L : ℤ) ^ 2 - (L : ℤ) % 2 := by
  have hC := C10_choose_preserves_region L a r h
  have hpi := pi_pos
  have key : s.L = L ∧ s.area maskArea = 2 * π := by
    rcases hhalf with ⟨hp, ht⟩ | ⟨h1, h2, h3⟩
    · obtain ⟨r'', h1, -⟩ := hC.2.1 hp (by rw [ht]; positivity)
      rw [hc] at h1; injection h1 with h1; rw [Prod.mk.injEq] at h1
      rw [h1.1]
      refine ⟨rfl, ?_⟩
      simp [Slepian.area, ht]
    · have ho : OtherAngle a := by
        by_contra hcon
        simp only [OtherAngle] at hcon
        push Not at hcon
        rw [hcon.1, hcon.2.1] at h1
        linarith
      obtain ⟨r'', h4, -⟩ := hC.2.2.1 ho
      rw [hc] at h4; injection h4 with h4; rw [Prod.mk.injEq] at h4
      rw [h4.1]
      refine ⟨rfl, ?_⟩
      simp only [Slepian.area, h1, h2, h3, cos_zero, cos_pi]
      ring
  have hN : s.shannon maskArea = ((L ^ 2 / 2 : ℕ) : ℤ) := by
    unfold Slepian.shannon
    rw [key.1, key.2]
    exact round_half_sq L
  refine ⟨hN, ?_⟩
  rw [hN]
  have h2 : (L ^ 2) % 2 = L % 2 := by rw [Nat.pow_mod]; rcases Nat.mod_two_eq_zero_or_one L with h | h <;> rw [h]
  have h3 := Nat.div_add_mod (L ^ 2) 2
  rw [h2] at h3
  have h4 : (2 * ((L ^ 2 / 2 : ℕ) : ℤ) + (L : ℤ) % 2) = (L : ℤ) ^ 2 := by exact_mod_cast h3
  linarith

/-- Non-vacuity: the polar cap of 90° at the odd bandlimit 5, with 12 functions. -/
example : ∃ (a : Args) (r r' : Obj) (s : Slepian), mk a = .ok r ∧ choose 5 r = .ok (s, r') ∧ OnlyThetaMax a ∧ a.thetaMax = π / 2 ∧
    s.shannon 0 = 12 := by
  have hpi := pi_pos
  have hp : OnlyThetaMax { thetaMax := π / 2 } := ⟨rfl, rfl, rfl, by simp only; linarith⟩
  obtain ⟨r, h1, -, h2⟩ := ((C09_classification { thetaMax := π / 2 }).2
    ⟨⟨by simp; positivity, le_rfl⟩, ⟨le_rfl, by simp; positivity⟩, ⟨by simp; positivity, by simp; linarith⟩, le_rfl, hpi.le⟩).1
    hp
  obtain ⟨r', h3, -⟩ := (C10_choose_preserves_region 5 _ r h1).2.1 hp (by simp)
  exact ⟨_, r, r', _, h1, h3, hp, rfl, (C08_hemisphere 0 5 _ r r' _ h1 h3 (Or.inl ⟨hp, rfl⟩)).1⟩

/-! ### C47 -/

/-- what is assumed of `int` and `str.lower` on the literals of `create_default_region`. -/
structure StrSpec (pyInt : String → Option ℤ) (lower : String → String) : Prop where
  i360 : pyInt "360" = some 360
  i0 : pyInt "0" = some 0
  i180 : pyInt "180" = some 180
  false_ : lower "False" ≠ "true"

/-- C47. In every environment whose four angle variables are unset or integers (`pm, pn, tm, tn` degrees), the default
region has those angles, the gap flag is on exactly when `POLAR_GAP` is set to a word whose lower case is "true", and
the mask is `SLEPIAN_MASK` or "south_america". -/
theorem C47_default_region_args (env : String → Option String) (pyInt : String → Option ℤ) (lower : String → String)
    (hs : StrSpec pyInt lower) (pm pn tm tn : ℤ)
    (h1 : pyInt ((env "PHI_MAX").getD "360") = some pm) (h2 : pyInt ((env "PHI_MIN").getD "0") = some pn)
    (h3 : pyInt ((env "THETA_MAX").getD "180") = some tm) (h4 : pyInt ((env "THETA_MIN").getD "0") = some tn) :
    ∃ a : Args, createDefaultRegion env pyInt lower = mk a ∧
      a.phiMax = pm * π / 180 ∧ a.phiMin = pn * π / 180 ∧ a.thetaMax = tm * π / 180 ∧ a.thetaMin = tn * π / 180 ∧
      (a.gap = true ↔ ∃ s, env "POLAR_GAP" = some s ∧ lower s = "true") ∧
      a.maskName = (env "SLEPIAN_MASK").getD "south_america" := by
  refine ⟨{ gap := lower ((env "POLAR_GAP").getD "False") == "true", maskName := (env "SLEPIAN_MASK").getD "south_america",
            phiMax := Py.deg2rad pm, phiMin := Py.deg2rad pn, thetaMax := Py.deg2rad tm, thetaMin := Py.deg2rad tn },
    ?_, ?_, ?_, ?_, ?_, ?_, rfl⟩
  · unfold createDefaultRegion
    simp only [h1, h2, h3, h4, bind, Except.bind]
  · simp [Py.deg2rad]
  · simp [Py.deg2rad]
  · simp [Py.deg2rad]
  · simp [Py.deg2rad]
  · cases hg : env "POLAR_GAP" with
    | none => simpa using hs.false_
    | some s => simp

/-- C47. A variable that is not an integer is refused with `ValueError`, whatever the others are. -/
theorem C47_not_an_integer (env : String → Option String) (pyInt : String → Option ℤ) (lower : String → String)
    (h : pyInt ((env "PHI_MAX").getD "360") = none ∨ pyInt ((env "PHI_MIN").getD "0") = none ∨
      pyInt ((env "THETA_MAX").getD "180") = none ∨ pyInt ((env "THETA_MIN").getD "0") = none) :
    createDefaultRegion env pyInt lower = .error .valueError := by
  unfold createDefaultRegion
  cases h1 : pyInt ((env "PHI_MAX").getD "360") <;> cases h2 : pyInt ((env "PHI_MIN").getD "0") <;>
    cases h3 : pyInt ((env "THETA_MAX").getD "180") <;> cases h4 : pyInt ((env "THETA_MIN").getD "0") <;>
    simp_all [bind, Except.bind]

/-- such an environment: an angle of half a degree. -/
example : createDefaultRegion (fun n => if n = "THETA_MAX" then some "40.5" else none)
    (fun s => if s = "40.5" then none else some 0) id = .error .valueError :=
  C47_not_an_integer _ _ _ (Or.inr (Or.inr (Or.inl (by simp))))

/-- C47. The four sentences of the property. -/
theorem C47_default_region (env : String → Option String) (pyInt : String → Option ℤ) (lower : String → String)
    (hs : StrSpec pyInt lower) :
    -- nothing set: South America
    (env "PHI_MAX" = none → env "PHI_MIN" = none → env "THETA_MAX" = none → env "THETA_MIN" = none →
      env "SLEPIAN_MASK" = none → ∃ r, createDefaultRegion env pyInt lower = .ok r ∧ r.regionType = "arbitrary" ∧
        r.nameEnding = "south_america") ∧
    -- only THETA_MAX set (to something else than 180): polar cap, whatever the mask
    (env "PHI_MAX" = none → env "PHI_MIN" = none → env "THETA_MIN" = none → ∀ (s : String) (n : ℤ),
      env "THETA_MAX" = some s → pyInt s = some n → 0 ≤ n → n < 180 →
      ∃ r, createDefaultRegion env pyInt lower = .ok r ∧ r.regionType = "polar" ∧ r.args.thetaMax = n * π / 180) ∧
    -- one of the others set to something else than its default: limited latitude/longitude, whatever the mask
    (∀ pm pn tm tn : ℤ, pyInt ((env "PHI_MAX").getD "360") = some pm → pyInt ((env "PHI_MIN").getD "0") = some pn →
      pyInt ((env "THETA_MAX").getD "180") = some tm → pyInt ((env "THETA_MIN").getD "0") = some tn →
      0 ≤ pm ∧ pm ≤ 360 → 0 ≤ pn ∧ pn ≤ 360 → 0 ≤ tm ∧ tm ≤ 180 → 0 ≤ tn ∧ tn ≤ 180 →
      (pm ≠ 360 ∨ pn ≠ 0 ∨ tn ≠ 0) →
      ∃ r, createDefaultRegion env pyInt lower = .ok r ∧ r.regionType = "lim_lat_lon") ∧
    -- an angle outside its range is refused
    (∀ pm pn tm tn : ℤ, pyInt ((env "PHI_MAX").getD "360") = some pm → pyInt ((env "PHI_MIN").getD "0") = some pn →
      pyInt ((env "THETA_MAX").getD "180") = some tm → pyInt ((env "THETA_MIN").getD "0") = some tn →
      ¬ ((0 ≤ pm ∧ pm ≤ 360) ∧ (0 ≤ pn ∧ pn ≤ 360) ∧ (0 ≤ tm ∧ tm ≤ 180) ∧ (0 ≤ tn ∧ tn ≤ 180)) →
      createDefaultRegion env pyInt lower = .error .valueError) := by
  have hpi := pi_pos
  have hR : ∀ (a : Args) (pm pn tm tn : ℤ), a.phiMax = pm * π / 180 → a.phiMin = pn * π / 180 → a.thetaMax = tm * π / 180 →
      a.thetaMin = tn * π / 180 →
      (AnglesInRange a ↔ ((0 ≤ pm ∧ pm ≤ 360) ∧ (0 ≤ pn ∧ pn ≤ 360) ∧ (0 ≤ tm ∧ tm ≤ 180) ∧ (0 ≤ tn ∧ tn ≤ 180))) := by
    intro a pm pn tm tn h1 h2 h3 h4
    have e1 : ∀ n : ℤ, 0 ≤ (n : ℝ) * π / 180 ↔ 0 ≤ n := by
      intro n
      rw [le_div_iff₀ (by norm_num), zero_mul, mul_nonneg_iff_of_pos_right hpi]
      exact_mod_cast Iff.rfl
    have e2 : ∀ n : ℤ, (n : ℝ) * π / 180 ≤ 2 * π ↔ n ≤ 360 := by
      intro n
      rw [div_le_iff₀ (by norm_num), show 2 * π * 180 = 360 * π by ring, mul_le_mul_iff_of_pos_right hpi]
      exact_mod_cast Iff.rfl
    have e3 : ∀ n : ℤ, (n : ℝ) * π / 180 ≤ π ↔ n ≤ 180 := by
      intro n
      rw [div_le_iff₀ (by norm_num), mul_comm π, mul_le_mul_iff_of_pos_right hpi]
      exact_mod_cast Iff.rfl
    unfold AnglesInRange
    rw [h1, h2, h3, h4]
    simp only [e1, e2, e3]
  refine ⟨fun h1 h2 h3 h4 h5 => ?_, fun h1 h2 h4 s n h3 hn hn0 hn1 => ?_, fun pm pn tm tn h1 h2 h3 h4 r1 r2 r3 r4 hne => ?_,
    fun pm pn tm tn h1 h2 h3 h4 hbad => ?_⟩
  · obtain ⟨a, e, a1, a2, a3, a4, -, a6⟩ := C47_default_region_args env pyInt lower hs 360 0 180 0
      (by simp [h1, hs.i360]) (by simp [h2, hs.i0]) (by simp [h3, hs.i180]) (by simp [h4, hs.i0])
    rw [h5] at a6
    obtain ⟨r, q1, -, q2, q3⟩ := ((C09_classification a).2 ((hR a _ _ _ _ a1 a2 a3 a4).2 (by norm_num))).2.2.1
      (fun h => h.2.2.2 (by rw [a3]; norm_num)) (by
        rintro (h | h | h)
        · exact h (by rw [a2]; simp)
        · exact h (by rw [a1]; push_cast; ring)
        · exact h (by rw [a4]; simp)) (by rw [a6]; decide)
    exact ⟨r, by rw [e, q1], q2, by rw [q3, a6]; rfl⟩
  · obtain ⟨a, e, a1, a2, a3, a4, -, a6⟩ := C47_default_region_args env pyInt lower hs 360 0 n 0
      (by simp [h1, hs.i360]) (by simp [h2, hs.i0]) (by simp [h3, hn]) (by simp [h4, hs.i0])
    obtain ⟨r, q1, q2, q3⟩ := ((C09_classification a).2 ((hR a _ _ _ _ a1 a2 a3 a4).2 (by omega))).1
      ⟨by rw [a2]; simp, by rw [a1]; push_cast; ring, by rw [a4]; simp, by
        rw [a3]
        intro h
        have : (n : ℝ) = 180 := by
          field_simp at h
          linarith
        have : n = 180 := by exact_mod_cast this
        omega⟩
    exact ⟨r, by rw [e, q1], q3, by rw [q2, a3]⟩
  · obtain ⟨a, e, a1, a2, a3, a4, -, a6⟩ := C47_default_region_args env pyInt lower hs pm pn tm tn h1 h2 h3 h4
    obtain ⟨r, q1, q2, q3⟩ := ((C09_classification a).2 ((hR a _ _ _ _ a1 a2 a3 a4).2 ⟨r1, r2, r3, r4⟩)).2.1 (by
      rcases hne with h | h | h
      · refine Or.inr (Or.inl ?_)
        rw [a1]
        intro h'
        have : (pm : ℝ) = 360 := by
          field_simp at h'
          linarith
        exact h (by exact_mod_cast this)
      · refine Or.inl ?_
        rw [a2]
        simpa [hpi.ne'] using h
      · refine Or.inr (Or.inr ?_)
        rw [a4]
        simpa [hpi.ne'] using h)
    exact ⟨r, by rw [e, q1], q3⟩
  · obtain ⟨a, e, a1, a2, a3, a4, -, a6⟩ := C47_default_region_args env pyInt lower hs pm pn tm tn h1 h2 h3 h4
    rw [e, mk_of_not_range (fun h => hbad ((hR a _ _ _ _ a1 a2 a3 a4).1 h))]

/-- the assumptions on `int` and `lower` can be met, and an environment with `THETA_MAX=40`. -/
example : ∃ r, createDefaultRegion (fun n => if n = "THETA_MAX" then some "40" else none)
    (fun s => if s = "360" then some 360 else if s = "180" then some 180 else if s = "40" then some 40 else
      if s = "0" then some 0 else none) id = .ok r ∧ r.regionType = "polar" := by
  obtain ⟨r, h1, h2, -⟩ := (C47_default_region (fun n => if n = "THETA_MAX" then some "40" else none)
    (fun s => if s = "360" then some 360 else if s = "180" then some 180 else if s = "40" then some 40 else
      if s = "0" then some 0 else none) id ⟨by decide, by decide, by decide, by decide⟩).2.1 (by decide) (by decide) (by decide)
    "40" 40 (by decide) (by decide) (by decide) (by decide)
  exact ⟨r, h1, h2⟩

end Sleplet.Props
