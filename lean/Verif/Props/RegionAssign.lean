import Verif.Model.RegionAssign
import Verif.Props.RegionNames

/-!
C107: assignments to the fields of a region.
-/
namespace Sleplet.Props

open Real Sleplet.Region Sleplet.RegionAssign

/-- the value lies in the range documented for its field. -/
def ValueInRange : Assignment → Prop
  | .gap _ | .maskName _ => True
  | .phiMax v | .phiMin v => v ∈ Set.Icc 0 (2 * π)
  | .thetaMax v | .thetaMin v => v ∈ Set.Icc 0 π

/-- the fields with one of them replaced. -/
def withField (a : Args) : Assignment → Args
  | .gap v => { a with gap := v }
  | .maskName v => { a with maskName := v }
  | .phiMax v => { a with phiMax := v }
  | .phiMin v => { a with phiMin := v }
  | .thetaMax v => { a with thetaMax := v }
  | .thetaMin v => { a with thetaMin := v }

/-- C107.  An assignment is accepted exactly when its value is in range; then that field has the value and the others are as before.
Otherwise it raises `ValueError` and the object is as before. -/
theorem C107_assign (r : Obj) (x : Assignment) :
    (ValueInRange x → (assign r x).1 = .ok () ∧ (assign r x).2.args = withField r.args x) ∧
    (¬ ValueInRange x → assign r x = (.error .valueError, r)) := by
  have hphi : ∀ v, v ∈ Set.Icc 0 (2 * π) ↔ checkPhi v = .ok () := fun v => checkPhi_ok.symm
  have hth : ∀ v, v ∈ Set.Icc 0 π ↔ checkTheta v = .ok () := fun v => checkTheta_ok.symm
  cases x with
  | gap v => exact ⟨fun _ => ⟨rfl, rfl⟩, fun h => absurd trivial h⟩
  | maskName v => exact ⟨fun _ => ⟨rfl, rfl⟩, fun h => absurd trivial h⟩
  | phiMax v | phiMin v =>
    simp only [ValueInRange, hphi]
    rcases checkPhi_cases v with h | h <;> simp [assign, h, withField]
  | thetaMax v | thetaMin v =>
    simp only [ValueInRange, hth]
    rcases checkTheta_cases v with h | h <;> simp [assign, h, withField]

private theorem assign_labels (r : Obj) (x : Assignment) :
    (assign r x).2.regionType = r.regionType ∧ (assign r x).2.nameEnding = r.nameEnding := by
  cases x with
  | gap v | maskName v => exact ⟨rfl, rfl⟩
  | phiMax v | phiMin v => rcases checkPhi_cases v with h | h <;> simp [assign, h]
  | thetaMax v | thetaMin v => rcases checkTheta_cases v with h | h <;> simp [assign, h]

private theorem assign_range (r : Obj) (x : Assignment) (h : AnglesInRange r.args) : AnglesInRange (assign r x).2.args := by
  by_cases hx : ValueInRange x
  · rw [((C107_assign r x).1 hx).2]
    obtain ⟨h1, h2, h3, h4⟩ := h
    cases x with
    | gap v | maskName v => exact ⟨h1, h2, h3, h4⟩
    | phiMax v => exact ⟨hx, h2, h3, h4⟩
    | phiMin v => exact ⟨h1, hx, h3, h4⟩
    | thetaMax v => exact ⟨h1, h2, hx, h4⟩
    | thetaMin v => exact ⟨h1, h2, h3, hx⟩
  · rw [(C107_assign r x).2 hx]
    exact h

open Classical in
/-- C107.  After any sequence of assignments the fields are those of the construction with the accepted values, in order, so the
angles stay in range; the type and the name ending are those found at the construction. -/
theorem C107_sequence (a : Args) (r : Obj) (h : mk a = .ok r) (xs : List Assignment) :
    (assignAll r xs).args = (xs.filter fun x => decide (ValueInRange x)).foldl withField a ∧ AnglesInRange (assignAll r xs).args ∧
    (assignAll r xs).regionType = r.regionType ∧ (assignAll r xs).nameEnding = r.nameEnding := by
  obtain ⟨hr, hargs, -⟩ := mk_ok_args h
  rw [← hargs] at hr ⊢
  clear h hargs
  induction xs generalizing r with
  | nil => exact ⟨rfl, hr, rfl, rfl⟩
  | cons x xs ih =>
    obtain ⟨i1, i2, i3, i4⟩ := ih (assign r x).2 (assign_range r x hr)
    obtain ⟨l1, l2⟩ := assign_labels r x
    refine ⟨?_, i2, i3.trans l1, i4.trans l2⟩
    rw [assignAll, i1]
    by_cases hx : ValueInRange x
    · rw [((C107_assign r x).1 hx).2, List.filter_cons_of_pos (by simpa using hx), List.foldl_cons]
    · rw [(C107_assign r x).2 hx, List.filter_cons_of_neg (by simpa using hx)]

private theorem choose_eq (L : ℕ) {r q : Obj} (h1 : r.args = q.args) (h2 : r.regionType = q.regionType) : choose L r = choose L q := by
  unfold choose
  rw [h1, h2]

/-- C107, what holds.  If the fields after the assignments describe a region of the type found at the construction, then the mask and
the Slepian method are those of a region constructed from these fields. -/
theorem C107_same_type_partial (a : Args) (r : Obj) (h : mk a = .ok r) (xs : List Assignment) (q : Obj)
    (hq : mk (assignAll r xs).args = .ok q) (htype : q.regionType = r.regionType) :
    (∀ theta phi, inMask (assignAll r xs) theta phi ↔ inMask q theta phi) ∧ ∀ L, choose L (assignAll r xs) = choose L q := by
  obtain ⟨-, -, h3, -⟩ := C107_sequence a r h xs
  obtain ⟨-, hargs, -⟩ := mk_ok_args hq
  have ht : (assignAll r xs).regionType = q.regionType := h3.trans htype.symm
  refine ⟨fun theta phi => ?_, fun L => choose_eq L hargs.symm ht⟩
  unfold inMask
  rw [ht, hargs]

/-- C107, what holds.  Whatever was assigned, the region of the Slepian functions chosen is again one whose type and name are those of
its fields. -/
theorem C107_choose_consistent (L : ℕ) (r q : Obj) (s : Slepian) (h : choose L r = .ok (s, q)) : mk q.args = .ok q := by
  have hc : s.createRegion = .ok q := by
    unfold choose at h
    simp only [bind, Except.bind] at h
    split at h
    · cases h
    · rename_i s' hs'
      split at h
      · cases h
      · split at h
        · cases h
        · rename_i q' hq'
          simp only [pure, Except.pure, Except.ok.injEq, Prod.mk.injEq] at h
          rw [← h.1, ← h.2]
          exact hq'
  have key : ∀ a : Args, Region.mk a = .ok q → Region.mk q.args = .ok q := by
    intro a ha
    obtain ⟨-, hargs, -⟩ := mk_ok_args ha
    rw [hargs]
    exact ha
  cases s with
  | polarCap L t g => exact key _ hc
  | limitLatLon L t1 t2 p1 p2 => exact key _ hc
  | arbitrary L m => exact key _ hc

private theorem cap (t : ℝ) (h0 : 0 ≤ t) (h1 : t < π) : ∃ r, mk { thetaMax := t } = .ok r ∧ r.args = { thetaMax := t } ∧
    r.regionType = "polar" ∧ r.nameEnding = "polar" ++ toString (angleAsDegree t) := by
  have hpi := pi_pos
  have hp : OnlyThetaMax { thetaMax := t } := ⟨rfl, rfl, rfl, h1.ne⟩
  obtain ⟨r, h, ha, ht⟩ := ((C09_classification { thetaMax := t }).2
    ⟨⟨by simp; positivity, le_rfl⟩, ⟨le_rfl, by simp; positivity⟩, ⟨h0, h1.le⟩, le_rfl, hpi.le⟩).1 hp
  refine ⟨r, h, ha, ht, ?_⟩
  obtain ⟨-, -, hid⟩ := mk_ok_args h
  unfold identify at hid
  rw [if_pos ((isPolarCap_iff _).2 hp)] at hid
  simp only [Except.ok.injEq, Prod.mk.injEq] at hid
  rw [← hid.2]
  rfl

private theorem assign_thetaMin (r : Obj) (v : ℝ) (h : v ∈ Set.Icc 0 π) :
    assign r (.thetaMin v) = (.ok (), { r with args := { r.args with thetaMin := v } }) := by
  simp [assign, checkTheta_ok.2 h]

private theorem assign_thetaMax (r : Obj) (v : ℝ) (h : v ∈ Set.Icc 0 π) :
    assign r (.thetaMax v) = (.ok (), { r with args := { r.args with thetaMax := v } }) := by
  simp [assign, checkTheta_ok.2 h]

/-- C107 is violated: a polar cap to whose `theta_min` a nonzero value below its `theta_max` is assigned.  The region constructed from
the same fields is the belt between the two; the object remains the cap, also in the Slepian method chosen. -/
theorem C107_type_violation (t s : ℝ) (hs : 0 < s) (hst : s < t) (ht : t < π) : ∃ r q, mk { thetaMax := t } = .ok r ∧
    (assign r (.thetaMin s)).1 = .ok () ∧ (assign r (.thetaMin s)).2.args = { thetaMin := s, thetaMax := t } ∧
    mk { thetaMin := s, thetaMax := t } = .ok q ∧
    (∀ theta phi, theta ∈ Set.Icc 0 π → phi ∈ Set.Icc 0 (2 * π) →
      (inMask q theta phi ↔ theta ∈ Set.Icc s t) ∧ (inMask (assign r (.thetaMin s)).2 theta phi ↔ theta ≤ t)) ∧
    (∃ q', choose 8 q = .ok (.limitLatLon 8 s t 0 (2 * π), q')) ∧
    ∃ q', choose 8 (assign r (.thetaMin s)).2 = .ok (.polarCap 8 t false, q') := by
  have hpi := pi_pos
  obtain ⟨r, h, ha, hty, -⟩ := cap t (by linarith) ht
  have hasg := assign_thetaMin r s ⟨hs.le, by linarith⟩
  have ho : OtherAngle { thetaMin := s, thetaMax := t } := .inr (.inr hs.ne')
  obtain ⟨q, hq, hqa, hqt⟩ := ((C09_classification { thetaMin := s, thetaMax := t }).2
    ⟨⟨by simp; positivity, le_rfl⟩, ⟨le_rfl, by simp; positivity⟩, ⟨by show (0 : ℝ) ≤ t; linarith, ht.le⟩,
      ⟨hs.le, by show s ≤ π; linarith⟩⟩).2.1 ho
  refine ⟨r, q, h, by rw [hasg], by rw [hasg, ha], hq, fun theta phi hth hph => ⟨?_, ?_⟩, ?_, ?_⟩
  · rw [(C37_masks _ q hq).2.2 ho theta phi]
    exact ⟨fun h => h.1, fun h => ⟨h, hph⟩⟩
  · rw [hasg]
    simp [inMask, hty, ha]
  · obtain ⟨q', h', -⟩ := (C10_choose_preserves_region 8 _ q hq).2.2.1 ho
    exact ⟨q', h'⟩
  · obtain ⟨q', h', -⟩ := (C10_choose_preserves_region 8 _ r h).2.1 ⟨rfl, rfl, rfl, ht.ne⟩ (by show t ≠ 0; linarith)
    refine ⟨q', ?_⟩
    rw [← h', hasg]
    unfold choose
    simp [hty, ha]

/-- C107 is violated in names: the mask after assigning `theta_max` to a polar cap is that of the new cap, the name ending, which names
files, that of the old one. -/
theorem C107_name_violation : ∃ r q, mk { thetaMax := Py.deg2rad 60 } = .ok r ∧ mk { thetaMax := Py.deg2rad 90 } = .ok q ∧
    (assign r (.thetaMax (Py.deg2rad 90))).1 = .ok () ∧ (assign r (.thetaMax (Py.deg2rad 90))).2.args = q.args ∧
    (∀ theta phi, inMask (assign r (.thetaMax (Py.deg2rad 90))).2 theta phi ↔ inMask q theta phi) ∧
    (assign r (.thetaMax (Py.deg2rad 90))).2.nameEnding = "polar60" ∧ q.nameEnding = "polar90" := by
  have hpi := pi_pos
  have e60 : angleAsDegree (Py.deg2rad 60) = 60 := by exact_mod_cast angleAsDegree_deg2rad 60
  have e90 : angleAsDegree (Py.deg2rad 90) = 90 := by exact_mod_cast angleAsDegree_deg2rad 90
  have d60 : Py.deg2rad 60 = π / 3 := by unfold Py.deg2rad; ring
  have d90 : Py.deg2rad 90 = π / 2 := by unfold Py.deg2rad; ring
  obtain ⟨r, h, ha, hty, hn⟩ := cap (Py.deg2rad 60) (by rw [d60]; positivity) (by rw [d60]; linarith)
  obtain ⟨q, hq, hqa, hqt, hqn⟩ := cap (Py.deg2rad 90) (by rw [d90]; positivity) (by rw [d90]; linarith)
  have hasg := assign_thetaMax r (Py.deg2rad 90) (by rw [d90]; constructor <;> linarith)
  refine ⟨r, q, h, hq, by rw [hasg], by rw [hasg, ha, hqa], fun theta phi => ?_, ?_, ?_⟩
  · rw [hasg]
    simp [inMask, hty, hqt, ha, hqa]
  · rw [hasg]
    show r.nameEnding = _
    rw [hn, e60]
    rfl
  · rw [hqn, e90]
    rfl

/-- C107 is violated by fields that no region can be constructed with: a polar cap to whose `theta_max` the default is assigned has every
sample in its mask, where the constructor raises `AttributeError`. -/
theorem C107_constructor_violation (t : ℝ) (h0 : 0 < t) (ht : t < π) : ∃ r, mk { thetaMax := t } = .ok r ∧
    (assign r (.thetaMax π)).1 = .ok () ∧ mk (assign r (.thetaMax π)).2.args = .error .attributeError ∧
    (∀ theta phi, theta ∈ Set.Icc 0 π → inMask (assign r (.thetaMax π)).2 theta phi) ∧
    ∀ L, choose L (assign r (.thetaMax π)).2 = .error .attributeError := by
  have hpi := pi_pos
  obtain ⟨r, h, ha, hty, -⟩ := cap t h0.le ht
  have hasg := assign_thetaMax r π ⟨hpi.le, le_rfl⟩
  have herr : mk { thetaMax := π } = .error .attributeError :=
    ((C09_classification { thetaMax := π }).2
      ⟨⟨by simp; positivity, le_rfl⟩, ⟨le_rfl, by simp; positivity⟩, ⟨hpi.le, le_rfl⟩, ⟨le_rfl, hpi.le⟩⟩).2.2.2
      (fun h => h.2.2.2 rfl) (by rintro (h | h | h) <;> exact h rfl) rfl
  refine ⟨r, h, by rw [hasg], by rw [hasg, ha]; exact herr, fun theta phi hth => ?_, fun L => ?_⟩
  · rw [hasg]
    simp [inMask, hty, hth.2]
  · rw [hasg]
    unfold choose
    simp only [hty, ha, if_true, bind, Except.bind, Slepian.validate, hpi.ne', if_false, Slepian.createRegion]
    rw [herr]

/-- the hypotheses are met: a cap of 60 degrees made larger after a rejected assignment remains of its type. -/
example : ∃ r q, mk { thetaMax := Py.deg2rad 60 } = .ok r ∧ mk (assignAll r [.phiMax (-1), .thetaMax (Py.deg2rad 90)]).args = .ok q ∧
    q.regionType = r.regionType := by
  obtain ⟨r, q, h, hq, -, hargs, -⟩ := C107_name_violation
  have hrej : assign r (.phiMax (-1)) = (.error .valueError, r) := (C107_assign r _).2 (by simp [ValueInRange])
  have hpi := pi_pos
  have d60 : Py.deg2rad 60 = π / 3 := by unfold Py.deg2rad; ring
  have d90 : Py.deg2rad 90 = π / 2 := by unfold Py.deg2rad; ring
  obtain ⟨r', h', -, ht', -⟩ := cap (Py.deg2rad 60) (by rw [d60]; positivity) (by rw [d60]; linarith)
  obtain ⟨q', hq', hqa, hqt', -⟩ := cap (Py.deg2rad 90) (by rw [d90]; positivity) (by rw [d90]; linarith)
  have e1 : r' = r := Except.ok.inj (h'.symm.trans h)
  have e2 : q' = q := Except.ok.inj (hq'.symm.trans hq)
  subst e1 e2
  refine ⟨r', q', h, ?_, by rw [hqt', ht']⟩
  rw [assignAll, hrej, assignAll, assignAll, hargs, hqa]
  exact hq

end Sleplet.Props
