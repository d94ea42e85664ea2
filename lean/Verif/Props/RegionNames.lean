import Verif.Lemmas.Names
import Verif.Props.Region

/-!
C12: the cache file names.
-/
namespace Sleplet.Props

open Real Sleplet.Region Sleplet.Names

/-- an eigenproblem whose region is given by whole degrees or by the name of a mask that does not look like the name
of an angular region. -/
inductive WholeDegrees : Slepian → Prop
  | polarCap (L : ℕ) (n : ℤ) (gap : Bool) : 0 < n → n < 180 → WholeDegrees (.polarCap L (Py.deg2rad n) gap)
  | limitLatLon (L : ℕ) (tn tm pn pm : ℤ) : 0 ≤ tn → tn ≤ 180 → 0 ≤ tm → tm ≤ 180 → 0 ≤ pn → pn ≤ 360 → 0 ≤ pm → pm ≤ 360 →
      (pn ≠ 0 ∨ pm ≠ 360 ∨ tn ≠ 0) →
      WholeDegrees (.limitLatLon L (Py.deg2rad tn) (Py.deg2rad tm) (Py.deg2rad pn) (Py.deg2rad pm))
  | arbitrary (L : ℕ) (m : String) : m ≠ "" → ¬ "polar".toList <+: m.toList → ¬ "theta".toList <+: m.toList →
      WholeDegrees (.arbitrary L m)

/-- the part of the name that describes the region. -/
noncomputable def ending (s : Slepian) (r : Obj) : String := match s with | .arbitrary _ m => m | _ => r.nameEnding

theorem angleAsDegree_deg2rad (n : ℤ) : angleAsDegree (Py.deg2rad n) = n := by
  unfold angleAsDegree
  rw [Py.rad2deg_deg2rad, Py.round_intCast]

theorem deg2rad_eq (n : ℤ) : Py.deg2rad n = n * π / 180 := by simp [Py.deg2rad]

theorem ending_polarCap {L : ℕ} {n : ℤ} {gap : Bool} (h0 : 0 < n) (h1 : n < 180) {r : Obj}
    (h : (Slepian.polarCap L (Py.deg2rad n) gap).createRegion = .ok r) :
    ending (.polarCap L (Py.deg2rad n) gap) r = "polar" ++ (if gap then "_gap" else "") ++ toString n := by
  have hpi := pi_pos
  obtain ⟨-, -, hid⟩ := mk_ok_args h
  have hp : OnlyThetaMax { gap := gap, thetaMax := Py.deg2rad n } := by
    refine ⟨rfl, rfl, rfl, ?_⟩
    show Py.deg2rad n ≠ π
    rw [deg2rad_eq]
    intro h
    have : (n : ℝ) = 180 := by
      field_simp at h
      linarith
    have : n = 180 := by exact_mod_cast this
    omega
  unfold identify at hid
  rw [if_pos ((isPolarCap_iff _).2 hp)] at hid
  simp only [Except.ok.injEq, Prod.mk.injEq] at hid
  show r.nameEnding = _
  rw [← hid.2, angleAsDegree_deg2rad]

theorem ending_limitLatLon {L : ℕ} {tn tm pn pm : ℤ} (hne : pn ≠ 0 ∨ pm ≠ 360 ∨ tn ≠ 0) {r : Obj}
    (h : (Slepian.limitLatLon L (Py.deg2rad tn) (Py.deg2rad tm) (Py.deg2rad pn) (Py.deg2rad pm)).createRegion = .ok r) :
    ending (.limitLatLon L (Py.deg2rad tn) (Py.deg2rad tm) (Py.deg2rad pn) (Py.deg2rad pm)) r =
      "theta" ++ toString tn ++ "-" ++ toString tm ++ "_phi" ++ toString pn ++ "-" ++ toString pm := by
  have hpi := pi_pos
  obtain ⟨-, -, hid⟩ := mk_ok_args h
  have ho : OtherAngle { thetaMin := Py.deg2rad tn, thetaMax := Py.deg2rad tm, phiMin := Py.deg2rad pn, phiMax := Py.deg2rad pm } := by
    rcases hne with h | h | h
    · refine Or.inl ?_
      show Py.deg2rad pn ≠ 0
      rw [deg2rad_eq]
      simpa [hpi.ne'] using h
    · refine Or.inr (Or.inl ?_)
      show Py.deg2rad pm ≠ 2 * π
      rw [deg2rad_eq]
      intro h'
      have : (pm : ℝ) = 360 := by
        field_simp at h'
        linarith
      exact h (by exact_mod_cast this)
    · refine Or.inr (Or.inr ?_)
      show Py.deg2rad tn ≠ 0
      rw [deg2rad_eq]
      simpa [hpi.ne'] using h
  have hp : ¬ OnlyThetaMax { thetaMin := Py.deg2rad tn, thetaMax := Py.deg2rad tm, phiMin := Py.deg2rad pn, phiMax := Py.deg2rad pm } := by
    rintro ⟨h2, h3, h4, -⟩
    rcases ho with h1 | h1 | h1 <;> contradiction
  unfold identify at hid
  rw [if_neg (fun h => hp ((isPolarCap_iff _).1 h)), if_pos ((isLimitedLatLon_iff _).2 ho)] at hid
  simp only [Except.ok.injEq, Prod.mk.injEq] at hid
  show r.nameEnding = _
  rw [← hid.2]
  simp only [angleAsDegree_deg2rad]

/-- the location determines the description of the region, the bandlimit and the Shannon number, whatever the mask is
called. -/
theorem C12_location_parses (x x' : String) (L L' : ℕ) (n n' : ℤ)
    (h : "slepian_eigensolutions_D_" ++ x ++ "_L" ++ toString L ++ "_N" ++ toString n =
      "slepian_eigensolutions_D_" ++ x' ++ "_L" ++ toString L' ++ "_N" ++ toString n') : x = x' ∧ L = L' ∧ n = n' := by
  have h1 := congrArg String.toList h
  simp only [String.toList_append, List.append_assoc] at h1
  have h1 := List.append_cancel_left h1
  have e : ∀ (y : String) (k : ℕ) (i : ℤ),
      y.toList ++ ("_L".toList ++ ((toString k).toList ++ ("_N".toList ++ (toString i).toList))) =
      (y.toList ++ "_L".toList ++ (toString k).toList ++ ['_']) ++ 'N' :: (toString i).toList := by
    intro y k i
    have : "_N".toList = ['_', 'N'] := by decide
    simp [this]
  rw [e, e] at h1
  obtain ⟨h2, h3⟩ := split_last (not_mem_int (by decide) (by decide)) (not_mem_int (by decide) (by decide)) h1
  have h2 := List.append_cancel_right h2
  have e' : ∀ (y : String) (k : ℕ), y.toList ++ "_L".toList ++ (toString k).toList =
      (y.toList ++ ['_']) ++ 'L' :: (toString k).toList := by
    intro y k
    have : "_L".toList = ['_', 'L'] := by decide
    simp [this]
  rw [e', e'] at h2
  obtain ⟨h4, h5⟩ := split_last (not_mem_nat (by decide)) (not_mem_nat (by decide)) h2
  exact ⟨String.toList_injective (List.append_cancel_right h4), nat_inj h5, int_inj h3⟩

theorem polar_ending_inj {n n' : ℤ} {g g' : Bool}
    (h : "polar" ++ (if g then "_gap" else "") ++ toString n = "polar" ++ (if g' then "_gap" else "") ++ toString n') :
    g = g' ∧ n = n' := by
  have h1 := congrArg String.toList h
  simp only [String.toList_append, List.append_assoc] at h1
  have h1 := List.append_cancel_left h1
  cases g <;> cases g'
  · simp only [Bool.false_eq_true, if_false] at h1
    exact ⟨rfl, int_inj (List.append_cancel_left h1)⟩
  · exfalso
    have : '_' ∈ (toString n).toList := by
      have e : "_gap".toList = ['_', 'g', 'a', 'p'] := by decide
      simp only [Bool.false_eq_true, if_false, if_true, e] at h1
      have h1 : (toString n).toList = _ := h1
      rw [h1]
      simp
    exact not_mem_int (by decide) (by decide) this
  · exfalso
    have : '_' ∈ (toString n').toList := by
      have e : "_gap".toList = ['_', 'g', 'a', 'p'] := by decide
      simp only [Bool.false_eq_true, if_false, if_true, e] at h1
      have h1 : _ = (toString n').toList := h1
      rw [← h1]
      simp
    exact not_mem_int (by decide) (by decide) this
  · exact ⟨rfl, int_inj (List.append_cancel_left h1)⟩

theorem latLon_ending_inj {tn tm pn pm tn' tm' pn' pm' : ℤ} (h1 : 0 ≤ tn) (h3 : 0 ≤ pn)
    (h1' : 0 ≤ tn') (h3' : 0 ≤ pn')
    (h : "theta" ++ toString tn ++ "-" ++ toString tm ++ "_phi" ++ toString pn ++ "-" ++ toString pm =
      "theta" ++ toString tn' ++ "-" ++ toString tm' ++ "_phi" ++ toString pn' ++ "-" ++ toString pm') :
    tn = tn' ∧ tm = tm' ∧ pn = pn' ∧ pm = pm' := by
  have h := congrArg String.toList h
  have e1 : "-".toList = ['-'] := by decide
  have e2 : "_phi".toList = ['_', 'p', 'h', 'i'] := by decide
  simp only [String.toList_append, List.append_assoc] at h
  have h := List.append_cancel_left h
  rw [e1, e2] at h
  simp only [List.cons_append, List.nil_append] at h
  obtain ⟨a1, h⟩ := split_first (not_mem_int_of_nonneg h1 (by decide)) (not_mem_int_of_nonneg h1' (by decide)) h
  obtain ⟨a2, h⟩ := split_first (not_mem_int (by decide) (by decide)) (not_mem_int (by decide) (by decide)) h
  simp only [List.cons.injEq, true_and] at h
  obtain ⟨a3, a4⟩ := split_first (not_mem_int_of_nonneg h3 (by decide)) (not_mem_int_of_nonneg h3' (by decide)) h
  exact ⟨int_inj a1, int_inj a2, int_inj a3, int_inj a4⟩

/-- C12. Two eigenproblems whose angles are whole degrees, or whose masks are not named like angular regions (all the
masks of the package are such), have the same location in the cache only if they are the same problem. -/
theorem C12_locations_identify (area area' : ℝ) (s s' : Slepian) (r r' : Obj) (hs : WholeDegrees s) (hs' : WholeDegrees s')
    (hr : s.createRegion = .ok r) (hr' : s'.createRegion = .ok r')
    (h : matrixLocation area s r = matrixLocation area' s' r') : s = s' ∧ s.shannon area = s'.shannon area' := by
  have h' : "slepian_eigensolutions_D_" ++ ending s r ++ "_L" ++ toString s.L ++ "_N" ++ toString (s.shannon area) =
      "slepian_eigensolutions_D_" ++ ending s' r' ++ "_L" ++ toString s'.L ++ "_N" ++ toString (s'.shannon area') := h
  obtain ⟨hx, hL, hN⟩ := C12_location_parses _ _ _ _ _ _ h'
  refine ⟨?_, hN⟩
  have pt : ∀ x y : String, "polar" ++ x ≠ "theta" ++ y := by
    intro x y h
    have := congrArg String.toList h
    have e1 : "polar".toList = ['p', 'o', 'l', 'a', 'r'] := by decide
    have e2 : "theta".toList = ['t', 'h', 'e', 't', 'a'] := by decide
    simp [String.toList_append, e1, e2] at this
  have pre : ∀ (p x m : String), p ++ x = m → p.toList <+: m.toList := by
    intro p x m h
    exact ⟨x.toList, by rw [← String.toList_append, h]⟩
  cases hs with
  | polarCap L n gap h0 h1 =>
    rw [ending_polarCap h0 h1 hr] at hx
    cases hs' with
    | polarCap L' n' gap' h0' h1' =>
      rw [ending_polarCap h0' h1' hr'] at hx
      obtain ⟨rfl, rfl⟩ := polar_ending_inj hx
      have hL : L = L' := hL
      rw [hL]
    | limitLatLon L' tn tm pn pm _ _ _ _ _ _ _ _ hne =>
      rw [ending_limitLatLon hne hr'] at hx
      simp only [String.append_assoc] at hx
      exact absurd hx (pt _ _)
    | arbitrary L' m hm h2 h3 =>
      have hx : "polar" ++ (if gap then "_gap" else "") ++ toString n = m := hx
      rw [String.append_assoc] at hx
      exact absurd (pre _ _ _ hx) h2
  | limitLatLon L tn tm pn pm b1 _ b2 _ b3 _ b4 _ hne =>
    rw [ending_limitLatLon hne hr] at hx
    cases hs' with
    | polarCap L' n' gap' h0' h1' =>
      rw [ending_polarCap h0' h1' hr'] at hx
      simp only [String.append_assoc] at hx
      exact absurd hx.symm (pt _ _)
    | limitLatLon L' tn' tm' pn' pm' b1' _ b2' _ b3' _ b4' _ hne' =>
      rw [ending_limitLatLon hne' hr'] at hx
      obtain ⟨rfl, rfl, rfl, rfl⟩ := latLon_ending_inj b1 b3 b1' b3' hx
      have hL : L = L' := hL
      rw [hL]
    | arbitrary L' m hm h2 h3 =>
      have hx : "theta" ++ toString tn ++ "-" ++ toString tm ++ "_phi" ++ toString pn ++ "-" ++ toString pm = m := hx
      simp only [String.append_assoc] at hx
      exact absurd (pre _ _ _ hx) h3
  | arbitrary L m hm h2 h3 =>
    cases hs' with
    | polarCap L' n' gap' h0' h1' =>
      rw [ending_polarCap h0' h1' hr'] at hx
      have hx : m = "polar" ++ (if gap' then "_gap" else "") ++ toString n' := hx
      rw [String.append_assoc] at hx
      exact absurd (pre _ _ _ hx.symm) h2
    | limitLatLon L' tn tm pn pm _ _ _ _ _ _ _ _ hne =>
      rw [ending_limitLatLon hne hr'] at hx
      have hx : m = "theta" ++ toString tn ++ "-" ++ toString tm ++ "_phi" ++ toString pn ++ "-" ++ toString pm := hx
      simp only [String.append_assoc] at hx
      exact absurd (pre _ _ _ hx.symm) h3
    | arbitrary L' m' hm' h2' h3' =>
      have hx : m = m' := hx
      have hL : L = L' := hL
      rw [hx, hL]

/-- every problem of the theorem's domain has a region, so the theorem is about all of them; and both masks of the
package are in it. -/
theorem wholeDegrees_region {s : Slepian} (hs : WholeDegrees s) : ∃ r, s.createRegion = .ok r := by
  have hpi := pi_pos
  have e1 : ∀ n : ℤ, 0 ≤ n → 0 ≤ Py.deg2rad n := by
    intro n hn
    rw [deg2rad_eq]
    have : (0 : ℝ) ≤ n := by exact_mod_cast hn
    positivity
  have e2 : ∀ n : ℤ, n ≤ 360 → Py.deg2rad n ≤ 2 * π := by
    intro n hn
    rw [deg2rad_eq]
    have : (n : ℝ) ≤ 360 := by exact_mod_cast hn
    nlinarith
  have e3 : ∀ n : ℤ, n ≤ 180 → Py.deg2rad n ≤ π := by
    intro n hn
    rw [deg2rad_eq]
    have : (n : ℝ) ≤ 180 := by exact_mod_cast hn
    nlinarith
  cases hs with
  | polarCap L n gap h0 h1 =>
    obtain ⟨r, h, -⟩ := ((C09_classification { gap := gap, thetaMax := Py.deg2rad n }).2
      ⟨⟨by simp; positivity, le_rfl⟩, ⟨le_rfl, by simp; positivity⟩, ⟨e1 n h0.le, e3 n h1.le⟩, le_rfl, hpi.le⟩).1
      ⟨rfl, rfl, rfl, by
        show Py.deg2rad n ≠ π
        rw [deg2rad_eq]
        intro h
        have : (n : ℝ) = 180 := by
          field_simp at h
          linarith
        have : n = 180 := by exact_mod_cast this
        omega⟩
    exact ⟨r, h⟩
  | limitLatLon L tn tm pn pm b1 c1 b2 c2 b3 c3 b4 c4 hne =>
    obtain ⟨r, h, -⟩ := ((C09_classification { thetaMin := Py.deg2rad tn, thetaMax := Py.deg2rad tm, phiMin := Py.deg2rad pn, phiMax := Py.deg2rad pm }).2
      ⟨⟨e1 _ b4, e2 _ c4⟩, ⟨e1 _ b3, e2 _ c3⟩, ⟨e1 _ b2, e3 _ c2⟩, e1 _ b1, e3 _ c1⟩).2.1 (by
        rcases hne with h | h | h
        · refine Or.inl ?_
          show Py.deg2rad pn ≠ 0
          rw [deg2rad_eq]
          simpa [hpi.ne'] using h
        · refine Or.inr (Or.inl ?_)
          show Py.deg2rad pm ≠ 2 * π
          rw [deg2rad_eq]
          intro h'
          have : (pm : ℝ) = 360 := by
            field_simp at h'
            linarith
          exact h (by exact_mod_cast this)
        · refine Or.inr (Or.inr ?_)
          show Py.deg2rad tn ≠ 0
          rw [deg2rad_eq]
          simpa [hpi.ne'] using h)
    exact ⟨r, h⟩
  | arbitrary L m hm h2 h3 =>
    obtain ⟨r, h, -⟩ := ((C09_classification { maskName := m }).2
      ⟨⟨by simp; positivity, le_rfl⟩, ⟨le_rfl, by simp; positivity⟩, ⟨hpi.le, le_rfl⟩, le_rfl, hpi.le⟩).2.2.1
      (fun h => h.2.2.2 rfl) (by simp [OtherAngle]) hm
    exact ⟨r, h⟩

example : WholeDegrees (.arbitrary 16 "africa") ∧ WholeDegrees (.arbitrary 16 "south_america") ∧
    WholeDegrees (.polarCap 16 (Py.deg2rad 40) true) :=
  ⟨.arbitrary _ _ (by decide) (by decide) (by decide), .arbitrary _ _ (by decide) (by decide) (by decide),
    by exact_mod_cast WholeDegrees.polarCap 16 40 true (by norm_num) (by norm_num)⟩

/-- the restriction on mask names is needed: a user's mask called "polar40" (of the area of the cap) shares its
location with the 40 degree polar cap. -/
theorem C12_mask_collision : ∃ (area : ℝ) (s s' : Slepian) (r r' : Obj), s.createRegion = .ok r ∧
    s'.createRegion = .ok r' ∧ matrixLocation area s r = matrixLocation area s' r' ∧ s ≠ s' := by
  have hpi := pi_pos
  obtain ⟨r, hr⟩ := wholeDegrees_region (WholeDegrees.polarCap 16 40 false (by norm_num) (by norm_num))
  obtain ⟨r', hr', -⟩ := ((C09_classification { maskName := "polar40" }).2
      ⟨⟨by simp; positivity, le_rfl⟩, ⟨le_rfl, by simp; positivity⟩, ⟨hpi.le, le_rfl⟩, le_rfl, hpi.le⟩).2.2.1
      (fun h => h.2.2.2 rfl) (by simp [OtherAngle]) (by decide)
  refine ⟨2 * π * (1 - cos (Py.deg2rad (40 : ℤ))), .polarCap 16 (Py.deg2rad (40 : ℤ)) false, .arbitrary 16 "polar40", r, r',
    hr, hr', ?_, by simp⟩
  have h1 := ending_polarCap (by norm_num) (by norm_num) hr
  have h2 : ending (.polarCap 16 (Py.deg2rad (40 : ℤ)) false) r = "polar40" := by
    rw [h1]; decide
  show "slepian_eigensolutions_D_" ++ ending (.polarCap 16 (Py.deg2rad (40 : ℤ)) false) r ++ _ ++ _ ++ _ ++ _ = _
  rw [h2]
  rfl

/-- the three files of a location have different names, and files of different locations have different names. -/
theorem C12_file_names (x x' : String) (i j : Fin 3)
    (h : x ++ (["_eigenvalues.npy", "_eigenvectors.npy", "_orders.npy"].get i) =
      x' ++ (["_eigenvalues.npy", "_eigenvectors.npy", "_orders.npy"].get j)) : i = j ∧ x = x' := by
  have h1 := congrArg (fun s : String => s.toList.reverse) h
  have e1 : "_eigenvalues.npy".toList.reverse = ['y','p','n','.','s','e','u','l','a','v','n','e','g','i','e','_'] := by decide
  have e2 : "_eigenvectors.npy".toList.reverse = ['y','p','n','.','s','r','o','t','c','e','v','n','e','g','i','e','_'] := by decide
  have e3 : "_orders.npy".toList.reverse = ['y','p','n','.','s','r','e','d','r','o','_'] := by decide
  simp only [String.toList_append, List.reverse_append] at h1
  match i, j with
  | 0, 0 | 1, 1 | 2, 2 =>
    refine ⟨rfl, String.toList_injective (List.reverse_injective ?_)⟩
    exact List.append_cancel_left h1
  | 0, 1 | 0, 2 | 1, 0 | 1, 2 | 2, 0 | 2, 1 =>
    exfalso
    simp [List.get] at h1

end Sleplet.Props
