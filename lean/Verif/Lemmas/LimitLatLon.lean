import Mathlib.MeasureTheory.Integral.IntervalIntegral.FundThmCalculus
import Mathlib.Analysis.SpecialFunctions.ExpDeriv
import Mathlib.Analysis.SpecialFunctions.Trigonometric.Deriv
import Mathlib.Analysis.SpecialFunctions.Integrals.Basic
import Mathlib.Tactic.LinearCombination
import Verif.Lemmas.RelyGuarantee
import Verif.Lemmas.Wigner
import Verif.Lemmas.HarmonicIndex
import Verif.Model.LimitLatLon

namespace Sleplet.LatLon

open Complex intervalIntegral

/-! ### the two one-dimensional integrals -/

/-- `∫ e^{i c θ} sin θ dθ` over the colatitudes of the region. -/
noncomputable def thetaInt (B : Bounds) (c : ℤ) : ℂ := ∫ t in B.tmin..B.tmax, exp (I * c * t) * Real.sin t

/-- `∫ e^{i r φ} dφ` over the longitudes of the region. -/
noncomputable def phiInt (B : Bounds) (r : ℤ) : ℂ := ∫ t in B.pmin..B.pmax, exp (I * r * t)

theorem hasDerivAt_exp (c : ℂ) (t : ℝ) : HasDerivAt (fun t : ℝ => exp (c * t)) (c * exp (c * t)) t := by
  have h : HasDerivAt (fun t : ℝ => c * (t : ℂ)) c t := by
    simpa using (Complex.ofRealCLM.hasDerivAt (x := t)).const_mul c
  simpa [mul_comm] using h.cexp

theorem hasDerivAt_sin (t : ℝ) : HasDerivAt (fun t : ℝ => ((Real.sin t : ℝ) : ℂ)) (Real.cos t : ℝ) t :=
  (Real.hasDerivAt_sin t).ofReal_comp

theorem hasDerivAt_cos (t : ℝ) : HasDerivAt (fun t : ℝ => ((Real.cos t : ℝ) : ℂ)) ((-Real.sin t : ℝ) : ℂ) t :=
  (Real.hasDerivAt_cos t).ofReal_comp

theorem thetaInt_of_ne (B : Bounds) (c : ℤ) (h : c ^ 2 - 1 ≠ 0) :
    thetaInt B c = ((1 / ((c ^ 2 - 1 : ℤ) : ℝ) : ℝ) : ℂ) * (exp (I * c * B.tmin) * (I * c * Real.sin B.tmin - Real.cos B.tmin)
      + exp (I * c * B.tmax) * (Real.cos B.tmax - I * c * Real.sin B.tmax)) := by
  have hc : ((c ^ 2 - 1 : ℤ) : ℂ) ≠ 0 := by exact_mod_cast h
  unfold thetaInt
  rw [integral_eq_sub_of_hasDerivAt
    (f := fun t : ℝ => (1 / ((c ^ 2 - 1 : ℤ) : ℂ)) * (exp (I * c * t) * ((Real.cos t : ℝ) - I * c * (Real.sin t : ℝ))))]
  · push_cast
    ring
  · intro t _
    have h1 := hasDerivAt_exp (I * c) t
    have h2 := (hasDerivAt_cos t).sub ((hasDerivAt_sin t).const_mul (I * (c : ℂ)))
    have h3 := (h1.mul h2).const_mul (1 / ((c ^ 2 - 1 : ℤ) : ℂ))
    refine h3.congr_deriv ?_
    simp only [Pi.sub_apply]
    field_simp
    push_cast
    linear_combination (-(c : ℂ) ^ 2 * sin t) * I_sq
  · apply Continuous.intervalIntegrable
    fun_prop

theorem thetaInt_of_eq (B : Bounds) (c : ℤ) (h : c ^ 2 - 1 = 0) :
    thetaInt B c = 0.25 * (2 * I * c * (B.tmax - B.tmin) + exp (2 * I * c * B.tmin) - exp (2 * I * c * B.tmax)) := by
  have hc : c = 1 ∨ c = -1 := by
    have : (c - 1) * (c + 1) = 0 := by linarith [h, show (c - 1) * (c + 1) = c ^ 2 - 1 by ring]
    rcases mul_eq_zero.1 this with h | h
    · left; omega
    · right; omega
  have hI : I * I = -1 := I_mul_I
  unfold thetaInt
  rw [integral_eq_sub_of_hasDerivAt
    (f := fun t : ℝ => 0.25 * (2 * I * c * (t : ℂ) - exp (2 * I * c * t)))]
  · ring
  · intro t _
    have h1 := hasDerivAt_exp (2 * I * c) t
    have h0 : HasDerivAt (fun t : ℝ => 2 * I * (c : ℂ) * (t : ℂ)) (2 * I * c) t := by
      simpa using (Complex.ofRealCLM.hasDerivAt (x := t)).const_mul (2 * I * (c : ℂ))
    refine ((h0.sub h1).const_mul 0.25).congr_deriv ?_
    push_cast
    rw [Complex.sin]
    rcases hc with rfl | rfl
    · have e1 : exp (2 * I * ((1 : ℤ) : ℂ) * t) = exp (I * ((1 : ℤ) : ℂ) * t) * exp (t * I) := by
        rw [← Complex.exp_add]; congr 1; push_cast; ring
      have e2 : exp (I * ((1 : ℤ) : ℂ) * t) * exp (-t * I) = 1 := by
        rw [← Complex.exp_add, ← Complex.exp_zero]; congr 1; push_cast; ring
      rw [e1]
      push_cast at *
      linear_combination (-I / 2) * e2
    · have e1 : exp (2 * I * ((-1 : ℤ) : ℂ) * t) = exp (I * ((-1 : ℤ) : ℂ) * t) * exp (-t * I) := by
        rw [← Complex.exp_add]; congr 1; push_cast; ring
      have e2 : exp (I * ((-1 : ℤ) : ℂ) * t) * exp (t * I) = 1 := by
        rw [← Complex.exp_add, ← Complex.exp_zero]; congr 1; push_cast; ring
      rw [e1]
      push_cast at *
      linear_combination (I / 2) * e2
  · apply Continuous.intervalIntegrable
    fun_prop

theorem qValue_eq (B : Bounds) (c : ℤ) : qValue B c = .ok (thetaInt B c) := by
  unfold qValue oneOver
  by_cases h : c ^ 2 - 1 = 0
  · rw [if_pos h, thetaInt_of_eq B c h]
  · rw [if_neg h, thetaInt_of_ne B c h]

theorem phiInt_zero (B : Bounds) : phiInt B 0 = ((B.pmax - B.pmin : ℝ) : ℂ) := by
  simp [phiInt]

theorem sValue_eq (B : Bounds) (r : ℤ) (h : r ≠ 0) : sValue B r = .ok (phiInt B r) := by
  unfold sValue
  rw [if_neg h]
  congr 1
  have hr : (r : ℂ) ≠ 0 := by exact_mod_cast h
  unfold phiInt
  rw [integral_eq_sub_of_hasDerivAt (f := fun t : ℝ => -(I / r) * exp (I * r * t))]
  · ring
  · intro t _
    refine ((hasDerivAt_exp (I * r) t).const_mul (-(I / (r : ℂ)))).congr_deriv ?_
    field_simp
    linear_combination (-1 : ℂ) * I_sq
  · apply Continuous.intervalIntegrable
    fun_prop

theorem conj_integral (f : ℝ → ℂ) (a b : ℝ) :
    (starRingEnd ℂ) (∫ t in a..b, f t) = ∫ t in a..b, (starRingEnd ℂ) (f t) := by
  unfold intervalIntegral
  rw [map_sub, ← integral_conj, ← integral_conj]

theorem conj_thetaInt (B : Bounds) (c : ℤ) : (starRingEnd ℂ) (thetaInt B c) = thetaInt B (-c) := by
  unfold thetaInt
  rw [conj_integral]
  congr 1
  funext t
  rw [map_mul, ← Complex.exp_conj, conj_ofReal]
  simp

theorem conj_phiInt (B : Bounds) (r : ℤ) : (starRingEnd ℂ) (phiInt B r) = phiInt B (-r) := by
  unfold phiInt
  rw [conj_integral]
  congr 1
  funext t
  rw [← Complex.exp_conj]
  simp

/-! ### the table of sub-integrals -/

theorem pos_ok {n : ℕ} {i : ℤ} (h0 : 0 ≤ i) (h1 : i < n) : pos n i = .ok i.toNat := by
  unfold pos; rw [if_pos ⟨h0, h1⟩]

theorem getM_ok {n : ℕ} (M : Mat) {i j : ℤ} (hi : 0 ≤ i ∧ i < n) (hj : 0 ≤ j ∧ j < n) :
    getM n M i j = .ok (M i.toNat j.toNat) := by
  simp [getM, pos_ok hi.1 hi.2, pos_ok hj.1 hj.2, bind, Except.bind, pure, Except.pure]

theorem setM_ok {n : ℕ} (M : Mat) {i j : ℤ} (v : ℂ) (hi : 0 ≤ i ∧ i < n) (hj : 0 ≤ j ∧ j < n) :
    setM n M i j v = .ok (put M i.toNat j.toNat v) := by
  simp [setM, pos_ok hi.1 hi.2, pos_ok hj.1 hj.2, bind, Except.bind, pure, Except.pure]

/-- cell of the sub-integral table for row `r` and column `c`. -/
def gAt (L : ℕ) (G : Mat) (r c : ℤ) : ℂ := G (2 * ((L : ℤ) - 1) + r).toNat (2 * ((L : ℤ) - 1) + c).toNat

/-- the cells in `P` hold the integrals. -/
def GInv (L : ℕ) (B : Bounds) (P : ℤ → ℤ → Prop) (G : Mat) : Prop :=
  ∀ r c : ℤ, |r| ≤ 2 * ((L : ℤ) - 1) → |c| ≤ 2 * ((L : ℤ) - 1) → P r c → gAt L G r c = thetaInt B c * phiInt B r

theorem helper_ok {L : ℕ} (hL : 1 ≤ L) (B : Bounds) (P : ℤ → ℤ → Prop) (G : Mat) (h : GInv L B P G) (r c : ℤ)
    (hr : |r| ≤ 2 * ((L : ℤ) - 1)) (hc : |c| ≤ 2 * ((L : ℤ) - 1)) :
    ∃ G', helper L B r (phiInt B r) G c = .ok G' ∧
      GInv L B (fun a b => P a b ∨ (a = r ∧ b = c) ∨ (a = -r ∧ b = -c)) G' := by
  rw [abs_le] at hr hc
  have i1 : 0 ≤ 2 * ((L : ℤ) - 1) + r ∧ 2 * ((L : ℤ) - 1) + r < (4 * L - 3 : ℕ) := by omega
  have j1 : 0 ≤ 2 * ((L : ℤ) - 1) + c ∧ 2 * ((L : ℤ) - 1) + c < (4 * L - 3 : ℕ) := by omega
  have i2 : 0 ≤ 2 * ((L : ℤ) - 1) - r ∧ 2 * ((L : ℤ) - 1) - r < (4 * L - 3 : ℕ) := by omega
  have j2 : 0 ≤ 2 * ((L : ℤ) - 1) - c ∧ 2 * ((L : ℤ) - 1) - c < (4 * L - 3 : ℕ) := by omega
  refine ⟨put (put G (2 * ((L : ℤ) - 1) + r).toNat (2 * ((L : ℤ) - 1) + c).toNat (thetaInt B c * phiInt B r))
    (2 * ((L : ℤ) - 1) - r).toNat (2 * ((L : ℤ) - 1) - c).toNat ((starRingEnd ℂ)
      (put G (2 * ((L : ℤ) - 1) + r).toNat (2 * ((L : ℤ) - 1) + c).toNat (thetaInt B c * phiInt B r)
        (2 * ((L : ℤ) - 1) + r).toNat (2 * ((L : ℤ) - 1) + c).toNat)), ?_, ?_⟩
  · simp only [helper, qValue_eq, setM_ok _ _ i1 j1, getM_ok _ i1 j1, setM_ok _ _ i2 j2, bind, Except.bind]
  · intro a b ha hb hP
    rw [abs_le] at ha hb
    have e : put G (2 * ((L : ℤ) - 1) + r).toNat (2 * ((L : ℤ) - 1) + c).toNat (thetaInt B c * phiInt B r)
      (2 * ((L : ℤ) - 1) + r).toNat (2 * ((L : ℤ) - 1) + c).toNat = thetaInt B c * phiInt B r := by simp [put]
    simp only [gAt, e]
    rw [map_mul, conj_thetaInt, conj_phiInt]
    unfold put
    by_cases h2 : a = -r ∧ b = -c
    · rw [if_pos (by omega), h2.1, h2.2]
    · rw [if_neg (by omega)]
      by_cases h1 : a = r ∧ b = c
      · rw [if_pos (by omega), h1.1, h1.2]
      · rw [if_neg (by omega)]
        exact h a b (abs_le.2 ha) (abs_le.2 hb) (by tauto)

theorem cols_ok {L : ℕ} (hL : 1 ≤ L) (B : Bounds) (r : ℤ) (hr : |r| ≤ 2 * ((L : ℤ) - 1)) : ∀ (cs : List ℤ)
    (P : ℤ → ℤ → Prop) (G : Mat), GInv L B P G → (∀ c ∈ cs, |c| ≤ 2 * ((L : ℤ) - 1)) →
    ∃ G', cs.foldlM (helper L B r (phiInt B r)) G = .ok G' ∧
      GInv L B (fun a b => P a b ∨ ∃ c ∈ cs, (a = r ∧ b = c) ∨ (a = -r ∧ b = -c)) G'
  | [], P, G, h, _ => ⟨G, rfl, by simpa using h⟩
  | c :: cs, P, G, h, hc => by
    obtain ⟨G1, e1, h1⟩ := helper_ok hL B P G h r c hr (hc c (by simp))
    obtain ⟨G2, e2, h2⟩ := cols_ok hL B r hr cs _ G1 h1 fun x hx => hc x (by simp [hx])
    refine ⟨G2, ?_, fun a b ha hb hP => h2 a b ha hb ?_⟩
    · rw [List.foldlM_cons, e1]
      exact e2
    · rcases hP with hP | ⟨x, hx, hP⟩
      · exact Or.inl (Or.inl hP)
      · rcases List.mem_cons.1 hx with rfl | hx
        · exact Or.inl (Or.inr hP)
        · exact Or.inr ⟨x, hx, hP⟩

theorem rows_ok {L : ℕ} (hL : 1 ≤ L) (B : Bounds) : ∀ (rs : List ℤ)
    (P : ℤ → ℤ → Prop) (G : Mat), GInv L B P G → (∀ r ∈ rs, -2 * ((L : ℤ) - 1) ≤ r ∧ r < 0) →
    ∃ G', rs.foldlM (integralRow L B) G = .ok G' ∧ GInv L B (fun a b => P a b ∨ ∃ r ∈ rs, a = r ∨ a = -r) G'
  | [], P, G, h, _ => ⟨G, rfl, by simpa using h⟩
  | r :: rs, P, G, h, hr => by
    obtain ⟨hr1, hr2⟩ := hr r (by simp)
    obtain ⟨G1, e1, h1⟩ := cols_ok hL B r (by rw [abs_le]; omega)
      (Wigner.intRange (-2 * ((L : ℤ) - 1)) (2 * ((L : ℤ) - 1))) P G h (by
        intro c hc
        rw [Wigner.mem_intRange] at hc
        rw [abs_le]; omega)
    obtain ⟨G2, e2, h2⟩ := rows_ok hL B rs _ G1 h1 fun x hx => hr x (by simp [hx])
    refine ⟨G2, ?_, fun a b ha hb hP => h2 a b ha hb ?_⟩
    · rw [List.foldlM_cons]
      simp only [integralRow, sValue_eq B r (by omega), bind, Except.bind]
      rw [e1]
      exact e2
    · rcases hP with hP | ⟨x, hx, hP⟩
      · exact Or.inl (Or.inl hP)
      · rcases List.mem_cons.1 hx with rfl | hx
        · rw [abs_le] at hb
          refine Or.inl (Or.inr ?_)
          rcases hP with rfl | rfl
          · exact ⟨b, Wigner.mem_intRange.2 (by omega), Or.inl ⟨rfl, rfl⟩⟩
          · exact ⟨-b, Wigner.mem_intRange.2 (by omega), Or.inr ⟨rfl, by omega⟩⟩
        · exact Or.inr ⟨x, hx, hP⟩

theorem slepianIntegral_ok {L : ℕ} (hL : 1 ≤ L) (B : Bounds) : ∃ G, slepianIntegral L B = .ok G ∧
    ∀ r c : ℤ, |r| ≤ 2 * ((L : ℤ) - 1) → |c| ≤ 2 * ((L : ℤ) - 1) → gAt L G r c = thetaInt B c * phiInt B r := by
  obtain ⟨G1, e1, h1⟩ := cols_ok hL B 0 (by rw [abs_le]; omega) (Wigner.intRange (-2 * ((L : ℤ) - 1)) 0)
    (fun _ _ => False) (fun _ _ => 0) (by intro _ _ _ _ h; exact h.elim) (by
      intro c hc
      rw [Wigner.mem_intRange] at hc
      rw [abs_le]; omega)
  obtain ⟨G2, e2, h2⟩ := rows_ok hL B (Wigner.intRange (-2 * ((L : ℤ) - 1)) (-1)) _ G1 h1 (by
    intro c hc
    rw [Wigner.mem_intRange] at hc
    omega)
  refine ⟨G2, ?_, fun r c hr hc => h2 r c hr hc ?_⟩
  · rw [phiInt_zero] at e1
    unfold slepianIntegral
    rw [if_neg (by omega), e1]
    exact e2
  · rw [abs_le] at hr hc
    rcases lt_trichotomy r 0 with h | h | h
    · exact Or.inr ⟨r, Wigner.mem_intRange.2 (by omega), Or.inl rfl⟩
    · left; right
      rcases le_total c 0 with h' | h'
      · exact ⟨c, Wigner.mem_intRange.2 (by omega), Or.inl ⟨h, rfl⟩⟩
      · exact ⟨-c, Wigner.mem_intRange.2 (by omega), Or.inr ⟨by omega, by omega⟩⟩
    · exact Or.inr ⟨-r, Wigner.mem_intRange.2 (by omega), Or.inr (by omega)⟩

/-! ### one entry -/

/-- `dl[l, N + a, N + b]`. -/
def dAt (L : ℕ) (dl : Table) (l : ℕ) (a b : ℤ) : ℝ := dl l ((L : ℤ) - 1 + a).toNat ((L : ℤ) - 1 + b).toNat

theorem readDl_ok {L : ℕ} (dl : Table) {l : ℕ} (hl : l < L) {a b : ℤ} (ha : |a| ≤ l) (hb : |b| ≤ l) :
    readDl L dl l ((L : ℤ) - 1 + a) ((L : ℤ) - 1 + b) = .ok (dAt L dl l a b) := by
  rw [abs_le] at ha hb
  simp [readDl, pos_ok (n := L) (i := (l : ℤ)) (by omega) (by omega),
    pos_ok (n := 2 * L - 1) (i := (L : ℤ) - 1 + a) (by omega) (by omega),
    pos_ok (n := 2 * L - 1) (i := (L : ℤ) - 1 + b) (by omega) (by omega), bind, Except.bind, pure, Except.pure, dAt]

theorem sum_intRangeC (a b : ℤ) (f : ℤ → ℂ) : ((Wigner.intRange a b).map f).sum = ∑ t ∈ Finset.Icc a b, f t := by
  have : Finset.Icc a b = (Wigner.intRange a b).toFinset := by
    ext t; simp [Wigner.mem_intRange]
  rw [this, List.sum_toFinset _ (Wigner.intRange_nodup a b)]

theorem foldlM_add {β : Type} (f : β → ℂ) (step : ℂ → β → Except Err ℂ) : ∀ (xs : List β) (z : ℂ),
    (∀ (z : ℂ) (x : β), x ∈ xs → step z x = .ok (z + f x)) → xs.foldlM step z = .ok (z + (xs.map f).sum)
  | [], z, _ => by simp [pure, Except.pure]
  | x :: xs, z, h => by
    rw [List.foldlM_cons, h z x (by simp)]
    change xs.foldlM step (z + f x) = _
    rw [foldlM_add f step xs _ fun z y hy => h z y (by simp [hy])]
    simp [add_assoc]

/-- the term of one `mp`. -/
noncomputable def termVal (L : ℕ) (dl : Table) (G : Mat) (ell p : ℕ) (m q mp : ℤ) : ℂ :=
  ((dAt L dl ell mp m * dAt L dl ell mp 0 : ℝ) : ℂ) *
    ∑ qp ∈ Finset.Icc (-(p : ℤ)) p, ((dAt L dl p qp q * dAt L dl p qp 0 : ℝ) : ℂ) * gAt L G (m - q) (mp - qp)

theorem mpTerm_ok {L : ℕ} (dl : Table) (G : Mat) {ell p : ℕ} (hl : ell < L) (hp : p ≤ ell) {m q mp : ℤ} (hm : |m| ≤ ell)
    (hq : |q| ≤ p) (hmp : |mp| ≤ ell) : mpTerm L dl G ell p m q mp = .ok (termVal L dl G ell p m q mp) := by
  have a0 : ∀ k : ℕ, |(0 : ℤ)| ≤ k := fun k => by simp
  have r1 := readDl_ok dl hl hmp hm
  have r2 := readDl_ok dl hl hmp (a0 ell)
  rw [add_zero] at r2
  have hs := foldlM_add (fun qp : ℤ => ((dAt L dl p qp q * dAt L dl p qp 0 : ℝ) : ℂ) * gAt L G (m - q) (mp - qp))
    (s1Step L dl G p q mp (m - q)) (Wigner.intRange (-p) p) 0 (by
      intro z qp hqp
      rw [Wigner.mem_intRange] at hqp
      have hqp' : |qp| ≤ p := by rw [abs_le]; omega
      have r3 := readDl_ok dl (by omega : p < L) hqp' hq
      have r4 := readDl_ok dl (by omega : p < L) hqp' (a0 p)
      rw [add_zero] at r4
      rw [abs_le] at hm hq hmp
      simp only [s1Step, r3, r4, getM_ok (n := 4 * L - 3) G (i := 2 * ((L : ℤ) - 1) + (m - q))
        (j := 2 * ((L : ℤ) - 1) + (mp - qp)) (by omega) (by omega), bind, Except.bind, pure, Except.pure, gAt])
  rw [zero_add, sum_intRangeC] at hs
  simp only [mpTerm, r1, r2, hs, bind, Except.bind, pure, Except.pure, termVal]

/-- the factor applied at the end. -/
noncomputable def factor (ell p : ℕ) (m q : ℤ) : ℂ :=
  ((Real.sqrt ((2 * ell + 1) * (2 * p + 1)) / (4 * Real.pi) : ℝ) : ℂ) * (-I) ^ (m - q)

/-- the value an entry ends up with. -/
noncomputable def entryVal (L : ℕ) (dl : Table) (G : Mat) (ell p : ℕ) (m q : ℤ) : ℂ :=
  (∑ mp ∈ Finset.Icc (-(ell : ℤ)) ell, termVal L dl G ell p m q mp) * factor ell p m q

/-! ### threads -/

/-- what other threads leave alone: rows of the degrees in `C`. -/
def Rely (C : ℕ → Prop) (s s' : Mat) : Prop := ∀ a b, C (ind2elm a).1 → s' a b = s a b
/-- what a thread leaves alone: rows of the other degrees. -/
def Guar (C : ℕ → Prop) (s s' : Mat) : Prop := ∀ a b, ¬ C (ind2elm a).1 → s' a b = s a b

/-- the rows of the degrees in `C` are those of `f`. -/
def Agree (C : ℕ → Prop) (f s : Mat) : Prop := ∀ a b, C (ind2elm a).1 → s a b = f a b

theorem Agree.stable {C : ℕ → Prop} {f s s' : Mat} (h : Agree C f s) (hr : Rely C s s') : Agree C f s' :=
  fun a b hc => (hr a b hc).trans (h a b hc)

theorem ind_toNat (l : ℕ) (m : ℤ) : (ind l m).toNat = elm2ind l m := by
  unfold ind elm2ind; rw [mul_add, mul_one]

theorem ind_bounds {L l : ℕ} {m : ℤ} (hl : l < L) (hm : |m| ≤ l) : 0 ≤ ind l m ∧ ind l m < (L ^ 2 : ℕ) := by
  have h := (elm2ind_lt_sq hm L).2 hl
  have e : ind l m = (elm2ind l m : ℤ) := by rw [elm2ind_cast hm]; unfold ind; ring
  rw [e]
  exact ⟨by positivity, by exact_mod_cast h⟩

/-- one `K[i, j] op= v` step on an owned row. -/
theorem good_update {L : ℕ} {C : ℕ → Prop} {ell p : ℕ} {m q : ℤ} (hl : ell < L) (hp : p < L) (hm : |m| ≤ ell)
    (hq : |q| ≤ p) (hC : C ell) (f : ℂ → Except Err ℂ) (g : ℂ → ℂ) (hf : ∀ x, f x = .ok (g x)) {F : Mat}
    {c : List A} {Q : ℂ → Mat → Prop} {x : ℂ} {s : Mat} (h : Agree C F s)
    (hc : ∀ x s, Agree C (put F (elm2ind ell m) (elm2ind p q) (g (F (elm2ind ell m) (elm2ind p q)))) s →
      Good False (Rely C) (Guar C) c Q x s) :
    Good False (Rely C) (Guar C) (load L (ind ell m) (ind p q) :: store L (ind ell m) (ind p q) f :: c) Q x s := by
  have b1 := ind_bounds hl hm
  have b2 := ind_bounds hp hq
  have hown : (ind2elm (elm2ind ell m)).1 = ell := by rw [ind2elm_elm2ind hm]
  refine Good.cons (fun _ s => Agree C F s) h (fun _ s s' h hr => h.stable hr) ?_
  intro s h
  refine Or.inr ⟨s, s (elm2ind ell m) (elm2ind p q), ?_, fun _ _ _ => rfl, ?_⟩
  · simp [load, getM_ok _ b1 b2, ind_toNat, bind, Except.bind, pure, Except.pure]
  refine Good.cons (fun _ s => Agree C F s) h (fun _ s s' h hr => h.stable hr) ?_
  intro s2 h2
  rw [h _ _ (by rw [hown]; exact hC)]
  refine Or.inr ⟨put s2 (elm2ind ell m) (elm2ind p q) (g (F (elm2ind ell m) (elm2ind p q))),
    F (elm2ind ell m) (elm2ind p q), ?_, ?_, hc _ _ ?_⟩
  · simp only [store, hf, setM_ok _ _ b1 b2, ind_toNat, bind, Except.bind, pure, Except.pure]
  · intro a b hab
    have : ¬ (a = elm2ind ell m ∧ b = elm2ind p q) := by
      rintro ⟨rfl, -⟩; rw [hown] at hab; exact hab hC
    simp [put, this]
  · intro a b hab
    unfold put
    split
    · rfl
    · exact h2 a b hab

theorem put_put (F : Mat) (a b : ℕ) (v w : ℂ) : put (put F a b v) a b w = put F a b w := by
  funext x y; unfold put; split <;> rfl

theorem good_adds {L : ℕ} (dl : Table) (G : Mat) {C : ℕ → Prop} {ell p : ℕ} {m q : ℤ} (hl : ell < L) (hp : p ≤ ell)
    (hm : |m| ≤ ell) (hq : |q| ≤ p) (hC : C ell) {c : List A} {Q : ℂ → Mat → Prop} : ∀ (mps : List ℤ),
    (∀ mp ∈ mps, |mp| ≤ ell) → ∀ (F : Mat) (x : ℂ) (s : Mat), Agree C F s →
    (∀ x s, Agree C (put F (elm2ind ell m) (elm2ind p q)
      (F (elm2ind ell m) (elm2ind p q) + (mps.map (termVal L dl G ell p m q)).sum)) s →
      Good False (Rely C) (Guar C) c Q x s) →
    Good False (Rely C) (Guar C) ((mps.flatMap fun mp =>
      [load L (ind ell m) (ind p q),
       store L (ind ell m) (ind p q) fun x => do
         let t ← mpTerm L dl G ell p m q mp
         return x + t]) ++ c) Q x s
  | [], _, F, x, s, h, hc => by
    refine hc x s fun a b hab => ?_
    rw [h a b hab]
    unfold put
    split
    · rename_i e
      rw [e.1, e.2]; simp
    · rfl
  | mp :: mps, hmps, F, x, s, h, hc => by
    rw [List.flatMap_cons]
    refine good_update hl (by omega) hm hq hC _ (fun x => x + termVal L dl G ell p m q mp) ?_ h ?_
    · intro x
      simp [mpTerm_ok dl G hl hp hm hq (hmps mp (by simp)), bind, Except.bind, pure, Except.pure]
    · intro x s h
      refine good_adds dl G hl hp hm hq hC mps (fun y hy => hmps y (by simp [hy])) _ x s h ?_
      intro x s h
      refine hc x s ?_
      rw [put_put] at h
      convert h using 2
      simp [put, add_assoc]

/-- the whole treatment of one entry that is still zero. -/
theorem good_entry {L : ℕ} (dl : Table) (G : Mat) {C : ℕ → Prop} {ell p : ℕ} {m q : ℤ} (hl : ell < L) (hp : p ≤ ell)
    (hm : |m| ≤ ell) (hq : |q| ≤ p) (hC : C ell) (F : Mat) (hF : F (elm2ind ell m) (elm2ind p q) = 0) (x : ℂ) (s : Mat)
    (h : Agree C F s) : Good False (Rely C) (Guar C) (entryActs L dl G ell p m q)
      (fun _ s => Agree C (put F (elm2ind ell m) (elm2ind p q) (entryVal L dl G ell p m q)) s) x s := by
  unfold entryActs
  refine good_adds dl G hl hp hm hq hC _ (fun mp h => by
    rw [Wigner.mem_intRange] at h; rw [abs_le]; omega) F x s h ?_
  intro x s h
  refine good_update hl (by omega) hm hq hC _ (fun x => x * factor ell p m q) (fun x => rfl) h ?_
  intro x s h s' hr
  have h' := h.stable hr
  rw [put_put] at h'
  convert h' using 2
  simp [put, hF, sum_intRangeC, entryVal]

/-- an entry of the matrix: `(ell, p, m, q)`. -/
abbrev Key := ℕ × ℕ × ℤ × ℤ

def Key.row (k : Key) : ℕ := elm2ind k.1 k.2.2.1
def Key.col (k : Key) : ℕ := elm2ind k.2.1 k.2.2.2
def Key.Valid (L : ℕ) (k : Key) : Prop := k.1 < L ∧ k.2.1 ≤ k.1 ∧ |k.2.2.1| ≤ (k.1 : ℤ) ∧ |k.2.2.2| ≤ (k.2.1 : ℤ)

theorem Key.ext_of_cell {L : ℕ} {k k' : Key} (h : k.Valid L) (h' : k'.Valid L) (h1 : k.row = k'.row) (h2 : k.col = k'.col) :
    k = k' := by
  obtain ⟨l, p, m, q⟩ := k
  obtain ⟨l', p', m', q'⟩ := k'
  simp only [Key.row, Key.col, Key.Valid] at *
  have e1 := ind2elm_elm2ind h.2.2.1
  have e2 := ind2elm_elm2ind h.2.2.2
  rw [h1, ind2elm_elm2ind h'.2.2.1] at e1
  rw [h2, ind2elm_elm2ind h'.2.2.2] at e2
  simp_all

/-- the entries of one degree in the order of the loops. -/
def keysOf (ell : ℕ) : List Key :=
  (List.range (ell + 1)).flatMap fun p : ℕ =>
    (Wigner.intRange (-ell) ell).flatMap fun m =>
      (Wigner.intRange (-p) p).map fun q => (ell, p, m, q)

theorem degreeActs_eq (L : ℕ) (dl : Table) (G : Mat) (ell : ℕ) : degreeActs L dl G ell =
    (keysOf ell).flatMap fun k => entryActs L dl G k.1 k.2.1 k.2.2.1 k.2.2.2 := by
  unfold degreeActs keysOf
  simp only [List.flatMap_assoc, List.flatMap_map]

theorem mem_keysOf {ell : ℕ} {k : Key} : k ∈ keysOf ell ↔
    k.1 = ell ∧ k.2.1 ≤ k.1 ∧ |k.2.2.1| ≤ (k.1 : ℤ) ∧ |k.2.2.2| ≤ (k.2.1 : ℤ) := by
  obtain ⟨l, p, m, q⟩ := k
  simp only [keysOf, List.mem_flatMap, List.mem_map, List.mem_range, Wigner.mem_intRange, Prod.mk.injEq, abs_le]
  constructor
  · rintro ⟨p', hp, m', hm, q', hq, rfl, rfl, rfl, rfl⟩
    omega
  · rintro ⟨rfl, h1, h2, h3⟩
    exact ⟨p, by omega, m, by omega, q, by omega, rfl, rfl, rfl, rfl⟩

theorem nodup_keysOf (ell : ℕ) : (keysOf ell).Nodup := by
  unfold keysOf
  rw [List.nodup_flatMap]
  refine ⟨fun p _ => ?_, ?_⟩
  · rw [List.nodup_flatMap]
    refine ⟨fun m _ => ?_, ?_⟩
    · refine (Wigner.intRange_nodup _ _).map fun a b h => ?_
      simpa using h
    · refine (Wigner.intRange_nodup _ _).imp fun {a b} hab => ?_
      intro k h1 h2
      simp only [List.mem_map] at h1 h2
      obtain ⟨_, _, rfl⟩ := h1
      obtain ⟨_, _, h⟩ := h2
      simp only [Prod.mk.injEq] at h
      exact hab h.2.2.1.symm
  · refine List.nodup_range.imp fun {a b} hab => ?_
    intro k h1 h2
    simp only [List.mem_map, List.mem_flatMap] at h1 h2
    obtain ⟨_, _, _, _, rfl⟩ := h1
    obtain ⟨_, _, _, _, h⟩ := h2
    simp only [Prod.mk.injEq] at h
    exact hab h.2.1.symm

theorem nodup_keys {chunk : List ℕ} (h : chunk.Nodup) : (chunk.flatMap keysOf).Nodup := by
  rw [List.nodup_flatMap]
  refine ⟨fun l _ => nodup_keysOf l, h.imp fun {a b} hab => ?_⟩
  intro k h1 h2
  rw [mem_keysOf] at h1 h2
  exact hab (h1.1.symm.trans h2.1)

/-- the rows of degrees in `C`: finished entries have their value, the others are zero. -/
def KInv (L : ℕ) (dl : Table) (G : Mat) (C : ℕ → Prop) (done : List Key) (s : Mat) : Prop :=
  ∃ F : Mat, Agree C F s ∧ (∀ k ∈ done, F k.row k.col = entryVal L dl G k.1 k.2.1 k.2.2.1 k.2.2.2) ∧
    ∀ a b, (∀ k ∈ done, ¬ (a = k.row ∧ b = k.col)) → F a b = 0

theorem good_keys {L : ℕ} (dl : Table) (G : Mat) {C : ℕ → Prop} : ∀ (ks done : List Key), (done ++ ks).Nodup →
    (∀ k ∈ done ++ ks, k.Valid L ∧ C k.1) → ∀ (x : ℂ) (s : Mat), KInv L dl G C done s →
    Good False (Rely C) (Guar C) (ks.flatMap fun k => entryActs L dl G k.1 k.2.1 k.2.2.1 k.2.2.2)
      (fun _ s => KInv L dl G C (done ++ ks) s) x s
  | [], done, _, _, x, s, h => by
    intro s' hr
    obtain ⟨F, h1, h2, h3⟩ := h
    exact ⟨F, h1.stable hr, by simpa using h2, by simpa using h3⟩
  | k :: ks, done, hnd, hv, x, s, h => by
    rw [List.flatMap_cons]
    apply Good.append (fun a p q _ => rfl)
    obtain ⟨F, h1, h2, h3⟩ := h
    have hk := hv k (by simp)
    have hne : ∀ k' ∈ done, ¬ (k.row = k'.row ∧ k.col = k'.col) := by
      rintro k' hk' ⟨e1, e2⟩
      have := Key.ext_of_cell hk.1 (hv k' (by simp [hk'])).1 e1 e2
      subst this
      rw [List.nodup_append] at hnd
      exact hnd.2.2 k hk' k (by simp) rfl
    refine (good_entry dl G hk.1.1 hk.1.2.1 hk.1.2.2.1 hk.1.2.2.2 hk.2 F (h3 _ _ hne) x s h1).mono ?_
    intro x s hs
    have := good_keys dl G ks (done ++ [k]) (by simpa using hnd) (by simpa using hv) x s
      ⟨_, hs, ?_, ?_⟩
    · simpa using this
    · intro k' hk'
      rcases List.mem_append.1 hk' with hk' | hk'
      · have := hne k' hk'
        unfold put
        rw [if_neg (by rintro ⟨e1, e2⟩; exact this ⟨e1.symm, e2.symm⟩)]
        exact h2 k' hk'
      · obtain rfl : k' = k := by simpa using hk'
        simp [put, Key.row, Key.col]
    · intro a b hab
      have h0 : ¬ (a = elm2ind k.1 k.2.2.1 ∧ b = elm2ind k.2.1 k.2.2.2) := hab k (by simp)
      unfold put
      rw [if_neg h0]
      exact h3 a b fun k' hk' => hab k' (by simp [hk'])

theorem distributes_mem {L k : ℕ} {chunks : Fin k → List ℕ} (h : Distributes L chunks) :
    (∀ t, ∀ l ∈ chunks t, l < L) ∧ (∀ t, (chunks t).Nodup) ∧ (∀ l < L, ∃ t, l ∈ chunks t) ∧
    ∀ t u l, l ∈ chunks t → l ∈ chunks u → t = u := by
  have hn : ((List.finRange k).flatMap chunks).Nodup := h.nodup_iff.2 List.nodup_range
  rw [List.nodup_flatMap] at hn
  refine ⟨fun t l hl => ?_, fun t => hn.1 t (List.mem_finRange t), fun l hl => ?_, fun t u l h1 h2 => ?_⟩
  · exact List.mem_range.1 (h.mem_iff.1 (List.mem_flatMap.2 ⟨t, List.mem_finRange t, hl⟩))
  · obtain ⟨t, -, ht⟩ := List.mem_flatMap.1 (h.mem_iff.2 (List.mem_range.2 hl))
    exact ⟨t, ht⟩
  · by_contra hne
    haveI : Std.Symm (Function.onFun List.Disjoint chunks) := ⟨fun a b (h : List.Disjoint _ _) => h.symm⟩
    exact (hn.2.forall (List.mem_finRange t) (List.mem_finRange u) hne) h1 h2

/-- whatever the threads do, every entry with `p ≤ ell` ends up with its value and none goes wrong. -/
theorem slepianMatrix_ok {L : ℕ} {dl : Table} {G : Mat} {we : ℕ → Option Err} {K : Mat} (h : SlepianMatrix L dl G we K) :
    (∀ t, we t = none) ∧ ∀ (ell p : ℕ) (m q : ℤ), ell < L → p ≤ ell → |m| ≤ ell → |q| ≤ p →
      K (elm2ind ell m) (elm2ind p q) = entryVal L dl G ell p m q := by
  obtain ⟨k, chunks, hc, K, ts, hrun⟩ := h
  obtain ⟨hlt, hnd, hcov, hdis⟩ := distributes_mem hc
  have hpost := PoolRun.post (E := False) (fun t => Rely (· ∈ chunks t)) (fun t => Guar (· ∈ chunks t))
    (fun t _ s => KInv L dl G (· ∈ chunks t) ((chunks t).flatMap keysOf) s)
    (fun t a p q _ => rfl) (fun t a b c h1 h2 p q hpq => (h2 p q hpq).trans (h1 p q hpq))
    (by
      intro t u htu a b hG p q hpq
      exact hG p q fun hx => htu (hdis _ _ _ hx hpq))
    (by
      intro t
      have := good_keys (L := L) dl G (C := (· ∈ chunks t)) ((chunks t).flatMap keysOf) []
        (by simpa using nodup_keys (hnd t)) (by
          intro k hk
          rw [List.nil_append] at hk
          obtain ⟨l, hl, hk⟩ := List.mem_flatMap.1 hk
          rw [mem_keysOf] at hk
          obtain ⟨rfl, hk⟩ := hk
          exact ⟨⟨hlt t _ hl, hk⟩, hl⟩) 0 (fun _ _ => 0) ⟨fun _ _ => 0, fun _ _ _ => rfl, by simp, fun _ _ _ => rfl⟩
      rw [List.flatMap_assoc] at this
      rw [show degreeActs L dl G = _ from funext (degreeActs_eq L dl G)]
      simpa only [List.nil_append] using this)
    hrun
  have hnone : ∀ t, (ts t).failed = none := fun t => (hpost t).2 id
  refine ⟨fun t => ?_, fun ell p m q hl hp hm hq => ?_⟩
  · by_cases ht : t < k
    · simp only [ht, dite_true]; exact hnone _
    · simp [ht]
  · obtain ⟨t, ht⟩ := hcov ell hl
    obtain ⟨F, h1, h2, -⟩ := (hpost t).1 (hnone t)
    rw [h1 _ _ (by rw [ind2elm_elm2ind hm]; exact ht)]
    exact h2 (ell, p, m, q) (List.mem_flatMap.2 ⟨ell, ht, mem_keysOf.2 ⟨rfl, hp, hm, hq⟩⟩)

end Sleplet.LatLon
