import Verif.Model.Amplitude
import Verif.Props.SphereScript

/-!
C103: the amplitude of a function, found beforehand so that several plots have the same scale.
-/
namespace Sleplet.Props

open Classes Spec SphereScript Real

private theorem amplitude_of_boost (e : SphereEnv) {L : ℕ} (hL : 1 ≤ L) (f : Made L) (type : String) (up : Bool) (field : List (List ℂ))
    (hf : amplitudeField e f = .ok field) (R : ℕ) (hR : R = if up then Plot.calcPlotResolution L else L) (F : ℝ → ℝ → ℂ)
    (hB : Plot.boostField (e.forward f.target.obj.reality f.target.obj.spin) (e.inverse f.target.obj.reality f.target.obj.spin) field L R up =
      .ok (Plot.rows fun (t : Fin (R + 1)) (p : Fin (2 * R)) => F (t * π / R) (p * π / R))) (part : ℂ → ℝ)
    (hpart : (type, part) ∈ plotParts) :
    ∃ A, SphereScript.findMaxAmplitude e f type up = .ok A ∧ IsGreatest ((fun x => |x|) '' samples R part F) A := by
  have hR1 : 1 ≤ R := by
    rw [hR]
    split
    · exact hL.trans (C40_bounds L hL).2.1
    · exact hL
  have hp : Plot.plotTypeFun type = .ok part := by
    simp only [plotParts, List.mem_cons, List.not_mem_nil, or_false, Prod.mk.injEq] at hpart
    rcases hpart with ⟨rfl, rfl⟩ | ⟨rfl, rfl⟩ | ⟨rfl, rfl⟩ | ⟨rfl, rfl⟩ <;> simp [Plot.plotTypeFun]
  have hmap : ((Plot.rows fun (t : Fin (R + 1)) (p : Fin (2 * R)) => F (t * π / R) (p * π / R)).map fun r => r.map fun z => |part z|) =
      Plot.rows fun (t : Fin (R + 1)) (p : Fin (2 * R)) => |part (F (t * π / R) (p * π / R))| := by
    simp [Plot.rows, List.map_ofFn, Function.comp_def]
  have hne : (Plot.rows fun (t : Fin (R + 1)) (p : Fin (2 * R)) => |part (F (t * π / R) (p * π / R))|).flatten ≠ [] := by
    rw [← List.length_pos_iff, Plot.flatten_rows_length]
    positivity
  obtain ⟨A, a1, a2, a3⟩ := Plot.exists_amax hne
  refine ⟨A, ?_, ?_, ?_⟩
  · simp only [SphereScript.findMaxAmplitude, hf, ← hR, hB, hp, hmap, a1, bind, Except.bind]
  · obtain ⟨t, p, h⟩ := (Plot.mem_flatten_rows _ _).1 a2
    exact ⟨_, ⟨t, p, by omega, p.2, rfl⟩, h⟩
  · rintro _ ⟨_, ⟨t, p, ht, hp, rfl⟩, rfl⟩
    exact a3 _ ((Plot.mem_flatten_rows _ _).2 ⟨⟨t, by omega⟩, ⟨p, hp⟩, rfl⟩)

/-- For functions of spin zero.  What is missing: functions with a spin, see the negation below. -/
theorem C103_harmonic_partial (e : SphereEnv) {L : ℕ} (hL : 1 ≤ L) (f : Made L) (hs : f.slepian = none) (Y : ℤ → ℕ → ℝ → ℝ → ℂ)
    (hY : GoodTransforms e L Y) (hspin : f.target.obj.spin = 0) (hc : f.target.obj.coefficients.length = L ^ 2)
    (hr : f.target.obj.reality = true → RealSignal L f.target.obj.coefficients) (type : String) (part : ℂ → ℝ)
    (hpart : (type, part) ∈ plotParts) (up : Bool) (R : ℕ) (hR : R = if up then Plot.calcPlotResolution L else L) :
    ∃ A, SphereScript.findMaxAmplitude e f type up = .ok A ∧
      IsGreatest ((fun x => |x|) '' samples R part (expansion (Y 0) L f.target.obj.coefficients)) A := by
  have hr' : f.target.obj.reality = true → RealSignal L f.target.obj.coefficients ∧ (0 : ℤ) = 0 := fun h => ⟨hr h, rfl⟩
  have hf : amplitudeField e f = .ok (e.inverse f.target.obj.reality 0 L f.target.obj.coefficients) := by
    unfold amplitudeField
    rw [hs]
    dsimp only
    rw [hY.inverse false 0 L _ hL hc (by simp), hY.inverse _ 0 L _ hL hc hr']
  refine amplitude_of_boost e hL f type up _ hf R hR _ ?_ part hpart
  rw [hspin]
  exact boost_ok hY hL _ 0 _ hc hr' up R hR

/-- For Slepian functions: the field of the Slepian coefficients, over the whole sphere. -/
theorem C103_slepian (e : SphereEnv) {L : ℕ} (hL : 1 ≤ L) (f : Made L) (S : SlepianOf L) (r : Region.Obj) (hs : f.slepian = some (S, r))
    (Y : ℤ → ℕ → ℝ → ℝ → ℂ) (hY : GoodTransforms e L Y) (hS : GoodSlepian e S Y) (hspin : f.target.obj.spin = 0)
    (hreal : f.target.obj.reality = false) (hc : S.env.sl.N ≤ f.target.obj.coefficients.length) (type : String) (part : ℂ → ℝ)
    (hpart : (type, part) ∈ plotParts) (up : Bool) (R : ℕ) (hR : R = if up then Plot.calcPlotResolution L else L) :
    ∃ A, SphereScript.findMaxAmplitude e f type up = .ok A ∧
      IsGreatest ((fun x => |x|) '' samples R part (slepianExpansion (Y 0) S.env.sl f.target.obj.coefficients)) A := by
  obtain ⟨d, hd, hde⟩ := slepian_as_harmonic (Y 0) S.env.sl f.target.obj.coefficients
  have hfun : slepianExpansion (Y 0) S.env.sl f.target.obj.coefficients = expansion (Y 0) L d := by
    funext θ φ
    exact hde θ φ
  have hf : amplitudeField e f = .ok (e.inverse false 0 L d) := by
    unfold amplitudeField
    rw [hs]
    dsimp only
    rw [inverse_ok hS _ hc, hY.inverse false 0 L d hL hd (by simp), hfun]
    rfl
  rw [hfun]
  refine amplitude_of_boost e hL f type up _ hf R hR _ ?_ part hpart
  rw [hspin, hreal]
  exact boost_ok hY hL false 0 d hd (by simp) up R hR

/-! ### functions with a spin -/

/-- the harmonic of degree 2 and order 0, and its counterpart of spin 2, as functions of the colatitude. -/
noncomputable def y20 (θ : ℝ) : ℂ := ((√(5 / (16 * π)) * (3 * cos θ ^ 2 - 1) : ℝ) : ℂ)

noncomputable def spin2y20 (θ : ℝ) : ℂ := ((√(15 / (32 * π)) * sin θ ^ 2 : ℝ) : ℂ)

/-- The coefficients at bandlimit 3 with the value `a` in degree 2 and order 0. -/
def degreeTwo (a : ℂ) : List ℂ := [0, 0, 0, 0, 0, 0, a, 0, 0]

private theorem expansion_degreeTwo (Y : ℕ → ℝ → ℝ → ℂ) (a : ℂ) (θ φ : ℝ) : expansion Y 3 (degreeTwo a) θ φ = a * Y 6 θ φ := by
  simp [expansion, degreeTwo, Finset.sum_range_succ]

/-- The amplitude of a function of spin 2 is that of the function of spin 0 with the same coefficients, and is not the greatest absolute
value of the function: here it is more than twice as large, as the function is zero at the poles. -/
theorem C103_spin_violation (e : SphereEnv) (f : Made 3) (hs : f.slepian = none) (hspin : f.target.obj.spin = 2) (a : ℂ)
    (ha : a ≠ 0) (hc : f.target.obj.coefficients = degreeTwo a) (Y : ℤ → ℕ → ℝ → ℝ → ℂ)
    (hinv : ∀ (spin : ℤ) (c : List ℂ), c.length = 3 ^ 2 → e.inverse false spin 3 c =
      Plot.rows fun (t : Fin (3 + 1)) (p : Fin (2 * 3)) => expansion (Y spin) 3 c (t * π / (3 : ℕ)) (p * π / (3 : ℕ)))
    (hY0 : ∀ θ φ, Y 0 6 θ φ = y20 θ) (hY2 : ∀ θ φ, Y 2 6 θ φ = spin2y20 θ) :
    ∃ A, SphereScript.findMaxAmplitude e f "abs" false = .ok A ∧
      ∀ x ∈ samples 3 (fun z => ‖z‖) (expansion (Y f.target.obj.spin) 3 f.target.obj.coefficients), 2 * |x| < A := by
  have hf : amplitudeField e f = .ok (Plot.rows fun (t : Fin (3 + 1)) (p : Fin (2 * 3)) =>
      expansion (Y 0) 3 (degreeTwo a) (t * π / (3 : ℕ)) (p * π / (3 : ℕ))) := by
    unfold amplitudeField
    rw [hs]
    dsimp only
    rw [hc, hinv 0 _ (by simp [degreeTwo])]
  obtain ⟨A, hA, -, hge⟩ := amplitude_of_boost e (by norm_num) f "abs" false _ hf 3 rfl (expansion (Y 0) 3 (degreeTwo a))
    (by simp [Plot.boostField]) (fun z => ‖z‖) (by simp [plotParts])
  refine ⟨A, hA, ?_⟩
  have hge' : ‖a‖ * (√(5 / (16 * π)) * 2) ≤ A := by
    refine le_trans (le_of_eq ?_) (hge ⟨_, ⟨0, 0, by norm_num, by norm_num, rfl⟩, rfl⟩)
    simp only [expansion_degreeTwo, hY0, y20]
    rw [abs_of_nonneg (norm_nonneg _), norm_mul, Complex.norm_real, Real.norm_eq_abs, abs_of_nonneg]
    · norm_num
    · norm_num
      positivity
  have ha' : 0 < ‖a‖ := norm_pos_iff.2 ha
  have hsin : ∀ t : ℕ, t ≤ 3 → sin (t * π / (3 : ℕ)) ^ 2 ≤ 3 / 4 := by
    intro t ht
    have h1 : sin (π / 3) ^ 2 = 3 / 4 := by
      rw [Real.sin_pi_div_three, div_pow, Real.sq_sqrt (by norm_num)]; norm_num
    obtain rfl | rfl | rfl | rfl : t = 0 ∨ t = 1 ∨ t = 2 ∨ t = 3 := by omega
    · norm_num
    · rw [show ((1 : ℕ) : ℝ) * π / (3 : ℕ) = π / 3 by push_cast; ring, h1]
    · rw [show ((2 : ℕ) : ℝ) * π / (3 : ℕ) = π - π / 3 by push_cast; ring, Real.sin_pi_sub, h1]
    · rw [show ((3 : ℕ) : ℝ) * π / (3 : ℕ) = π by push_cast; ring, Real.sin_pi]; norm_num
  rintro x ⟨t, p, ht, -, rfl⟩
  refine lt_of_lt_of_le ?_ hge'
  rw [abs_of_nonneg (norm_nonneg _), hc, hspin, expansion_degreeTwo, hY2, spin2y20, norm_mul, Complex.norm_real, Real.norm_eq_abs,
    abs_of_nonneg (by positivity)]
  have hsq : √(15 / (32 * π)) * (3 / 2) < √(5 / (16 * π)) * 2 := by
    have h0 : √(15 / (32 * π)) = √(5 / (16 * π)) * √(3 / 2) := by
      rw [← Real.sqrt_mul (by positivity)]
      congr 1
      field_simp
      norm_num
    have h1 : √(3 / 2) < 4 / 3 := by
      rw [Real.sqrt_lt' (by norm_num)]; norm_num
    have h2 : 0 < √(5 / (16 * π)) := Real.sqrt_pos.2 (by positivity)
    rw [h0, mul_assoc]
    exact mul_lt_mul_of_pos_left (by linarith) h2
  have h3 := hsin t ht
  have h4 : 0 ≤ √(15 / (32 * π)) := Real.sqrt_nonneg _
  calc 2 * (‖a‖ * (√(15 / (32 * π)) * sin (t * π / (3 : ℕ)) ^ 2)) ≤ 2 * (‖a‖ * (√(15 / (32 * π)) * (3 / 4))) := by gcongr
    _ = ‖a‖ * (√(15 / (32 * π)) * (3 / 2)) := by ring
    _ < _ := mul_lt_mul_of_pos_left hsq ha'

/-! ### the hypotheses are met -/

/-- an object with given spin and coefficients. -/
noncomputable def plainObject (L : ℕ) (spin : ℤ) (c : List ℂ) : Functions.Obj := ⟨L, "f", spin, false, c, none, none⟩

example : ∃ f : Made 2, f.slepian = none ∧ f.target.obj.spin = 0 ∧ f.target.obj.coefficients.length = 2 ^ 2 ∧
    (f.target.obj.reality = true → RealSignal 2 f.target.obj.coefficients) ∧ GoodTransforms sampleSphere 2 spike ∧
    ∃ A, SphereScript.findMaxAmplitude sampleSphere f "imag" false = .ok A ∧ 2 ≤ A := by
  refine ⟨⟨Script.harmonic sampleSphere.env.S (sampleSphere.ylm 2) (plainObject 2 0 [1, 2 * Complex.I, 0, 0]), none⟩, rfl, rfl, rfl,
    by simp [Script.harmonic, plainObject], sampleSphere_transforms, ?_⟩
  obtain ⟨A, h1, -, h2⟩ := C103_harmonic_partial sampleSphere (by norm_num)
    ⟨Script.harmonic sampleSphere.env.S (sampleSphere.ylm 2) (plainObject 2 0 [1, 2 * Complex.I, 0, 0]), none⟩ rfl spike sampleSphere_transforms
    rfl rfl (by simp [Script.harmonic, plainObject]) "imag" (fun z => z.im) (by simp [plotParts]) false 2 rfl
  refine ⟨A, h1, h2 ⟨2, ⟨1, 1, by norm_num, by norm_num, ?_⟩, by norm_num⟩⟩
  have hne : ∀ n : ℕ, (1 : ℝ) * π / 2 = n * π / 2 ↔ 1 = n := by
    intro n
    have := Real.pi_pos
    constructor
    · intro h
      have : (1 : ℝ) = n := mul_right_cancel₀ Real.pi_ne_zero (by linarith)
      exact_mod_cast this
    · rintro rfl; simp
  have h0 := hne 0
  have h2 := hne 2
  have h3 := hne 3
  norm_num at h0 h2 h3
  simp [expansion, Script.harmonic, plainObject, spike, Finset.sum_range_succ]

example : ∃ (f : Made 2) (S : SlepianOf 2) (r : Region.Obj), f.slepian = some (S, r) ∧ GoodTransforms sampleSphere 2 spike ∧
    GoodSlepian sampleSphere S spike ∧ f.target.obj.spin = 0 ∧ f.target.obj.reality = false ∧ 0 < S.env.sl.N ∧
    S.env.sl.N ≤ f.target.obj.coefficients.length :=
  ⟨⟨Script.slepian (sampleSlepian 2 (by norm_num)).env (sampleSlepian 2 (by norm_num)).pixel (plainObject 2 0 [1, 0, 0, 0]),
    some (sampleSlepian 2 (by norm_num), ⟨{ thetaMax := π / 4 }, "polar45", "polar"⟩)⟩, sampleSlepian 2 (by norm_num),
    ⟨{ thetaMax := π / 4 }, "polar45", "polar"⟩, rfl, sampleSphere_transforms,
    ⟨⟨by simp [sampleSlepian], by simp [sampleSlepian]⟩, fun _ _ => rfl, by
      intro B j k hk; simp [sampleSphere, sampleEnv] at hk; rcases hk with rfl | rfl | rfl <;> simp⟩, rfl, rfl, by simp [sampleSlepian],
    by simp [sampleSlepian, Script.slepian, plainObject]⟩

/-- harmonics with the true values in degree 2 and order 0. -/
noncomputable def someHarmonics (spin : ℤ) (i : ℕ) (θ _φ : ℝ) : ℂ := if i = 6 then (if spin = 2 then spin2y20 θ else y20 θ) else 0

example : ∃ (e : SphereEnv) (f : Made 3), f.slepian = none ∧ f.target.obj.spin = 2 ∧ f.target.obj.coefficients = degreeTwo 1 ∧
    (∀ (spin : ℤ) (c : List ℂ), c.length = 3 ^ 2 → e.inverse false spin 3 c =
      Plot.rows fun (t : Fin (3 + 1)) (p : Fin (2 * 3)) => expansion (someHarmonics spin) 3 c (t * π / (3 : ℕ)) (p * π / (3 : ℕ))) ∧
    (∀ θ φ, someHarmonics 0 6 θ φ = y20 θ) ∧ ∀ θ φ, someHarmonics 2 6 θ φ = spin2y20 θ :=
  ⟨{ sampleSphere with inverse := fun _ spin K c => (Plot.rows fun (t : Fin (K + 1)) (p : Fin (2 * K)) =>
      expansion (someHarmonics spin) K c (t * π / K) (p * π / K)) },
    ⟨Script.harmonic sampleSphere.env.S (sampleSphere.ylm 3) (plainObject 3 2 (degreeTwo 1)), none⟩, rfl, rfl, rfl, fun _ _ _ => rfl,
    fun _ _ => by simp [someHarmonics], fun _ _ => by simp [someHarmonics]⟩

/-- C103. A function sampled nowhere has no amplitude. -/
theorem C103_empty (e : SphereEnv) {L : ℕ} (f : Made L) (hs : f.slepian = none) (rows : ℕ)
    (hrows : e.inverse false 0 L f.target.obj.coefficients = List.replicate rows []) (type : String) (part : ℂ → ℝ)
    (hpart : (type, part) ∈ plotParts) : SphereScript.findMaxAmplitude e f type false = .error .valueError := by
  have hf : amplitudeField e f = .ok (List.replicate rows []) := by
    unfold amplitudeField
    rw [hs, ← hrows]
  have hg : Plot.plotTypeFun type = .ok part := by
    simp only [plotParts, List.mem_cons, List.not_mem_nil, or_false, Prod.mk.injEq] at hpart
    rcases hpart with ⟨rfl, rfl⟩ | ⟨rfl, rfl⟩ | ⟨rfl, rfl⟩ | ⟨rfl, rfl⟩ <;> simp [Plot.plotTypeFun]
  unfold SphereScript.findMaxAmplitude
  rw [hf]
  simp only [Plot.boostField, hg, bind, Except.bind, pure, Except.pure]
  simp [Plot.amax]

/-- a bandlimit of zero: the grid is one row of no samples. -/
example : ∃ (e : SphereEnv) (f : Made 0), f.slepian = none ∧ e.inverse false 0 0 f.target.obj.coefficients = List.replicate 1 [] :=
  ⟨{ sampleSphere with inverse := fun _ _ K _ => Plot.rows fun (_ : Fin (K + 1)) (_ : Fin (2 * K)) => 0 },
    ⟨Script.harmonic sampleSphere.env.S (sampleSphere.ylm 0) (plainObject 0 0 []), none⟩, rfl, rfl⟩

end Sleplet.Props
