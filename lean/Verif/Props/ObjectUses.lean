import Verif.Model.ObjectUses
import Verif.Props.Convolution
import Verif.Props.FunctionNames
import Verif.Spec.RealSignal

/-!
C110: using a function object.
-/
namespace Sleplet.Props

open Sleplet.Functions Sleplet.ObjectUses Sleplet.Spec

/-- a method whose result does not depend on the reality flag. -/
def IgnoresFlag (m : Methods) : Prop := ∀ (o : Obj) (b : Bool),
  (∀ alpha beta, m.helper { o with reality := b } alpha beta = m.helper o alpha beta) ∧
  ∀ alpha beta gamma, m.rotate { o with reality := b } alpha beta gamma = m.rotate o alpha beta gamma

theorem flmMethods_ignore (ylm : ℕ → ℝ → ℝ → List ℂ) (rot : ℕ → List ℂ → ℝ → ℝ → ℝ → List ℂ) : IgnoresFlag (flmMethods ylm rot) :=
  fun _ _ => ⟨fun _ _ => rfl, fun _ _ _ => rfl⟩

theorem fpMethods_ignore {L : ℕ} {Pix : Type} (e : SlepianEnv L Pix) (pixel : ℝ → ℝ → Pix) : IgnoresFlag (fpMethods e pixel) :=
  fun _ _ => ⟨fun _ _ => rfl, fun _ _ _ => rfl⟩

/-- the object but for the reality flag. -/
def withFlag (i : Inst) (b : Bool) : Inst := { i with obj := { i.obj with reality := b } }

/-- the calls that clear the flag: every convolution, also one that raises, and every translation of an object that is not a Dirac
delta by name, unless the basis functions at the point cannot be computed. -/
def Clears (m : Methods) (i : Inst) : Call → Prop
  | .translate alpha beta _ => contains "dirac_delta" i.obj.name = false ∧ ∃ g, m.helper i.obj alpha beta = .ok g
  | .convolve _ _ _ => True
  | .rotate _ _ _ => False

private theorem call_flag {m : Methods} (hm : IgnoresFlag m) (i : Inst) (b : Bool) (c : Call) :
    (call m (withFlag i b) c).1 = (call m i c).1 ∧ ∃ b', (call m (withFlag i b) c).2 = withFlag i b' ∧ (b' = true ↔ b = true ∧ ¬ Clears m i c) := by
  cases c with
  | translate alpha beta shannon =>
    have hh := (hm i.obj b).1 alpha beta
    simp only [call, withFlag, translate, hh, Clears]
    cases hx : m.helper i.obj alpha beta with
    | error e => exact ⟨rfl, b, rfl, by simp⟩
    | ok g =>
      by_cases hn : contains "dirac_delta" i.obj.name = true
      · exact ⟨by simp [hn], b, by simp [hn], by simp [hn]⟩
      · exact ⟨by simp [hn], false, by simp [hn, convolve], by simp [hn]⟩
  | convolve f g shannon => exact ⟨rfl, false, rfl, by simp [Clears]⟩
  | rotate alpha beta gamma => exact ⟨(hm i.obj b).2 alpha beta gamma, b, rfl, by simp [Clears]⟩

private theorem calls_flag {m : Methods} (hm : IgnoresFlag m) (i : Inst) : ∀ (cs : List Call) (b : Bool),
    (calls m (withFlag i b) cs).1 = cs.map (fun c => (call m i c).1) ∧
    ∃ b', (calls m (withFlag i b) cs).2 = withFlag i b' ∧ (b' = true ↔ b = true ∧ ∀ c ∈ cs, ¬ Clears m i c)
  | [], b => ⟨rfl, b, rfl, by simp⟩
  | c :: cs, b => by
    obtain ⟨h1, b1, h2, h3⟩ := call_flag hm i b c
    obtain ⟨h4, b2, h5, h6⟩ := calls_flag hm i cs b1
    refine ⟨by simp only [calls, h1, h2, h4, List.map_cons], b2, by simp only [calls, h2, h5], ?_⟩
    rw [h6, h3, List.forall_mem_cons, and_assoc]

/-- C110.  The result of a call of a method is the one of the same call on the new object, whatever calls came before, also ones that
raised. -/
theorem C110_results {L : ℕ} {Pix : Type} (m : Methods)
    (hm : (∃ ylm rot, m = flmMethods ylm rot) ∨ ∃ (e : SlepianEnv L Pix) (pixel : ℝ → ℝ → Pix), m = fpMethods e pixel)
    (i : Inst) (cs : List Call) : (calls m i cs).1 = cs.map fun c => (call m i c).1 := by
  have hi : IgnoresFlag m := by
    rcases hm with ⟨ylm, rot, rfl⟩ | ⟨e, pixel, rfl⟩
    · exact flmMethods_ignore ylm rot
    · exact fpMethods_ignore e pixel
  exact (calls_flag hi i cs i.obj.reality).1

/-- C110 (what remains true).  Calls of methods leave everything but the reality flag as it was; the flag is true afterwards exactly
when it was before and nothing was convolved and nothing but Dirac deltas translated.  Missing: the flag itself. -/
theorem C110_unchanged_partial {L : ℕ} {Pix : Type} (m : Methods)
    (hm : (∃ ylm rot, m = flmMethods ylm rot) ∨ ∃ (e : SlepianEnv L Pix) (pixel : ℝ → ℝ → Pix), m = fpMethods e pixel)
    (i : Inst) (cs : List Call) :
    (calls m i cs).2.settings = i.settings ∧ (calls m i cs).2.obj = { i.obj with reality := (calls m i cs).2.obj.reality } ∧
    ((calls m i cs).2.obj.reality = true ↔ i.obj.reality = true ∧ ∀ c ∈ cs, ¬ Clears m i c) := by
  have hi : IgnoresFlag m := by
    rcases hm with ⟨ylm, rot, rfl⟩ | ⟨e, pixel, rfl⟩
    · exact flmMethods_ignore ylm rot
    · exact fpMethods_ignore e pixel
  obtain ⟨-, b, h2, h3⟩ := calls_flag hi i cs i.obj.reality
  have hself : withFlag i i.obj.reality = i := rfl
  rw [hself] at h2
  rw [h2]
  exact ⟨rfl, rfl, h3⟩

/-- C110.  Rotating a harmonic function gives what the library gives for its bandlimit, its coefficients and the three angles in order; a
Slepian function cannot be rotated.  The object stays as it is. -/
theorem C110_rotate (ylm : ℕ → ℝ → ℝ → List ℂ) (rot : ℕ → List ℂ → ℝ → ℝ → ℝ → List ℂ) {L : ℕ} {Pix : Type} (e : SlepianEnv L Pix)
    (pixel : ℝ → ℝ → Pix) (i : Inst) (alpha beta gamma : ℝ) :
    call (flmMethods ylm rot) i (.rotate alpha beta gamma) = (.ok (rot i.obj.L i.obj.coefficients alpha beta gamma), i) ∧
      call (fpMethods e pixel) i (.rotate alpha beta gamma) = (.error .notImplementedError, i) := ⟨rfl, rfl⟩

/-- C110 is violated: translating a real function gives the translated coefficients, and afterwards the function itself no longer
says that it is real. -/
theorem C110_flag_violation (ylm : ℕ → ℝ → ℝ → List ℂ) (hy : CreatesHarmonics 2 (ylm 2)) (rot : ℕ → List ℂ → ℝ → ℝ → ℝ → List ℂ) :
    ∃ (i : Inst) (c : Call) (t : List ℂ), i.obj.reality = true ∧ RealSignal 2 i.obj.coefficients ∧
      call (flmMethods ylm rot) i c = (.ok t, withFlag i false) := by
  have hb : Real.pi / 2 ∈ Set.Icc 0 Real.pi := ⟨by positivity, by have := Real.pi_pos; linarith⟩
  obtain ⟨t, ht, -⟩ := C86_translation (ylm 2) hy ⟨2, "gaussian_10sig_L2", 0, true, [1, 0, 1, 0], none, none⟩ (by simp) (by decide +kernel) hb 0
  refine ⟨⟨⟨2, none, none, none⟩, ⟨2, "gaussian_10sig_L2", 0, true, [1, 0, 1, 0], none, none⟩⟩, .translate 0 (Real.pi / 2) none, t, rfl, ?_, ?_⟩
  · refine ⟨rfl, fun l m hl hm => ?_⟩
    rw [abs_le] at hm
    have hcases : (l = 0 ∧ m = 0) ∨ (l = 1 ∧ (m = -1 ∨ m = 0 ∨ m = 1)) := by omega
    rcases hcases with ⟨rfl, rfl⟩ | ⟨rfl, rfl | rfl | rfl⟩ <;> simp [elm2ind]
  · simp only [call, flmMethods, ht]
    rfl

/-- C110 is violated: a convolution that raises clears the flag as well. -/
theorem C110_failure_violation (m : Methods) (i : Inst) :
    call m i (.convolve [1, 2] [1, 2, 3] none) = (.error .valueError, withFlag i false) := by
  simp only [call, convolve, withFlag, Wavelets.sift, NumPy.upTo]
  rw [NumPy.broadcast_error _ _ _ (by simp) (by simp) (by simp)]

/-- C110.  An assignment changes that field and no other: the name, the flag, the spin, the clean coefficients and the signal-to-noise
ratio are those of the construction, and the coefficients too unless they are assigned. -/
theorem C110_assign (i : Inst) (x : Assignment) :
    (assign i x).obj.name = i.obj.name ∧ (assign i x).obj.spin = i.obj.spin ∧ (assign i x).obj.reality = i.obj.reality ∧
    (assign i x).obj.unnoised = i.obj.unnoised ∧ (assign i x).obj.snr = i.obj.snr ∧
    ((∀ v, x ≠ .coefficients v) → (assign i x).obj.coefficients = i.obj.coefficients) ∧
    ((∀ v, x ≠ .L v) → (assign i x).obj.L = i.obj.L) := by
  cases x with
  | coefficients v => exact ⟨rfl, rfl, rfl, rfl, rfl, fun h => absurd rfl (h v), fun _ => rfl⟩
  | L v => exact ⟨rfl, rfl, rfl, rfl, rfl, fun _ => rfl, fun h => absurd rfl (h v)⟩
  | noise v | region v | smoothing v => exact ⟨rfl, rfl, rfl, rfl, rfl, fun _ => rfl, fun _ => rfl⟩

/-- C110 is violated: after the bandlimit (at least 2) of a harmonic function is assigned another one (at least 2), its name still
says the old one, which no function built with the new bandlimit is called, its coefficients are as many as before, and translating it
raises `ValueError`. -/
theorem C110_stale_violation (limDen : ℚ → ℚ) (normals : ℕ → ℕ → ℝ) (h : Hooks) (s : Settings) (w w' : Noise.World) (o : Obj)
    (hc : flm limDen normals h s w = .ok (o, w')) (hl : o.coefficients.length = s.L ^ 2) (hL : 2 ≤ s.L)
    (hn : contains "dirac_delta" o.name = false) (n : ℕ) (hn2 : 2 ≤ n) (hne : n ≠ s.L)
    (ylm : ℕ → ℝ → ℝ → List ℂ) (hy : CreatesHarmonics n (ylm n)) (rot : ℕ → List ℂ → ℝ → ℝ → ℝ → List ℂ) :
    (∀ (h' : Hooks) (s' : Settings) (v v' : Noise.World) (o' : Obj), s'.L = n → flm limDen normals h' s' v = .ok (o', v') →
      (assign ⟨s, o⟩ (.L n)).obj.name ≠ o'.name) ∧
    (assign ⟨s, o⟩ (.L n)).obj.coefficients.length = s.L ^ 2 ∧
    ∀ alpha, ∀ beta ∈ Set.Icc 0 Real.pi, (call (flmMethods ylm rot) (assign ⟨s, o⟩ (.L n)) (.translate alpha beta none)).1 = .error .valueError := by
  refine ⟨fun h' s' v v' o' hs' ho' heq => hne ?_, hl, fun alpha beta hb => ?_⟩
  · rw [C67_name_determines_bandlimit limDen h h' s s' _ _ w w' v v' o o' hc ho' heq, hs']
  · have hyl := (hy beta hb alpha).1
    simp only [call, assign, flmMethods, flmHelper, translate, hn, Bool.false_eq_true, if_false, convolve, Wavelets.sift, NumPy.upTo]
    rw [NumPy.broadcast_error]
    · simp only [List.length_map, hyl, hl]
      intro h1
      exact hne (Nat.pow_left_injective (n := 2) (by norm_num) h1).symm
    · rw [hl]
      nlinarith
    · simp only [List.length_map, hyl]
      nlinarith

/-- C110 is violated: a function whose noise is assigned has no noise. -/
theorem C110_noise_violation (i : Inst) (v : ℚ) (h : i.obj.unnoised = none) :
    (assign i (.noise (some v))).settings.noise = some v ∧ (assign i (.noise (some v))).obj = i.obj ∧
    (assign i (.noise (some v))).obj.unnoised = none ∧
    ∀ (limDen : ℚ → ℚ) (normals : ℕ → ℕ → ℝ) (hk : Hooks) (s : Settings) (w w' : Noise.World) (o : Obj), s.noise = some v →
      flm limDen normals hk s w = .ok (o, w') → o.unnoised ≠ none := by
  refine ⟨rfl, rfl, h, fun limDen normals hk s w w' o hs ho => ?_⟩
  simp only [flm, flmNoise, hs] at ho
  unfold postInit at ho
  cases h1 : hk.setupArgs with
  | error x => rw [h1] at ho; cases ho
  | ok _ =>
    rw [h1] at ho
    cases h2 : hk.create w with
    | error x => rw [h2] at ho; cases ho
    | ok p =>
      rw [h2] at ho
      simp only [bind, Except.bind, addNoiseWith] at ho
      cases h3 : Noise.createNoise normals s.L p.1 v p.2 with
      | error x => rw [h3] at ho; cases ho
      | ok q =>
        rw [h3] at ho
        dsimp only at ho
        cases h4 : NumPy.broadcast (· + ·) p.1 q.1 with
        | error x => rw [h4] at ho; cases ho
        | ok c =>
          rw [h4] at ho
          simp only [pure, Except.pure, Except.ok.injEq, Prod.mk.injEq] at ho
          obtain ⟨rfl, -⟩ := ho
          simp

/-- Non-vacuity: a Gaussian of bandlimit 2 with the exact spherical harmonics, translated, rotated and convolved. -/
example : CreatesHarmonics 2 (exactYlm 2) ∧
    ((calls (flmMethods exactYlm fun _ c _ _ _ => c) ⟨⟨2, none, none, none⟩, ⟨2, "gaussian_10sig_L2", 0, true, [1, 0, 1, 0], none, none⟩⟩
      [.rotate 0 0 0, .convolve [1, 2] [1, 2, 3] none, .rotate 0 0 0]).1.length = 3) := ⟨exactYlm_creates 2, rfl⟩

/-- Non-vacuity: a function of bandlimit 2 built from four coefficients. -/
example (limDen : ℚ → ℚ) (normals : ℕ → ℕ → ℝ) (w : Noise.World) : ∃ (h : Hooks) (o : Obj),
    flm limDen normals h ⟨2, none, none, none⟩ w = .ok (o, w) ∧ o.coefficients.length = 2 ^ 2 ∧ contains "dirac_delta" o.name = false ∧
    o.unnoised = none :=
  ⟨⟨.ok (), "gaussian_10sig", 0, true, fun w => .ok ([1, 0, 1, 0], w)⟩, _, rfl, rfl, by
    simp only [addDetails]
    decide +kernel, rfl⟩

end Sleplet.Props
