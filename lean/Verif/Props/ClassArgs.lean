import Verif.Model.Classes

/-!
C68: the list of extra arguments of a function class.
-/
namespace Sleplet.Props

open Classes

/-- The fields given as keywords are admissible: the degree and order of a spherical harmonic. -/
def Admissible (L : ℕ) : Fn → Prop
  | .sphericalHarmonic ell m => 0 ≤ ell ∧ ell < L ∧ |m| ≤ ell
  | _ => True

/-- The scale `j` exists for the basis `B` and the first scale `jMin`. -/
def ScaleExists (jMax : JMax) (limit : ℕ) (B jMin j : ℤ) : Prop := 0 ≤ j ∧ j ≤ jMax B limit jMin - jMin

/-- What a list of extra arguments means for each class that takes one: the parameters in the documented order, widths as
powers of ten. -/
inductive Means (jMax : JMax) (L : ℕ) : Fn → List ℤ → Fn → Prop
  | elongated (a b x y) : Means jMax L (.elongatedGaussian a b) [x, y] (.elongatedGaussian ((10 : ℚ) ^ x) ((10 : ℚ) ^ y))
  | gaussian (a x) : Means jMax L (.gaussian a) [x] (.gaussian ((10 : ℚ) ^ x))
  | harmonic (a b x y) : Means jMax L (.harmonicGaussian a b) [x, y] (.harmonicGaussian ((10 : ℚ) ^ x) ((10 : ℚ) ^ y))
  | squashed (a b x y) : Means jMax L (.squashedGaussian a b) [x, y] (.squashedGaussian ((10 : ℚ) ^ x) ((10 : ℚ) ^ y))
  | noise (a x) : Means jMax L (.noiseEarth a) [x] (.noiseEarth x)
  | spherical (a b l m : ℤ) (h : 0 ≤ l ∧ l < L ∧ |m| ≤ l) : Means jMax L (.sphericalHarmonic a b) [l, m] (.sphericalHarmonic l m)
  | wavelets (w B jMin) (j : ℕ) (h : ScaleExists jMax L B jMin j) :
      Means jMax L (.axisymmetricWavelets w) [B, jMin, j] (.axisymmetricWavelets ⟨B, jMin, some j⟩)
  | africa (w B jMin) (j : ℕ) (h : ScaleExists jMax L B jMin j) :
      Means jMax L (.axisymmetricWaveletCoefficientsAfrica w) [B, jMin, j] (.axisymmetricWaveletCoefficientsAfrica ⟨B, jMin, some j⟩)
  | earth (w B jMin) (j : ℕ) (h : ScaleExists jMax L B jMin j) :
      Means jMax L (.axisymmetricWaveletCoefficientsEarth w) [B, jMin, j] (.axisymmetricWaveletCoefficientsEarth ⟨B, jMin, some j⟩)
  | southAmerica (w B jMin) (j : ℕ) (h : ScaleExists jMax L B jMin j) :
      Means jMax L (.axisymmetricWaveletCoefficientsSouthAmerica w) [B, jMin, j]
        (.axisymmetricWaveletCoefficientsSouthAmerica ⟨B, jMin, some j⟩)
  | ridgelets (w s B jMin spin) (j : ℕ) (h : ScaleExists jMax L B jMin j) :
      Means jMax L (.ridgelets w s) [B, jMin, spin, j] (.ridgelets ⟨B, jMin, some j⟩ spin)

/-- The Slepian classes; the scales are those of `L²` coefficients. -/
inductive SMeans (jMax : JMax) (L : ℕ) : SFn → List ℤ → SFn → Prop
  | noiseAfrica (a x) : SMeans jMax L (.slepianNoiseAfrica a) [x] (.slepianNoiseAfrica x)
  | noiseSouthAmerica (a x) : SMeans jMax L (.slepianNoiseSouthAmerica a) [x] (.slepianNoiseSouthAmerica x)
  | wavelets (w B jMin) (j : ℕ) (h : ScaleExists jMax (L ^ 2) B jMin j) :
      SMeans jMax L (.slepianWavelets w) [B, jMin, j] (.slepianWavelets ⟨B, jMin, some j⟩)
  | africa (w B jMin) (j : ℕ) (h : ScaleExists jMax (L ^ 2) B jMin j) :
      SMeans jMax L (.slepianWaveletCoefficientsAfrica w) [B, jMin, j] (.slepianWaveletCoefficientsAfrica ⟨B, jMin, some j⟩)
  | southAmerica (w B jMin) (j : ℕ) (h : ScaleExists jMax (L ^ 2) B jMin j) :
      SMeans jMax L (.slepianWaveletCoefficientsSouthAmerica w) [B, jMin, j]
        (.slepianWaveletCoefficientsSouthAmerica ⟨B, jMin, some j⟩)

/-- The classes without parameters. -/
def Parameterless (fn : Fn) : Prop :=
  fn.className ∈ ["Africa", "DiracDelta", "Earth", "Identity", "SouthAmerica", "Wmap"]

/-- The Slepian classes without parameters. -/
def SParameterless (fn : SFn) : Prop :=
  fn.className ∈ ["SlepianAfrica", "SlepianDiracDelta", "SlepianIdentity", "SlepianSouthAmerica"]

private theorem keywords_ok (jMax : JMax) (limit : ℕ) (B jMin j : ℤ) (w : Wave) :
    keywords jMax limit B jMin (some j) = .ok w ↔
      ∃ n : ℕ, j = n ∧ ScaleExists jMax limit B jMin n ∧ w = ⟨B, jMin, some n⟩ := by
  unfold keywords Wavelets.checkJ ScaleExists
  by_cases h1 : j < 0
  · simp only [if_pos h1, bind, Except.bind, reduceCtorEq, false_iff, not_exists, not_and]
    intro n hn; omega
  · by_cases h2 : j > jMax B limit jMin - jMin
    · simp only [if_neg h1, if_pos h2, bind, Except.bind, reduceCtorEq, false_iff, not_exists, not_and]
      intro n hn h3; omega
    · simp only [if_neg h1, if_neg h2, bind, Except.bind, pure, Except.pure, Except.ok.injEq]
      constructor
      · rintro rfl; exact ⟨j.toNat, by omega, ⟨by omega, by omega⟩, rfl⟩
      · rintro ⟨n, rfl, -, rfl⟩; simp

private theorem keywords_error (jMax : JMax) (limit : ℕ) (B jMin j : ℤ) (e : Err) :
    keywords jMax limit B jMin (some j) = .error e → e = .valueError := by
  unfold keywords Wavelets.checkJ
  dsimp only
  split_ifs <;> simp +contextual [bind, Except.bind, pure, Except.pure, eq_comm]

theorem waveArgs_ok (jMax : JMax) (limit : ℕ) (w w' : Wave) (args : List ℤ) :
    waveArgs jMax limit w (some args) = .ok w' ↔
      ∃ (B jMin : ℤ) (n : ℕ), args = [B, jMin, (n : ℤ)] ∧ ScaleExists jMax limit B jMin n ∧ w' = ⟨B, jMin, some n⟩ := by
  match args with
  | [] => simp [waveArgs]
  | [_] => simp [waveArgs]
  | [_, _] => simp [waveArgs]
  | [B, jMin, j] =>
    rw [waveArgs, keywords_ok]
    constructor
    · rintro ⟨n, rfl, h, rfl⟩; exact ⟨B, jMin, n, rfl, h, rfl⟩
    · rintro ⟨B', jMin', n, h1, h, rfl⟩
      simp only [List.cons.injEq, and_true] at h1
      obtain ⟨rfl, rfl, rfl⟩ := h1
      exact ⟨n, rfl, h, rfl⟩
  | _ :: _ :: _ :: _ :: _ => simp [waveArgs]

theorem waveArgs_error (jMax : JMax) (limit : ℕ) (w : Wave) (args : List ℤ) (e : Err) :
    waveArgs jMax limit w (some args) = .error e → e = .valueError := by
  match args with
  | [] => simp +contextual [waveArgs, eq_comm]
  | [_] => simp +contextual [waveArgs, eq_comm]
  | [_, _] => simp +contextual [waveArgs, eq_comm]
  | [B, jMin, j] => exact keywords_error _ _ _ _ _ _
  | _ :: _ :: _ :: _ :: _ => simp +contextual [waveArgs, eq_comm]

private theorem map_ok {α β : Type} (f : α → β) (x : Except Err α) (b : β) : x.map f = .ok b ↔ ∃ a, x = .ok a ∧ f a = b := by
  cases x <;> simp [Except.map]

private theorem map_error {α β : Type} (f : α → β) (x : Except Err α) (e : Err) : x.map f = .error e ↔ x = .error e := by
  cases x <;> simp [Except.map]

private theorem powArgs_ok {α : Type} (fn fn' : α) (mk : ℚ → ℚ → α) (args : List ℤ) :
    powArgs fn mk (some args) = .ok fn' ↔ ∃ x y, args = [x, y] ∧ mk ((10 : ℚ) ^ x) ((10 : ℚ) ^ y) = fn' := by
  match args with
  | [] => simp [powArgs]
  | [_] => simp [powArgs]
  | [x, y] =>
    simp only [powArgs, Except.ok.injEq, List.cons.injEq, and_true]
    exact ⟨fun h => ⟨x, y, ⟨rfl, rfl⟩, h⟩, by rintro ⟨x', y', ⟨rfl, rfl⟩, h⟩; exact h⟩
  | _ :: _ :: _ :: _ => simp [powArgs]

private theorem powArg_ok {α : Type} (fn fn' : α) (mk : ℚ → α) (args : List ℤ) :
    powArg fn mk (some args) = .ok fn' ↔ ∃ x, args = [x] ∧ mk ((10 : ℚ) ^ x) = fn' := by
  match args with
  | [] => simp [powArg]
  | [x] =>
    simp only [powArg, Except.ok.injEq, List.cons.injEq, and_true]
    exact ⟨fun h => ⟨x, rfl, h⟩, by rintro ⟨x', rfl, h⟩; exact h⟩
  | _ :: _ :: _ => simp [powArg]

theorem snrArg_ok {α : Type} (fn fn' : α) (mk : ℚ → α) (args : List ℤ) :
    snrArg fn mk (some args) = .ok fn' ↔ ∃ x : ℤ, args = [x] ∧ mk (x : ℚ) = fn' := by
  match args with
  | [] => simp [snrArg]
  | [x] =>
    simp only [snrArg, Except.ok.injEq, List.cons.injEq, and_true]
    exact ⟨fun h => ⟨x, rfl, h⟩, by rintro ⟨x', rfl, h⟩; exact h⟩
  | _ :: _ :: _ => simp [snrArg]

private theorem spherical_ok (L : ℕ) (a b : ℤ) (hab : 0 ≤ a ∧ a < L ∧ |b| ≤ a) (args : List ℤ) (x : ℤ × ℤ) :
    Functions.sphericalHarmonicArgs L a b (some args) = .ok x ↔
      ∃ l m : ℤ, args = [l, m] ∧ (0 ≤ l ∧ l < L ∧ |m| ≤ l) ∧ x = (l, m) := by
  have hc : Functions.checkEll L a = .ok () := by
    simp only [Functions.checkEll]; rw [if_neg (by omega), if_neg (by omega)]
  have hm : Functions.checkM (some a) b = .ok () := by
    simp only [Functions.checkM]; rw [if_neg (by have := hab.2.2; omega)]
  unfold Functions.sphericalHarmonicArgs
  simp only [hc, hm, bind, Except.bind]
  match args with
  | [] => simp
  | [_] => simp
  | [l, m] =>
    simp only [Functions.checkEll, Functions.checkM]
    split_ifs with h1 h2 h3
    · simp only [reduceCtorEq, false_iff]; rintro ⟨l', m', h, h', -⟩; simp at h; omega
    · simp only [reduceCtorEq, false_iff]; rintro ⟨l', m', h, h', -⟩; simp at h; omega
    · simp only [reduceCtorEq, false_iff]; rintro ⟨l', m', h, h', -⟩; simp at h; obtain ⟨rfl, rfl⟩ := h; omega
    · simp only [pure, Except.pure, Except.ok.injEq, List.cons.injEq, and_true]
      constructor
      · rintro rfl; exact ⟨l, m, ⟨rfl, rfl⟩, ⟨by omega, by omega, by omega⟩, rfl⟩
      · rintro ⟨l', m', ⟨rfl, rfl⟩, -, rfl⟩; rfl
  | _ :: _ :: _ :: _ => simp

private theorem spherical_error (L : ℕ) (a b : ℤ) (hab : 0 ≤ a ∧ a < L ∧ |b| ≤ a) (args : List ℤ) (e : Err) :
    Functions.sphericalHarmonicArgs L a b (some args) = .error e → e = .valueError := by
  have hc : Functions.checkEll L a = .ok () := by
    simp only [Functions.checkEll]; rw [if_neg (by omega), if_neg (by omega)]
  have hm : Functions.checkM (some a) b = .ok () := by
    simp only [Functions.checkM]; rw [if_neg (by have := hab.2.2; omega)]
  unfold Functions.sphericalHarmonicArgs
  simp only [hc, hm, bind, Except.bind]
  match args with
  | [] => simp +contextual [eq_comm]
  | [_] => simp +contextual [eq_comm]
  | [l, m] =>
    simp only [Functions.checkEll, Functions.checkM]
    split_ifs <;> simp +contextual [pure, Except.pure, eq_comm]
  | _ :: _ :: _ :: _ => simp +contextual [eq_comm]

private theorem ridgeletArgs_ok (jMax : JMax) (limit : ℕ) (w : Wave) (s : ℤ) (args : List ℤ) (x : Wave × ℤ) :
    ridgeletArgs jMax limit w s (some args) = .ok x ↔
      ∃ (B jMin spin : ℤ) (n : ℕ), args = [B, jMin, spin, (n : ℤ)] ∧ ScaleExists jMax limit B jMin n ∧
        x = (⟨B, jMin, some n⟩, spin) := by
  match args with
  | [] => simp [ridgeletArgs]
  | [_] => simp [ridgeletArgs]
  | [_, _] => simp [ridgeletArgs]
  | [_, _, _] => simp [ridgeletArgs]
  | [B, jMin, spin, j] =>
    simp only [ridgeletArgs]
    constructor
    · intro h
      cases hk : keywords jMax limit B jMin (some j) with
      | error e => rw [hk] at h; cases h
      | ok v =>
        rw [hk] at h
        simp only [bind, Except.bind, pure, Except.pure, Except.ok.injEq] at h
        obtain ⟨n, rfl, h1, rfl⟩ := (keywords_ok _ _ _ _ _ _).1 hk
        exact ⟨B, jMin, spin, n, rfl, h1, h.symm⟩
    · rintro ⟨B', jMin', spin', n, h1, h, rfl⟩
      simp only [List.cons.injEq, and_true] at h1
      obtain ⟨rfl, rfl, rfl, rfl⟩ := h1
      rw [(keywords_ok _ _ _ _ _ _).2 ⟨n, rfl, h, rfl⟩]
      rfl
  | _ :: _ :: _ :: _ :: _ :: _ => simp [ridgeletArgs]

private theorem ridgeletArgs_error (jMax : JMax) (limit : ℕ) (w : Wave) (s : ℤ) (args : List ℤ) (e : Err) :
    ridgeletArgs jMax limit w s (some args) = .error e → e = .valueError := by
  match args with
  | [] => simp +contextual [ridgeletArgs, eq_comm]
  | [_] => simp +contextual [ridgeletArgs, eq_comm]
  | [_, _] => simp +contextual [ridgeletArgs, eq_comm]
  | [_, _, _] => simp +contextual [ridgeletArgs, eq_comm]
  | [B, jMin, spin, j] =>
    simp only [ridgeletArgs]
    cases hk : keywords jMax limit B jMin (some j) with
    | error e' => rintro h; cases h; exact keywords_error _ _ _ _ _ _ hk
    | ok v => intro h; cases h
  | _ :: _ :: _ :: _ :: _ :: _ => simp +contextual [ridgeletArgs, eq_comm]

private theorem powArgs_error {α : Type} (fn : α) (mk : ℚ → ℚ → α) (args : List ℤ) (e : Err) :
    powArgs fn mk (some args) = .error e → e = .valueError := by
  match args with
  | [] => simp +contextual [powArgs, eq_comm]
  | [_] => simp +contextual [powArgs, eq_comm]
  | [x, y] => simp [powArgs]
  | _ :: _ :: _ :: _ => simp +contextual [powArgs, eq_comm]

private theorem powArg_error {α : Type} (fn : α) (mk : ℚ → α) (args : List ℤ) (e : Err) :
    powArg fn mk (some args) = .error e → e = .valueError := by
  match args with
  | [] => simp +contextual [powArg, eq_comm]
  | [x] => simp [powArg]
  | _ :: _ :: _ => simp +contextual [powArg, eq_comm]

theorem snrArg_error {α : Type} (fn : α) (mk : ℚ → α) (args : List ℤ) (e : Err) :
    snrArg fn mk (some args) = .error e → e = .valueError := by
  match args with
  | [] => simp +contextual [snrArg, eq_comm]
  | [x] => simp [snrArg]
  | _ :: _ :: _ => simp +contextual [snrArg, eq_comm]

/-- C68. A list of extra arguments is accepted exactly when it is a list of parameters of the class in the documented order,
and then those are the parameters of the object, whatever keywords were given. -/
theorem C68_harmonic_args (jMax : JMax) (L : ℕ) (fn fn' : Fn) (hfn : Admissible L fn) (args : List ℤ) :
    fn.setupArgs jMax L (some args) = .ok fn' ↔ Means jMax L fn args fn' := by
  constructor
  · intro h
    cases fn <;> simp only [Fn.setupArgs, noArgs, reduceCtorEq, powArgs_ok, powArg_ok, snrArg_ok, map_ok, waveArgs_ok,
      ridgeletArgs_ok] at h
    case sphericalHarmonic a b =>
      obtain ⟨x, h1, rfl⟩ := h
      obtain ⟨l, m, rfl, h2, rfl⟩ := (spherical_ok L a b hfn args x).1 h1
      exact Means.spherical a b l m h2
    case elongatedGaussian a b => obtain ⟨x, y, rfl, rfl⟩ := h; constructor
    case harmonicGaussian a b => obtain ⟨x, y, rfl, rfl⟩ := h; constructor
    case squashedGaussian a b => obtain ⟨x, y, rfl, rfl⟩ := h; constructor
    case gaussian a => obtain ⟨x, rfl, rfl⟩ := h; constructor
    case noiseEarth a => obtain ⟨x, rfl, rfl⟩ := h; constructor
    case ridgelets => obtain ⟨_, ⟨B, jMin, spin, n, rfl, h, rfl⟩, rfl⟩ := h; exact Means.ridgelets _ _ _ _ _ _ h
    all_goals (obtain ⟨_, ⟨B, jMin, n, rfl, h, rfl⟩, rfl⟩ := h; constructor; exact h)
  · intro h
    cases h <;> simp only [Fn.setupArgs, powArgs, powArg, snrArg, map_ok, waveArgs_ok, ridgeletArgs_ok]
    case spherical a b l m h => exact ⟨(l, m), (spherical_ok L a b hfn _ _).2 ⟨l, m, rfl, h, rfl⟩, rfl⟩
    case ridgelets w s B jMin spin j h => exact ⟨_, ⟨B, jMin, spin, j, rfl, h, rfl⟩, rfl⟩
    all_goals (rename_i h; exact ⟨_, ⟨_, _, _, rfl, h, rfl⟩, rfl⟩)

/-- C68. A rejected list raises `TypeError` for a class without parameters and `ValueError` for every other class. -/
theorem C68_harmonic_errors (jMax : JMax) (L : ℕ) (fn : Fn) (hfn : Admissible L fn) (args : List ℤ) (e : Err)
    (h : fn.setupArgs jMax L (some args) = .error e) :
    (Parameterless fn ∧ e = .typeError) ∨ (¬ Parameterless fn ∧ e = .valueError) := by
  cases fn <;> simp only [Fn.setupArgs, noArgs, map_error, Except.error.injEq] at h
  case sphericalHarmonic a b => exact Or.inr ⟨by simp [Parameterless, Fn.className], spherical_error L a b hfn args e h⟩
  case ridgelets => exact Or.inr ⟨by simp [Parameterless, Fn.className], ridgeletArgs_error _ _ _ _ _ _ h⟩
  case gaussian => exact Or.inr ⟨by simp [Parameterless, Fn.className], powArg_error _ _ _ _ h⟩
  case noiseEarth => exact Or.inr ⟨by simp [Parameterless, Fn.className], snrArg_error _ _ _ _ h⟩
  case elongatedGaussian => exact Or.inr ⟨by simp [Parameterless, Fn.className], powArgs_error _ _ _ _ h⟩
  case harmonicGaussian => exact Or.inr ⟨by simp [Parameterless, Fn.className], powArgs_error _ _ _ _ h⟩
  case squashedGaussian => exact Or.inr ⟨by simp [Parameterless, Fn.className], powArgs_error _ _ _ _ h⟩
  case axisymmetricWavelets => exact Or.inr ⟨by simp [Parameterless, Fn.className], waveArgs_error _ _ _ _ _ h⟩
  case axisymmetricWaveletCoefficientsAfrica =>
    exact Or.inr ⟨by simp [Parameterless, Fn.className], waveArgs_error _ _ _ _ _ h⟩
  case axisymmetricWaveletCoefficientsEarth =>
    exact Or.inr ⟨by simp [Parameterless, Fn.className], waveArgs_error _ _ _ _ _ h⟩
  case axisymmetricWaveletCoefficientsSouthAmerica =>
    exact Or.inr ⟨by simp [Parameterless, Fn.className], waveArgs_error _ _ _ _ _ h⟩
  all_goals exact Or.inl ⟨by simp [Parameterless, Fn.className], h.symm⟩

/-- C68 for the Slepian classes. -/
theorem C68_slepian_args (jMax : JMax) (L : ℕ) (fn fn' : SFn) (args : List ℤ) :
    fn.setupArgs jMax L (some args) = .ok fn' ↔ SMeans jMax L fn args fn' := by
  constructor
  · intro h
    cases fn <;> simp only [SFn.setupArgs, noArgs, reduceCtorEq, snrArg_ok, map_ok, waveArgs_ok] at h
    case slepianNoiseAfrica a => obtain ⟨x, rfl, rfl⟩ := h; constructor
    case slepianNoiseSouthAmerica a => obtain ⟨x, rfl, rfl⟩ := h; constructor
    all_goals (obtain ⟨_, ⟨B, jMin, n, rfl, h, rfl⟩, rfl⟩ := h; constructor; exact h)
  · intro h
    cases h <;> simp only [SFn.setupArgs, snrArg, map_ok, waveArgs_ok]
    all_goals (rename_i h; exact ⟨_, ⟨_, _, _, rfl, h, rfl⟩, rfl⟩)

/-- C68, the errors of the Slepian classes. -/
theorem C68_slepian_errors (jMax : JMax) (L : ℕ) (fn : SFn) (args : List ℤ) (e : Err)
    (h : fn.setupArgs jMax L (some args) = .error e) :
    (SParameterless fn ∧ e = .typeError) ∨ (¬ SParameterless fn ∧ e = .valueError) := by
  cases fn <;> simp only [SFn.setupArgs, noArgs, map_error, Except.error.injEq] at h
  case slepianNoiseAfrica => exact Or.inr ⟨by simp [SParameterless, SFn.className], snrArg_error _ _ _ _ h⟩
  case slepianNoiseSouthAmerica => exact Or.inr ⟨by simp [SParameterless, SFn.className], snrArg_error _ _ _ _ h⟩
  case slepianWavelets => exact Or.inr ⟨by simp [SParameterless, SFn.className], waveArgs_error _ _ _ _ _ h⟩
  case slepianWaveletCoefficientsAfrica =>
    exact Or.inr ⟨by simp [SParameterless, SFn.className], waveArgs_error _ _ _ _ _ h⟩
  case slepianWaveletCoefficientsSouthAmerica =>
    exact Or.inr ⟨by simp [SParameterless, SFn.className], waveArgs_error _ _ _ _ _ h⟩
  all_goals exact Or.inl ⟨by simp [SParameterless, SFn.className], h.symm⟩

/-- C68. Without extra arguments the keywords stand, and a list of extra arguments gives the same object as the keywords it
stands for. -/
theorem C68_list_is_keywords (limDen : ℚ → ℚ) (e : Env) (fn fn' : Fn) (s : Functions.Settings) (hfn : Admissible s.L fn)
    (args : List ℤ) (h : Means e.jMax s.L fn args fn') (w : Noise.World) :
    fn.construct limDen e (some args) s w = fn'.construct limDen e none s w := by
  have h1 := (C68_harmonic_args e.jMax s.L fn fn' hfn args).2 h
  have h2 : fn'.setupArgs e.jMax s.L none = .ok fn' := by
    cases h <;> try rfl
    case spherical a b l m h =>
      have hc : Functions.checkEll s.L l = .ok () := by
        simp only [Functions.checkEll]; rw [if_neg (by omega), if_neg (by omega)]
      have hm : Functions.checkM (some l) m = .ok () := by
        simp only [Functions.checkM]; rw [if_neg (by have := h.2.2; omega)]
      simp only [Fn.setupArgs, Functions.sphericalHarmonicArgs, hc, hm]
      rfl
  simp only [Fn.construct, h1, h2]

/-- C68 for the Slepian classes. -/
theorem C68_slepian_list_is_keywords {L : ℕ} {Pix : Type} [Fintype Pix] (limDen : ℚ → ℚ) (e : SEnv L Pix) (fn fn' : SFn)
    (args : List ℤ) (h : SMeans e.env.jMax L fn args fn') (noise : Option ℚ) (smoothing : Option ℤ) (w : Noise.World) :
    fn.construct limDen e (some args) noise smoothing w = fn'.construct limDen e none noise smoothing w := by
  have h1 := (C68_slepian_args e.env.jMax L fn fn' args).2 h
  have h2 : fn'.setupArgs e.env.jMax L none = .ok fn' := by cases h <;> rfl
  simp only [SFn.construct, h1, h2]

/-- with scales up to 5, `Ridgelets(L, extra_args=[2, 0, 1, 5])` has scale 5 and `[2, 1, 1, 5]` is rejected. -/
example : Means (fun _ _ _ => 5) 8 (.ridgelets {} 2) [2, 0, 1, 5] (.ridgelets ⟨2, 0, some 5⟩ 1) ∧
    Fn.setupArgs (fun _ _ _ => 5) 8 (.ridgelets {} 2) (some [2, 1, 1, 5]) = .error .valueError :=
  ⟨Means.ridgelets {} 2 2 0 1 5 ⟨by norm_num, by norm_num⟩, rfl⟩

example : Fn.setupArgs (fun _ _ _ => 5) 8 .earth (some []) = .error .typeError ∧
    Fn.setupArgs (fun _ _ _ => 5) 8 (.gaussian 10) (some []) = .error .valueError ∧
    SFn.setupArgs (fun _ _ _ => 5) 8 .slepianIdentity (some [1]) = .error .typeError ∧
    SMeans (fun _ _ _ => 5) 8 (.slepianWavelets {}) [3, 2, 3] (.slepianWavelets ⟨3, 2, some 3⟩) :=
  ⟨rfl, rfl, rfl, SMeans.wavelets {} 3 2 3 ⟨by norm_num, by norm_num⟩⟩

end Sleplet.Props
