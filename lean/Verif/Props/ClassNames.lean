import Verif.Model.Classes
import Verif.Props.FunctionNames
import Verif.Props.ClassArgs

/-!
C69: the name of a function tells the class and its parameters.
-/
namespace Sleplet.Props

open Classes Strings Names

/-- The parameters of the function are recorded exactly in a name (integers, and fractions below one with a denominator of at most
a million; see C44 for the others). -/
def NameRecords : Fn → Prop
  | .elongatedGaussian a b | .harmonicGaussian a b | .squashedGaussian a b => Recorded a ∧ Recorded b
  | .gaussian a | .noiseEarth a => Recorded a
  | _ => True

/-- The same for the Slepian classes. -/
def SNameRecords : SFn → Prop
  | .slepianNoiseAfrica a | .slepianNoiseSouthAmerica a => Recorded a
  | _ => True

def NameTail (r : String) : Prop := r = "" ∨ ∃ t, r = "_" ++ t

theorem fragment_tail (limDen : ℚ → ℚ) (v : ℚ) (arg r : String) : NameTail (filenameArgs limDen v arg ++ r) := by
  unfold filenameArgs
  exact Or.inr ⟨_, by rw [String.append_assoc, String.append_assoc]⟩

theorem ending_tail (limDen : ℚ → ℚ) (jMin : ℤ) (j : Option ℤ) (r : String) : NameTail (waveletEnding limDen jMin j ++ r) := by
  cases j with
  | none => exact Or.inr ⟨"scaling" ++ r, by rw [← String.append_assoc]; rfl⟩
  | some j => exact fragment_tail _ _ _ _

theorem fragment_inj (limDen : ℚ → ℚ) (hlim : LimitDenominator limDen) (arg : String) (harg : ArgName arg) (v w : ℚ)
    (hv : Recorded v) (hw : Recorded w) (r s : String) (hr : NameTail r) (hs : NameTail s)
    (h : filenameArgs limDen v arg ++ r = filenameArgs limDen w arg ++ s) : v = w ∧ r = s :=
  C44_names_partial limDen hlim arg harg v w hv.1 hw.1 hv.2 hw.2 r s hr hs h

private theorem fragInt (limDen : ℚ → ℚ) (hlim : LimitDenominator limDen) (arg : String) (harg : ArgName arg) (v w : ℤ)
    (r s : String) (hr : NameTail r) (hs : NameTail s)
    (h : filenameArgs limDen (v : ℚ) arg ++ r = filenameArgs limDen (w : ℚ) arg ++ s) : v = w ∧ r = s := by
  have := fragment_inj limDen hlim arg harg v w ⟨by simp, by simp⟩ ⟨by simp, by simp⟩ r s hr hs h
  exact ⟨Int.cast_injective this.1, this.2⟩

private theorem scaling_ne (limDen : ℚ → ℚ) (i : ℚ) (r s : String) : "_scaling" ++ r ≠ filenameArgs limDen i "j" ++ s := by
  intro h
  have h1 := congrArg String.toList h
  rw [String.toList_append, String.toList_append, filenameArgs_toList] at h1
  have e : ("_scaling" : String).toList = ['_', 's', 'c', 'a', 'l', 'i', 'n', 'g'] := rfl
  rw [e] at h1
  simp only [List.cons_append, List.cons.injEq, true_and] at h1
  cases hd : (toString (limDen i).num).toList with
  | nil =>
    rw [hd] at h1
    have e2 : ("j" : String).toList = ['j'] := rfl
    simp [e2] at h1
  | cons d ds =>
    have h2 := int_chars (limDen i).num d (by rw [hd]; simp)
    rw [hd] at h1
    simp only [List.cons_append, List.cons.injEq] at h1
    rw [← h1.1] at h2
    revert h2
    decide

private theorem ending (limDen : ℚ → ℚ) (hlim : LimitDenominator limDen) (jMin : ℤ) (j j' : Option ℕ) (r s : String)
    (hr : NameTail r) (hs : NameTail s)
    (h : waveletEnding limDen jMin (j.map fun n : ℕ => (n : ℤ)) ++ r = waveletEnding limDen jMin (j'.map fun n : ℕ => (n : ℤ)) ++ s) :
    j = j' ∧ r = s := by
  cases j with
  | none =>
    cases j' with
    | none =>
      refine ⟨rfl, ?_⟩
      have h1 := congrArg String.toList h
      simp only [String.toList_append] at h1
      exact String.toList_injective (List.append_cancel_left h1)
    | some j' => exact absurd h (scaling_ne _ _ _ _)
  | some j =>
    cases j' with
    | none => exact absurd h.symm (scaling_ne _ _ _ _)
    | some j' =>
      obtain ⟨h1, h2⟩ := fragInt limDen hlim "j" ⟨'j', [], rfl, rfl⟩ _ _ r s hr hs h
      have h3 : (j : ℤ) + jMin = (j' : ℤ) + jMin := h1
      exact ⟨by congr 1; omega, h2⟩

theorem waveName_inj (limDen : ℚ → ℚ) (hlim : LimitDenominator limDen) (w w' : Wave) (r s : String) (hr : NameTail r) (hs : NameTail s)
    (h : waveName limDen w ++ r = waveName limDen w' ++ s) : w = w' ∧ r = s := by
  unfold waveName at h
  simp only [String.append_assoc] at h
  obtain ⟨h1, h⟩ := fragInt limDen hlim "B" ⟨'B', [], rfl, rfl⟩ _ _ _ _ (fragment_tail _ _ _ _) (fragment_tail _ _ _ _) h
  obtain ⟨h2, h⟩ := fragInt limDen hlim "jmin" ⟨'j', _, rfl, rfl⟩ _ _ _ _ (ending_tail _ _ _ _) (ending_tail _ _ _ _) h
  rw [h2] at h
  obtain ⟨h3, h5⟩ := ending limDen hlim _ _ _ r s hr hs h
  cases w; cases w'
  simp only at h1 h2 h3
  exact ⟨by rw [h1, h2, h3], h5⟩

private theorem ridge (limDen : ℚ → ℚ) (hlim : LimitDenominator limDen) (w w' : Wave) (p p' : ℤ) (r s : String) (hr : NameTail r)
    (hs : NameTail s)
    (h : filenameArgs limDen (w.B : ℚ) "B" ++ filenameArgs limDen (w.jMin : ℚ) "jmin" ++
      filenameArgs limDen (p : ℚ) "spin" ++ waveletEnding limDen w.jMin (w.j.map fun n : ℕ => (n : ℤ)) ++ r =
      filenameArgs limDen (w'.B : ℚ) "B" ++ filenameArgs limDen (w'.jMin : ℚ) "jmin" ++
      filenameArgs limDen (p' : ℚ) "spin" ++ waveletEnding limDen w'.jMin (w'.j.map fun n : ℕ => (n : ℤ)) ++ s) :
    (w = w' ∧ p = p') ∧ r = s := by
  simp only [String.append_assoc] at h
  obtain ⟨h1, h⟩ := fragInt limDen hlim "B" ⟨'B', [], rfl, rfl⟩ _ _ _ _ (fragment_tail _ _ _ _) (fragment_tail _ _ _ _) h
  obtain ⟨h2, h⟩ := fragInt limDen hlim "jmin" ⟨'j', _, rfl, rfl⟩ _ _ _ _ (fragment_tail _ _ _ _) (fragment_tail _ _ _ _) h
  obtain ⟨h4, h⟩ := fragInt limDen hlim "spin" ⟨'s', _, rfl, rfl⟩ _ _ _ _ (ending_tail _ _ _ _) (ending_tail _ _ _ _) h
  rw [h2] at h
  obtain ⟨h3, h5⟩ := ending limDen hlim _ _ _ r s hr hs h
  cases w; cases w'
  simp only at h1 h2 h3
  exact ⟨⟨by rw [h1, h2, h3], h4⟩, h5⟩

private theorem two (limDen : ℚ → ℚ) (hlim : LimitDenominator limDen) (x y : String) (hx : ArgName x) (hy : ArgName y)
    (a b a' b' : ℚ) (ha : Recorded a) (hb : Recorded b) (ha' : Recorded a') (hb' : Recorded b') (r s : String) (hr : NameTail r)
    (hs : NameTail s) (h : filenameArgs limDen a x ++ filenameArgs limDen b y ++ r = filenameArgs limDen a' x ++ filenameArgs limDen b' y ++ s) :
    (a = a' ∧ b = b') ∧ r = s := by
  simp only [String.append_assoc] at h
  obtain ⟨h1, h⟩ := fragment_inj limDen hlim x hx _ _ ha ha' _ _ (fragment_tail _ _ _ _) (fragment_tail _ _ _ _) h
  obtain ⟨h2, h⟩ := fragment_inj limDen hlim y hy _ _ hb hb' _ _ hr hs h
  exact ⟨⟨h1, h2⟩, h⟩

private theorem flm_prefix_free : ∀ a ∈ FLM, ∀ b ∈ FLM, (snake a).toList.isPrefixOf (snake b).toList → a = b := by
  decide +kernel

theorem fp_prefix_free : ∀ a ∈ FP.tail, ∀ b ∈ FP.tail, (snake a).toList.isPrefixOf (snake b).toList → a = b := by
  decide +kernel

theorem class_eq {classes : List String}
    (hfree : ∀ a ∈ classes, ∀ b ∈ classes, (snake a).toList.isPrefixOf (snake b).toList → a = b) {a b x y : String}
    (ha : a ∈ classes) (hb : b ∈ classes) (h : snake a ++ x = snake b ++ y) : a = b ∧ x = y := by
  have h1 := congrArg String.toList h
  simp only [String.toList_append] at h1
  have : a = b := by
    have h2 : (snake a).toList <+: (snake b).toList ++ y.toList := by rw [← h1]; exact List.prefix_append _ _
    have h3 : (snake b).toList <+: (snake b).toList ++ y.toList := List.prefix_append _ _
    rcases List.prefix_or_prefix_of_prefix h2 h3 with h4 | h4
    · exact hfree a ha b hb (List.isPrefixOf_iff_prefix.2 h4)
    · exact (hfree b hb a ha (List.isPrefixOf_iff_prefix.2 h4)).symm
  subst this
  exact ⟨rfl, String.toList_injective (List.append_cancel_left h1)⟩

theorem className_mem (fn : Fn) : fn.className ∈ FLM := by cases fn <;> simp [Fn.className, FLM]

theorem sClassName_mem (fn : SFn) : fn.className ∈ FP.tail := by cases fn <;> simp [SFn.className, FP]

theorem name_parse (limDen : ℚ → ℚ) (hlim : LimitDenominator limDen) (f g : Fn) (hf : NameRecords f) (hg : NameRecords g)
    (r s : String) (hr : NameTail r) (hs : NameTail s) (h : f.name limDen ++ r = g.name limDen ++ s) : f = g ∧ r = s := by
  unfold Fn.name at h
  rw [String.append_assoc, String.append_assoc] at h
  replace ⟨hc, h⟩ := class_eq flm_prefix_free (className_mem f) (className_mem g) h
  cases f <;> cases g <;> simp only [Fn.className, String.reduceEq] at hc <;> clear hc <;>
    simp only [String.empty_append] at h
  case elongatedGaussian.elongatedGaussian a b a' b' =>
    obtain ⟨⟨rfl, rfl⟩, h9⟩ := two limDen hlim "tsig" "psig" ⟨'t', _, rfl, rfl⟩ ⟨'p', _, rfl, rfl⟩ a b a' b' hf.1 hf.2 hg.1 hg.2 r s hr hs h
    exact ⟨rfl, h9⟩
  case squashedGaussian.squashedGaussian a b a' b' =>
    obtain ⟨⟨rfl, rfl⟩, h9⟩ := two limDen hlim "tsig" "freq" ⟨'t', _, rfl, rfl⟩ ⟨'f', _, rfl, rfl⟩ a b a' b' hf.1 hf.2 hg.1 hg.2 r s hr hs h
    exact ⟨rfl, h9⟩
  case harmonicGaussian.harmonicGaussian a b a' b' =>
    obtain ⟨⟨rfl, rfl⟩, h9⟩ := two limDen hlim "lsig" "msig" ⟨'l', _, rfl, rfl⟩ ⟨'m', _, rfl, rfl⟩ a b a' b' hf.1 hf.2 hg.1 hg.2 r s hr hs h
    exact ⟨rfl, h9⟩
  case gaussian.gaussian a a' =>
    obtain ⟨rfl, h9⟩ := fragment_inj limDen hlim "sig" ⟨'s', _, rfl, rfl⟩ a a' hf hg r s hr hs h
    exact ⟨rfl, h9⟩
  case noiseEarth.noiseEarth a a' =>
    obtain ⟨rfl, h9⟩ := fragment_inj limDen hlim "snr" ⟨'s', _, rfl, rfl⟩ a a' hf hg r s hr hs h
    exact ⟨rfl, h9⟩
  case sphericalHarmonic.sphericalHarmonic a b a' b' =>
    have hi : ∀ z : ℤ, Recorded (z : ℚ) := fun z => ⟨by simp, by simp⟩
    obtain ⟨⟨h1, h2⟩, h9⟩ := two limDen hlim "l" "m" ⟨'l', _, rfl, rfl⟩ ⟨'m', _, rfl, rfl⟩ a b a' b' (hi _) (hi _) (hi _) (hi _) r s hr hs h
    rw [Int.cast_injective h1, Int.cast_injective h2]
    exact ⟨rfl, h9⟩
  case ridgelets.ridgelets w p w' p' =>
    obtain ⟨⟨rfl, rfl⟩, h9⟩ := ridge limDen hlim w w' p p' r s hr hs h
    exact ⟨rfl, h9⟩
  case axisymmetricWavelets.axisymmetricWavelets w w' =>
    obtain ⟨rfl, h9⟩ := waveName_inj limDen hlim w w' r s hr hs h
    exact ⟨rfl, h9⟩
  case axisymmetricWaveletCoefficientsAfrica.axisymmetricWaveletCoefficientsAfrica w w' =>
    obtain ⟨rfl, h9⟩ := waveName_inj limDen hlim w w' r s hr hs h
    exact ⟨rfl, h9⟩
  case axisymmetricWaveletCoefficientsEarth.axisymmetricWaveletCoefficientsEarth w w' =>
    obtain ⟨rfl, h9⟩ := waveName_inj limDen hlim w w' r s hr hs h
    exact ⟨rfl, h9⟩
  case axisymmetricWaveletCoefficientsSouthAmerica.axisymmetricWaveletCoefficientsSouthAmerica w w' =>
    obtain ⟨rfl, h9⟩ := waveName_inj limDen hlim w w' r s hr hs h
    exact ⟨rfl, h9⟩
  all_goals exact ⟨rfl, h⟩

theorem sName_parse (limDen : ℚ → ℚ) (hlim : LimitDenominator limDen) (end_ : String) (f g : SFn) (hf : SNameRecords f)
    (hg : SNameRecords g) (r s : String) (hr : NameTail r) (hs : NameTail s) (h : f.name limDen end_ ++ r = g.name limDen end_ ++ s) :
    f = g ∧ r = s := by
  have cancel : ∀ {x : String}, x ++ r = x ++ s → r = s := by
    intro x h
    have h1 := congrArg String.toList h
    simp only [String.toList_append] at h1
    exact String.toList_injective (List.append_cancel_left h1)
  unfold SFn.name at h
  rw [String.append_assoc, String.append_assoc] at h
  replace ⟨hc, h⟩ := class_eq fp_prefix_free (sClassName_mem f) (sClassName_mem g) h
  cases f <;> cases g <;> simp only [SFn.className, String.reduceEq] at hc <;> clear hc <;>
    simp only [String.empty_append] at h
  case slepianNoiseAfrica.slepianNoiseAfrica a a' =>
    obtain ⟨rfl, h9⟩ := fragment_inj limDen hlim "snr" ⟨'s', _, rfl, rfl⟩ a a' hf hg r s hr hs h
    exact ⟨rfl, h9⟩
  case slepianNoiseSouthAmerica.slepianNoiseSouthAmerica a a' =>
    obtain ⟨rfl, h9⟩ := fragment_inj limDen hlim "snr" ⟨'s', _, rfl, rfl⟩ a a' hf hg r s hr hs h
    exact ⟨rfl, h9⟩
  case slepianWaveletCoefficientsAfrica.slepianWaveletCoefficientsAfrica w w' =>
    obtain ⟨rfl, h9⟩ := waveName_inj limDen hlim w w' r s hr hs h
    exact ⟨rfl, h9⟩
  case slepianWaveletCoefficientsSouthAmerica.slepianWaveletCoefficientsSouthAmerica w w' =>
    obtain ⟨rfl, h9⟩ := waveName_inj limDen hlim w w' r s hr hs h
    exact ⟨rfl, h9⟩
  case slepianWavelets.slepianWavelets w w' =>
    have h1 : waveName limDen w ++ r = waveName limDen w' ++ s := by
      have h1 := congrArg String.toList h
      simp only [String.toList_append, List.append_assoc] at h1
      apply String.toList_injective
      simp only [String.toList_append]
      exact List.append_cancel_left (List.append_cancel_left h1)
    obtain ⟨rfl, h9⟩ := waveName_inj limDen hlim w w' r s hr hs h1
    exact ⟨rfl, h9⟩
  all_goals exact ⟨rfl, cancel (x := _) (by first | exact h | (rw [String.empty_append, String.empty_append]; exact h))⟩

/-- the part of the name after the name of the function. -/
private theorem details (limDen : ℚ → ℚ) (s : Functions.Settings) (name : String) :
    ∃ t, Functions.addDetails limDen s name = name ++ t ∧ NameTail t := by
  have key : ∀ (a : String) {x : String}, NameTail a → NameTail x → NameTail (a ++ x) := by
    rintro a x (rfl | ⟨t, rfl⟩) hx
    · rwa [String.empty_append]
    · exact Or.inr ⟨t ++ x, by rw [String.append_assoc]⟩
  have hL : NameTail ("_L" ++ toString s.L) := Or.inr ⟨"L" ++ toString s.L, by rw [← String.append_assoc]; rfl⟩
  have hf : ∀ v a, NameTail (filenameArgs limDen v a) := fun v a => by simpa using fragment_tail limDen v a ""
  have h0 : NameTail "" := Or.inl rfl
  refine ⟨(match s.region with | some r => if Functions.namesSlepian name then "" else "_" ++ r.nameEnding | none => "")
      ++ (match s.noise with | some n => filenameArgs limDen n "noise" | none => "")
      ++ (match s.smoothing with | some n => filenameArgs limDen n "smoothed" | none => "")
      ++ ("_L" ++ toString s.L), ?_, ?_⟩
  · unfold Functions.addDetails
    cases s.region with
    | none => cases s.noise <;> cases s.smoothing <;> simp [String.append_assoc]
    | some r =>
      by_cases hn : Functions.namesSlepian name = true <;> cases s.noise <;> cases s.smoothing <;>
        simp [hn, String.append_assoc]
  · refine key _ (key _ (key _ ?_ ?_) ?_) hL
    · cases s.region with
      | none => exact h0
      | some r => dsimp only; split_ifs; exacts [h0, Or.inr ⟨_, rfl⟩]
    · cases s.noise with
      | none => exact h0
      | some n => exact hf _ _
    · cases s.smoothing with
      | none => exact h0
      | some n => exact hf _ _

/-- the name of a constructed object. -/
private theorem flm_name {limDen : ℚ → ℚ} {normals : ℕ → ℕ → ℝ} {h : Functions.Hooks} {s : Functions.Settings} {w w' : Noise.World}
    {o : Functions.Obj} (ho : Functions.flm limDen normals h s w = .ok (o, w')) : o.name = Functions.addDetails limDen s h.name := by
  unfold Functions.flm Functions.postInit at ho
  cases h1 : h.setupArgs with
  | error e => simp [h1, bind, Except.bind] at ho
  | ok u =>
    cases h2 : h.create w with
    | error e => simp [h1, h2, bind, Except.bind] at ho
    | ok p =>
      cases h3 : Functions.flmNoise normals s p.1 p.2 with
      | error e => simp [h1, h2, h3, bind, Except.bind] at ho
      | ok q =>
        simp only [h1, h2, h3, bind, Except.bind, pure, Except.pure, Except.ok.injEq, Prod.mk.injEq] at ho
        rw [← ho.1]

/-- C69.  Two harmonic function objects with the same name — whatever their regions, noise and smoothing — are of the same class
with the same parameters, if these are integers or small fractions. -/
theorem C69_name_determines_function_partial (limDen : ℚ → ℚ) (hlim : LimitDenominator limDen) (e e' : Env) (f g : Fn)
    (hf : NameRecords f) (hg : NameRecords g) (s s' : Functions.Settings) (hfa : Admissible s.L f) (hga : Admissible s'.L g)
    (w₁ w₂ w₁' w₂' : Noise.World) (o o' : Functions.Obj)
    (ho : f.construct limDen e none s w₁ = .ok (o, w₂)) (ho' : g.construct limDen e' none s' w₁' = .ok (o', w₂'))
    (hname : o.name = o'.name) : f = g ∧ s.L = s'.L := by
  have key : ∀ (jMax : JMax) (L : ℕ) (fn : Fn), Admissible L fn → fn.setupArgs jMax L none = .ok fn := by
    intro jMax L fn hfn
    cases fn <;> try rfl
    case sphericalHarmonic l m =>
      have hc : Functions.checkEll L l = .ok () := by
        have := hfn.1; have := hfn.2.1
        simp only [Functions.checkEll]; rw [if_neg (by omega), if_neg (by omega)]
      have hm : Functions.checkM (some l) m = .ok () := by
        simp only [Functions.checkM]; rw [if_neg (by have := hfn.2.2; omega)]
      simp only [Fn.setupArgs, Functions.sphericalHarmonicArgs, hc, hm]
      rfl
  unfold Fn.construct at ho ho'
  rw [key _ _ f hfa] at ho
  rw [key _ _ g hga] at ho'
  simp only [bind, Except.bind] at ho ho'
  have hL := C67_name_determines_bandlimit limDen _ _ s s' _ _ w₁ w₂ w₁' w₂' o o' ho ho' hname
  have h1 := flm_name ho
  have h2 := flm_name ho'
  obtain ⟨t, ht, ht'⟩ := details limDen s (f.name limDen)
  obtain ⟨u, hu, hu'⟩ := details limDen s' (g.name limDen)
  dsimp only at h1 h2
  rw [ht] at h1
  rw [hu] at h2
  exact ⟨(name_parse limDen hlim f g hf hg t u ht' hu' (by rw [← h1, ← h2, hname])).1, hL⟩

/-- C69.  Together with C67: the name of a function without a region, or with one given region, determines everything given to
the constructor. -/
theorem C69_name_determines_object_partial (limDen : ℚ → ℚ) (hlim : LimitDenominator limDen) (e : Env) (f g : Fn)
    (hf : NameRecords f) (hg : NameRecords g) (s s' : Functions.Settings) (hfa : Admissible s.L f) (hga : Admissible s'.L g)
    (hr : s.region = s'.region) (hs : ∀ v ∈ s.noise, Recorded v) (hs' : ∀ v ∈ s'.noise, Recorded v)
    (w₁ w₂ w₁' w₂' : Noise.World) (o o' : Functions.Obj)
    (ho : f.construct limDen e none s w₁ = .ok (o, w₂)) (ho' : g.construct limDen e none s' w₁' = .ok (o', w₂'))
    (hname : o.name = o'.name) : f = g ∧ s = s' := by
  obtain ⟨rfl, hL⟩ := C69_name_determines_function_partial limDen hlim e e f g hf hg s s' hfa hga w₁ w₂ w₁' w₂' o o' ho ho' hname
  refine ⟨rfl, ?_⟩
  unfold Fn.construct at ho ho'
  rw [← hL] at ho'
  cases h1 : f.setupArgs e.jMax s.L none with
  | error x => rw [h1] at ho; simp [bind, Except.bind] at ho
  | ok f' =>
    rw [h1] at ho ho'
    simp only [bind, Except.bind] at ho ho'
    obtain ⟨-, h2, h3⟩ := C67_name_determines_settings limDen hlim
      { setupArgs := .ok (), name := f'.name limDen, spin := f'.spin, reality := f'.reality, create := f'.create e s.L s.smoothing }
      { setupArgs := .ok (), name := f'.name limDen, spin := f'.spin, reality := f'.reality, create := f'.create e s.L s'.smoothing }
      rfl s s' hr hs hs' _ _ w₁ w₂ w₁' w₂' o o' ho ho' hname
    obtain ⟨L, n, r, m⟩ := s
    obtain ⟨L', n', r', m'⟩ := s'
    simp only at hL hr h2 h3
    rw [hL, hr, h2, h3]

/-- C69.  The powers of ten given as extra arguments are recorded from `10⁻⁶` on. -/
theorem C69_powers_recorded (x : ℤ) (hx : -6 ≤ x) : Recorded ((10 : ℚ) ^ x) := by
  rcases le_or_gt 0 x with h | h
  · obtain ⟨n, rfl⟩ := Int.eq_ofNat_of_zero_le h
    have : ((10 : ℚ) ^ ((n : ℕ) : ℤ)) = ((10 ^ n : ℕ) : ℚ) := by push_cast; rw [zpow_natCast]
    change Recorded ((10 : ℚ) ^ ((n : ℕ) : ℤ))
    rw [this]
    exact ⟨by simp, Or.inl (by simp)⟩
  · have : x = -1 ∨ x = -2 ∨ x = -3 ∨ x = -4 ∨ x = -5 ∨ x = -6 := by omega
    have hlt : |(10 : ℚ) ^ x| < 1 := by
      rw [abs_of_pos (by positivity)]
      exact zpow_lt_one_of_neg₀ (by norm_num) h
    refine ⟨?_, Or.inr hlt⟩
    rcases this with rfl | rfl | rfl | rfl | rfl | rfl <;> decide +kernel

/-- C69 is violated below: `limit_denominator` rounds widths below half a millionth to zero, so that the Gaussians of widths `10⁻⁷`
and `10⁻⁸` have one name. -/
theorem C69_tiny_violation (limDen : ℚ → ℚ) (hzero : ∀ q : ℚ, |q| < 1 / 2000000 → limDen q = 0) :
    (Fn.gaussian ((10 : ℚ) ^ (-7 : ℤ))).name limDen = (Fn.gaussian ((10 : ℚ) ^ (-8 : ℤ))).name limDen := by
  have h7 : |(10 : ℚ) ^ (-7 : ℤ)| < 1 / 2000000 := by rw [abs_of_pos (by positivity)]; norm_num
  have h8 : |(10 : ℚ) ^ (-8 : ℤ)| < 1 / 2000000 := by rw [abs_of_pos (by positivity)]; norm_num
  have k : ∀ q : ℚ, |q| < 1 / 2000000 → q ≠ 0 → filenameArgs limDen q "sig" = "_0sig1" := by
    intro q hq h0
    unfold filenameArgs angleNumDem
    rw [hzero q hq]
    dsimp only
    rw [if_pos ⟨hq.trans (by norm_num), h0⟩]
    decide +kernel
  simp only [Fn.name]
  rw [k _ h7 (by positivity), k _ h8 (by positivity)]
  rfl

/-- the name of an object of a Slepian class. -/
private theorem sObject_name {L : ℕ} {Pix : Type} [Fintype Pix] {limDen : ℚ → ℚ} {e : SEnv L Pix} {fn : SFn} {noise : Option ℚ}
    {smoothing : Option ℤ} {w w' : Noise.World} {o : Functions.Obj}
    (ho : fn.construct limDen e none noise smoothing w = .ok (o, w')) :
    o.name = Functions.addDetails limDen ⟨L, noise, some e.region, smoothing⟩ (fn.name limDen e.region.nameEnding) := by
  have key : fn.setupArgs e.env.jMax L none = .ok fn := by cases fn <;> rfl
  unfold SFn.construct at ho
  rw [key] at ho
  simp only [bind, Except.bind] at ho
  split at ho
  · cases ho
  · rename_i v hv
    have h2 : o = v.1 := by
      split at ho
      · split at ho
        · cases ho
        · simp only [pure, Except.pure, Except.ok.injEq] at ho; rw [ho]
      · simp only [pure, Except.pure, Except.ok.injEq] at ho; rw [ho]
    rw [h2]
    have hv' : Functions.fp limDen e.env.normals e.slepian _ _ w = .ok (v.1, v.2) := hv
    unfold Functions.fp Functions.postInit at hv'
    simp only [bind, Except.bind] at hv'
    split at hv'
    · cases hv'
    · split at hv'
      · cases hv'
      · simp only [pure, Except.pure, Except.ok.injEq, Prod.mk.injEq] at hv'
        rw [← hv'.1]

/-- C69 for the Slepian classes: objects made for one region. -/
theorem C69_slepian_name {L : ℕ} {Pix : Type} [Fintype Pix] (limDen : ℚ → ℚ) (hlim : LimitDenominator limDen) (e : SEnv L Pix)
    (f g : SFn) (hf : SNameRecords f) (hg : SNameRecords g) (noise noise' : Option ℚ) (smoothing smoothing' : Option ℤ)
    (w₁ w₂ w₁' w₂' : Noise.World) (o o' : Functions.Obj)
    (ho : f.construct limDen e none noise smoothing w₁ = .ok (o, w₂))
    (ho' : g.construct limDen e none noise' smoothing' w₁' = .ok (o', w₂')) (hname : o.name = o'.name) : f = g := by
  have h1 := sObject_name ho
  have h2 := sObject_name ho'
  obtain ⟨t, ht, ht'⟩ := details limDen ⟨L, noise, some e.region, smoothing⟩ (f.name limDen e.region.nameEnding)
  obtain ⟨u, hu, hu'⟩ := details limDen ⟨L, noise', some e.region, smoothing'⟩ (g.name limDen e.region.nameEnding)
  rw [ht] at h1
  rw [hu] at h2
  exact (sName_parse limDen hlim e.region.nameEnding f g hf hg t u ht' hu' (by rw [← h1, ← h2, hname])).1

/-- the classes for any region: their name begins with a word that keeps the region from being added again. -/
private theorem sName_any_region (limDen : ℚ → ℚ) (f : SFn) (hf : f = .slepianDiracDelta ∨ f = .slepianIdentity ∨ ∃ v, f = .slepianWavelets v) :
    ∃ t : String, ∀ ending, f.name limDen ending = Strings.snake f.className ++ "_" ++ ending ++ t ∧
      Functions.namesSlepian (f.name limDen ending) = true := by
  have word : ∀ r : String, Functions.namesSlepian ("slepian_" ++ r) = true := by
    intro r
    rw [namesSlepian_iff]
    exact Or.inl ⟨[], '_' :: r.toList, by rw [String.toList_append]; rfl, Or.inl rfl, Or.inr ⟨r.toList, rfl⟩⟩
  have hd : Strings.snake "SlepianDiracDelta" = "slepian_" ++ "dirac_delta" := by decide +kernel
  have hi : Strings.snake "SlepianIdentity" = "slepian_" ++ "identity" := by decide +kernel
  have hw : Strings.snake "SlepianWavelets" = "slepian_" ++ "wavelets" := by decide +kernel
  rcases hf with rfl | rfl | ⟨v, rfl⟩
  · refine ⟨"", fun ending => ⟨by simp [SFn.name, String.append_assoc], ?_⟩⟩
    simp only [SFn.name, SFn.className, hd, String.append_assoc]
    exact word _
  · refine ⟨"", fun ending => ⟨by simp [SFn.name, String.append_assoc], ?_⟩⟩
    simp only [SFn.name, SFn.className, hi, String.append_assoc]
    exact word _
  · refine ⟨waveName limDen v, fun ending => ⟨by simp [SFn.name, String.append_assoc], ?_⟩⟩
    simp only [SFn.name, SFn.className, hw, String.append_assoc]
    exact word _

/-- C69.  The Slepian classes that take any region record it: with the same function, bandlimit, noise and smoothing, the same name means
the same region name. -/
theorem C69_slepian_region {L : ℕ} {Pix : Type} [Fintype Pix] (limDen : ℚ → ℚ) (e e' : SEnv L Pix) (f : SFn)
    (hf : f = .slepianDiracDelta ∨ f = .slepianIdentity ∨ ∃ v, f = .slepianWavelets v) (noise : Option ℚ) (smoothing : Option ℤ)
    (w₁ w₂ w₁' w₂' : Noise.World) (o o' : Functions.Obj) (ho : f.construct limDen e none noise smoothing w₁ = .ok (o, w₂))
    (ho' : f.construct limDen e' none noise smoothing w₁' = .ok (o', w₂')) (hname : o.name = o'.name) :
    e.region.nameEnding = e'.region.nameEnding := by
  rw [sObject_name ho, sObject_name ho'] at hname
  obtain ⟨t, ht⟩ := sName_any_region limDen f hf
  simp only [Functions.addDetails, (ht _).2, if_true] at hname
  rw [(ht e.region.nameEnding).1, (ht e'.region.nameEnding).1] at hname
  have h := congrArg String.toList hname
  apply String.toList_injective
  cases noise <;> cases smoothing <;> simpa [String.append_assoc, List.append_assoc] using h

/-- the Dirac delta at bandlimit 4 is an object, and its function is recorded. -/
example (e : Env) (limDen : ℚ → ℚ) (w : Noise.World) :
    ∃ o, Fn.construct limDen e .diracDelta none ⟨4, none, none, none⟩ w = .ok (o, w) ∧ o.name = "dirac_delta_L4" := by
  obtain ⟨c, hc, -⟩ := C55_dirac_delta 4
  refine ⟨⟨4, Functions.addDetails limDen ⟨4, none, none, none⟩ (Fn.diracDelta.name limDen), 0, true, c, none, none⟩, ?_, ?_⟩
  · simp only [Fn.construct, Fn.setupArgs, noArgs, Functions.flm, Functions.postInit, Fn.create, hc, bind, Except.bind, Except.map,
      Functions.flmNoise, Functions.addNoiseWith, pure, Except.pure]
    rfl
  · have h : Fn.diracDelta.name limDen = "dirac_delta" := by
      simp only [Fn.name, Fn.className]
      decide +kernel
    rw [h]
    simp only [Functions.addDetails]
    decide +kernel

example : NameRecords (.harmonicGaussian (1 / 10) 100) ∧ Admissible 4 (.sphericalHarmonic 3 (-2)) :=
  ⟨⟨⟨by decide +kernel, Or.inr (by rw [abs_of_pos (by norm_num)]; norm_num)⟩, ⟨by decide +kernel, Or.inl (by decide +kernel)⟩⟩,
    by decide, by decide, by decide⟩

/-- the name of the harmonic Gaussian of widths 1/10 and 100. -/
example : (Fn.harmonicGaussian (1 / 10) 100).name id = "harmonic_gaussian_1lsig10_100msig" := by decide +kernel

end Sleplet.Props
