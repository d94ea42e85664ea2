import Verif.Props.SphereScript
import Verif.Props.ClassNames

/-!
C118: figures of the sphere command that are saved under one name are the same figure.
-/
namespace Sleplet.Props

open Classes Strings Names SphereScript

/-! ### reading the names back -/

/-- the noise in a name. -/
private def noisePart (limDen : ℚ → ℚ) (n : Option ℚ) : String := match n with | some n => filenameArgs limDen n "noise" | none => ""

/-- the smoothing in a name. -/
private def smoothPart (limDen : ℚ → ℚ) (m : Option ℤ) : String :=
  match m with | some n => filenameArgs limDen (n : ℚ) "smoothed" | none => ""

/-- the region in a name. -/
private def regionPart (region : Option Region.Obj) (name : String) : String :=
  match region with | some r => if Functions.namesSlepian name then "" else "_" ++ r.nameEnding | none => ""

private theorem addDetails_eq (limDen : ℚ → ℚ) (s : Functions.Settings) (name : String) :
    Functions.addDetails limDen s name = name ++ (regionPart s.region name ++ (noisePart limDen s.noise ++ (smoothPart limDen s.smoothing ++
      ("_L" ++ toString s.L)))) := by
  unfold Functions.addDetails regionPart noisePart smoothPart
  cases s.region with
  | none => cases s.noise <;> cases s.smoothing <;> simp [String.append_assoc]
  | some r => by_cases hn : Functions.namesSlepian name = true <;> cases s.noise <;> cases s.smoothing <;> simp [hn, String.append_assoc]

private theorem cancel {x a b : String} (h : x ++ a = x ++ b) : a = b := by
  have h1 := congrArg String.toList h
  simp only [String.toList_append] at h1
  exact String.toList_injective (List.append_cancel_left h1)

private theorem tail_append {a x : String} (ha : NameTail a) (hx : NameTail x) : NameTail (a ++ x) := by
  rcases ha with rfl | ⟨t, rfl⟩
  · rwa [String.empty_append]
  · exact Or.inr ⟨t ++ x, by rw [String.append_assoc]⟩

private theorem tail_list {x : String} (h : NameTail x) : x.toList = [] ∨ ∃ t, x.toList = '_' :: t := by
  rcases h with rfl | ⟨t, rfl⟩
  · exact Or.inl rfl
  · exact Or.inr ⟨t.toList, by rw [String.toList_append]; rfl⟩

private theorem digits_tail {a b : ℕ} {x y : String} (hx : NameTail x) (hy : NameTail y) (h : toString a ++ x = toString b ++ y) :
    a = b ∧ x = y := by
  have take : ∀ (n : ℕ) (z : String), NameTail z → ((toString n).toList ++ z.toList).takeWhile Char.isDigit = (toString n).toList := by
    intro n z hz
    rw [List.takeWhile_append_of_pos fun c hc => nat_digits n c hc]
    rcases tail_list hz with e | ⟨t, e⟩ <;> rw [e] <;> simp
  have h1 := congrArg String.toList h
  simp only [String.toList_append] at h1
  have h2 := take a x hx
  rw [h1, take b y hy] at h2
  have := nat_inj h2.symm
  subst this
  exact ⟨rfl, cancel h⟩

private theorem fragment_ne_L (limDen : ℚ → ℚ) (v : ℚ) (arg : String) (harg : arg = "noise" ∨ arg = "smoothed") (r s : String) :
    filenameArgs limDen v arg ++ r ≠ "_L" ++ s := by
  intro h
  have h1 := congrArg String.toList h
  rw [String.toList_append, String.toList_append, filenameArgs_toList] at h1
  have e : ("_L" : String).toList = ['_', 'L'] := rfl
  rw [e] at h1
  simp only [List.cons_append, List.cons.injEq, true_and] at h1
  cases hd : (toString (limDen v).num).toList with
  | nil =>
    rw [hd] at h1
    have e1 : ("noise" : String).toList = ['n', 'o', 'i', 's', 'e'] := rfl
    have e2 : ("smoothed" : String).toList = ['s', 'm', 'o', 'o', 't', 'h', 'e', 'd'] := rfl
    rcases harg with rfl | rfl <;> simp [e1, e2] at h1
  | cons d ds =>
    have h2 := int_chars (limDen v).num d (by rw [hd]; simp)
    rw [hd] at h1
    simp only [List.cons_append, List.cons.injEq] at h1
    rw [h1.1] at h2
    revert h2
    decide

/-- the settings and what follows can be read back. -/
private theorem settings_parse (limDen : ℚ → ℚ) (hlim : LimitDenominator limDen) (n n' : Option ℤ) (m m' : Option ℤ) (L L' : ℕ)
    (Z Z' : String) (hZ : NameTail Z) (hZ' : NameTail Z')
    (h : noisePart limDen (n.map fun x : ℤ => (x : ℚ)) ++ (smoothPart limDen m ++ ("_L" ++ (toString L ++ Z))) =
      noisePart limDen (n'.map fun x : ℤ => (x : ℚ)) ++ (smoothPart limDen m' ++ ("_L" ++ (toString L' ++ Z')))) :
    n = n' ∧ m = m' ∧ L = L' ∧ Z = Z' := by
  have hA : ArgName "noise" := ⟨'n', _, rfl, rfl⟩
  have hS : ArgName "smoothed" := ⟨'s', _, rfl, rfl⟩
  have hi : ∀ z : ℤ, Recorded (z : ℚ) := fun z => ⟨by simp, by simp⟩
  have tL : ∀ (k : ℕ) (z : String), NameTail ("_L" ++ (toString k ++ z)) := fun k z =>
    Or.inr ⟨"L" ++ (toString k ++ z), by rw [← String.append_assoc (s₁ := "_")]; rfl⟩
  have tm : ∀ (m : Option ℤ) (k : ℕ) (z : String), NameTail (smoothPart limDen m ++ ("_L" ++ (toString k ++ z))) := by
    intro m k z
    cases m with
    | none => simpa [smoothPart] using tL k z
    | some j => exact fragment_tail _ _ _ _
  have last : "_L" ++ (toString L ++ Z) = "_L" ++ (toString L' ++ Z') → L = L' ∧ Z = Z' := fun h => digits_tail hZ hZ' (cancel h)
  have smooth : smoothPart limDen m ++ ("_L" ++ (toString L ++ Z)) = smoothPart limDen m' ++ ("_L" ++ (toString L' ++ Z')) →
      m = m' ∧ L = L' ∧ Z = Z' := by
    intro h
    cases m with
    | none =>
      cases m' with
      | none => exact ⟨rfl, last (by simpa [smoothPart] using h)⟩
      | some k => exact absurd (by simpa [smoothPart] using h.symm) (fragment_ne_L limDen k "smoothed" (Or.inr rfl) _ _)
    | some j =>
      cases m' with
      | none => exact absurd (by simpa [smoothPart] using h) (fragment_ne_L limDen j "smoothed" (Or.inr rfl) _ _)
      | some k =>
        obtain ⟨h1, h2⟩ := fragment_inj limDen hlim "smoothed" hS j k (hi _) (hi _) _ _ (tL _ _) (tL _ _) h
        exact ⟨by rw [Int.cast_injective h1], last h2⟩
  have clash : ∀ (v : ℚ) (m : Option ℤ) (k : ℕ) (z r : String),
      filenameArgs limDen v "noise" ++ r ≠ smoothPart limDen m ++ ("_L" ++ (toString k ++ z)) := by
    intro v m k z r h
    cases m with
    | none => exact fragment_ne_L limDen v "noise" (Or.inl rfl) _ _ (by simpa [smoothPart] using h)
    | some j =>
      have := congrArg String.toList h
      simp only [smoothPart, String.toList_append] at this
      exact noise_ne_smoothed limDen v j this
  cases n with
  | none =>
    cases n' with
    | none => exact ⟨rfl, smooth (by simpa [noisePart] using h)⟩
    | some v => exact absurd (by simpa [noisePart] using h.symm) (clash v m L Z _)
  | some v =>
    cases n' with
    | none => exact absurd (by simpa [noisePart] using h) (clash v m' L' Z' _)
    | some v' =>
      obtain ⟨h1, h2⟩ := fragment_inj limDen hlim "noise" hA v v' (hi _) (hi _) _ _ (tm _ _ _) (tm _ _ _) h
      exact ⟨by rw [Int.cast_injective h1], smooth h2⟩

/-- the ending of the file name of a figure can be read back, if the last word of what comes before does not begin with an `r`. -/
private theorem ending_parse {X X' : String} {s s' : Plot.SphereSettings} (hs : s.plotType ∈ ["abs", "real", "imag", "sum"])
    (hs' : s'.plotType ∈ ["abs", "real", "imag", "sum"]) (hX : ∃ u c v, X.toList = u ++ '_' :: c :: v ∧ c ≠ 'r' ∧ '_' ∉ c :: v)
    (hX' : ∃ u c v, X'.toList = u ++ '_' :: c :: v ∧ c ≠ 'r' ∧ '_' ∉ c :: v) (h : s.filename X = s'.filename X') :
    X = X' ∧ s.upsample = s'.upsample ∧ s.plotType = s'.plotType ∧ s.normalise = s'.normalise := by
  have hu : ∀ t ∈ ["abs", "real", "imag", "sum"], '_' ∉ t.toList ∧ t ≠ "norm" := by decide
  have en : ("_norm" : String).toList = '_' :: ['n', 'o', 'r', 'm'] := rfl
  have ee : ("_" : String).toList = ['_'] := rfl
  have er : ("_res" : String).toList = '_' :: 'r' :: ['e', 's'] := rfl
  unfold Plot.SphereSettings.filename at h
  have hl := congrArg String.toList h
  simp only [String.toList_append, ee] at hl
  -- the last word tells whether the field was normalised
  have hn : s.normalise = s'.normalise := by
    cases hA : s.normalise <;> cases hB : s'.normalise <;> rw [hA, hB] at hl
    · exfalso
      simp only [Bool.false_eq_true, if_false, if_true, String.toList_empty, List.append_nil, en] at hl
      rw [List.append_assoc (bs := ['_']) (cs := s.plotType.toList), List.singleton_append] at hl
      obtain ⟨-, h2⟩ := split_last (c := '_') (hu _ hs).1 (by decide) hl
      exact (hu _ hs).2 (String.toList_injective h2)
    · exfalso
      simp only [Bool.false_eq_true, if_false, if_true, String.toList_empty, List.append_nil, en] at hl
      rw [List.append_assoc (bs := ['_']) (cs := s'.plotType.toList), List.singleton_append] at hl
      obtain ⟨-, h2⟩ := split_last (c := '_') (by decide) (hu _ hs').1 hl
      exact (hu _ hs').2 (String.toList_injective h2.symm)
  rw [hn] at hl
  have hl2 := List.append_cancel_right hl
  simp only [List.append_assoc, List.singleton_append] at hl2
  simp only [← List.append_assoc] at hl2
  obtain ⟨hl3, ht⟩ := split_last (c := '_') (hu _ hs).1 (hu _ hs').1 hl2
  -- the resolution
  have clash : ∀ {X X' : String} (n : ℕ), (∃ u c v, X'.toList = u ++ '_' :: c :: v ∧ c ≠ 'r' ∧ '_' ∉ c :: v) →
      X.toList ++ ("_res" ++ toString n).toList ≠ X'.toList := by
    rintro X X' n ⟨u, c, v, h1, h2, h3⟩ h
    rw [h1, String.toList_append, er] at h
    simp only [List.cons_append] at h
    obtain ⟨-, h4⟩ := split_last (c := '_') (by simp only [List.mem_cons, List.mem_append, not_or]; exact ⟨by decide, by decide, by decide, by simp, not_mem_nat (by decide)⟩) h3 h
    exact h2 (List.cons.inj h4).1.symm
  have hup : s.upsample = s'.upsample ∧ X = X' := by
    cases hA : s.upsample <;> cases hB : s'.upsample <;> rw [hA, hB] at hl3 <;>
      simp only [Bool.false_eq_true, if_false, if_true, String.toList_empty, List.append_nil] at hl3
    · exact ⟨rfl, String.toList_injective hl3⟩
    · exact absurd hl3.symm (clash _ hX)
    · exact absurd hl3 (clash _ hX')
    · refine ⟨rfl, String.toList_injective ?_⟩
      simp only [String.toList_append, er, List.cons_append] at hl3
      refine (split_last (c := '_') ?_ ?_ hl3).1 <;>
        (simp only [List.mem_cons, List.mem_append, not_or]; exact ⟨by decide, by decide, by decide, by simp, not_mem_nat (by decide)⟩)
  exact ⟨hup.2, hup.1, String.toList_injective ht, hn⟩

/-! ### what a figure is made of -/

/-- what tells functions of one bandlimit, noise and smoothing apart: the class with its parameters, or the rank of a Slepian function, and for
harmonic functions the region in the name. -/
private inductive Key
  | harmonic (fn : Fn) (part : String)
  | slepian (rank : ℕ)
  | slepianFn (fn : SFn)

/-- the beginning of the name. -/
private def Labelled (limDen : ℚ → ℚ) (e : SphereEnv) (X : String) : Key → Prop
  | .harmonic fn part => NameRecords fn ∧ X = fn.name limDen ++ part ∧ (part = "" ∨ ∃ r, e.defaultRegion = .ok r ∧ part = "_" ++ r.nameEnding)
  | .slepian rank => ∃ r order ev, e.defaultRegion = .ok r ∧ (order = "" ∨ ∃ m : ℤ, order = "_m" ++ toString m) ∧
      X = tidy ("slepian_" ++ r.nameEnding ++ order ++ "_rank" ++ toString rank ++ "_lam" ++ e.fmt ev)
  | .slepianFn fn => SNameRecords fn ∧ ∃ r, e.defaultRegion = .ok r ∧ (∀ x, fn.expects = some x → r.nameEnding = x) ∧ X = fn.name limDen r.nameEnding

/-- The name of a region begins with another character than the parts of a name that follow or that could be mistaken for a class. -/
def PlainEnding (ending : String) : Prop :=
  ∃ c t, ending.toList = c :: t ∧ c.isDigit = false ∧ c ∉ ['-', '+', '.', 'L', 'd', 'i', 'w']

/-- what follows. -/
private def Rest (T : String) : Prop := ∃ c t, T.toList = '_' :: c :: t ∧ (c.isDigit = true ∨ c = '-' ∨ c = 'L')

private theorem Rest.tail {T : String} (h : Rest T) : NameTail T := by
  obtain ⟨c, t, h, -⟩ := h
  exact Or.inr ⟨String.ofList (c :: t), String.toList_injective (by rw [String.toList_append, h]; simp)⟩

private theorem rest_fragment (limDen : ℚ → ℚ) (v : ℚ) (arg r : String) : Rest (filenameArgs limDen v arg ++ r) := by
  cases hd : (toString (limDen v).num).toList with
  | nil =>
    exfalso
    cases h : (limDen v).num with
    | ofNat k =>
      rw [h] at hd
      exact nat_toList_ne_nil k hd
    | negSucc k =>
      rw [h] at hd
      have : (toString (Int.negSucc k)).toList = '-' :: (toString (k + 1)).toList := by
        change ("-" ++ toString (k + 1)).toList = _
        rw [String.toList_append]; rfl
      rw [this] at hd
      exact absurd hd (by simp)
  | cons d ds =>
    refine ⟨d, _, by rw [String.toList_append, filenameArgs_toList, hd]; rfl, ?_⟩
    rcases int_chars (limDen v).num d (by rw [hd]; simp) with h | h
    · exact Or.inr (Or.inl h)
    · exact Or.inl h

private theorem rest_settings (limDen : ℚ → ℚ) (n : Option ℚ) (m : Option ℤ) (L : ℕ) (Z : String) :
    Rest (noisePart limDen n ++ (smoothPart limDen m ++ ("_L" ++ (toString L ++ Z)))) := by
  cases n with
  | some n => exact rest_fragment _ _ _ _
  | none =>
    cases m with
    | some m => simpa [noisePart, smoothPart] using rest_fragment limDen m "smoothed" ("_L" ++ (toString L ++ Z))
    | none => exact ⟨'L', (toString L ++ Z).toList, by simp [noisePart, smoothPart, String.toList_append], Or.inr (Or.inr rfl)⟩

private def tidyList (l : List Char) : List Char := (l.map fun c => if c = '.' then '-' else c).filter fun c => c ≠ '+'

private theorem tidy_toList (s : String) : (tidy s).toList = tidyList s.toList := by simp [tidy, tidyList]

private theorem tidyList_append (a b : List Char) : tidyList (a ++ b) = tidyList a ++ tidyList b := by simp [tidyList]

private theorem tidyList_id {l : List Char} (h : ∀ c ∈ l, c ≠ '.' ∧ c ≠ '+') : tidyList l = l := by
  induction l with
  | nil => rfl
  | cons c l ih =>
    have h1 := h c (by simp)
    have h2 := ih fun c hc => h c (by simp [hc])
    unfold tidyList at h2 ⊢
    rw [List.map_cons, if_neg h1.1, List.filter_cons_of_pos (by simpa using h1.2), h2]

private theorem tidyList_no {l : List Char} (h : '_' ∉ l) : '_' ∉ tidyList l := by
  unfold tidyList
  simp only [List.mem_filter, List.mem_map, not_and]
  rintro ⟨c, hc, h1⟩
  split_ifs at h1 with h2
  · exact absurd h1 (by decide)
  · exact absurd (h1 ▸ hc) h

private theorem not_slepian : ∀ c ∈ FLM, ¬ ("slepian".toList.isPrefixOf (snake c).toList) ∧ ¬ ((snake c).toList.isPrefixOf "slepian".toList) := by
  decide +kernel

private theorem begins (f : SFn) : ∃ t, snake f.className = "slepian_" ++ t ∧
    (f = .slepianAfrica ∧ t = "africa" ∨ f = .slepianSouthAmerica ∧ t = "south_america" ∨ f.expects = none ∧ (∃ c s, t.toList = c :: s ∧ c ∈ ['d', 'i', 'w']) ∨
      (∃ c s, t.toList = c :: s ∧ c ∈ ['n', 'w']) ∧ (f.expects = some "africa" ∨ f.expects = some "south_america")) := by
  cases f
  case slepianAfrica => exact ⟨"africa", by decide +kernel, by simp⟩
  case slepianSouthAmerica => exact ⟨"south_america", by decide +kernel, by simp⟩
  case slepianDiracDelta => exact ⟨"dirac_delta", by decide +kernel, .inr (.inr (.inl ⟨rfl, _, _, rfl, by decide⟩))⟩
  case slepianIdentity => exact ⟨"identity", by decide +kernel, .inr (.inr (.inl ⟨rfl, _, _, rfl, by decide⟩))⟩
  case slepianWavelets => exact ⟨"wavelets", by change snake "SlepianWavelets" = _; decide +kernel, .inr (.inr (.inl ⟨rfl, _, _, rfl, by decide⟩))⟩
  case slepianNoiseAfrica => exact ⟨"noise_africa", by change snake "SlepianNoiseAfrica" = _; decide +kernel, .inr (.inr (.inr ⟨⟨_, _, rfl, by decide⟩, .inl rfl⟩))⟩
  case slepianNoiseSouthAmerica => exact ⟨"noise_south_america", by change snake "SlepianNoiseSouthAmerica" = _; decide +kernel, .inr (.inr (.inr ⟨⟨_, _, rfl, by decide⟩, .inr rfl⟩))⟩
  case slepianWaveletCoefficientsAfrica =>
    exact ⟨"wavelet_coefficients_africa", by change snake "SlepianWaveletCoefficientsAfrica" = _; decide +kernel, .inr (.inr (.inr ⟨⟨_, _, rfl, by decide⟩, .inl rfl⟩))⟩
  case slepianWaveletCoefficientsSouthAmerica =>
    exact ⟨"wavelet_coefficients_south_america", by change snake "SlepianWaveletCoefficientsSouthAmerica" = _; decide +kernel, .inr (.inr (.inr ⟨⟨_, _, rfl, by decide⟩, .inr rfl⟩))⟩

/-- the names of the Slepian kinds. -/
private theorem slepian_prefix {limDen : ℚ → ℚ} {e : SphereEnv} {X : String} {k : Key} (h : Labelled limDen e X k) (hk : ∀ fn p, k ≠ .harmonic fn p) :
    "slepian".toList <+: X.toList := by
  cases k with
  | harmonic fn p => exact absurd rfl (hk fn p)
  | slepian rank =>
    obtain ⟨r, order, ev, -, -, rfl⟩ := h
    rw [tidy_toList]
    simp only [String.toList_append, tidyList_append, List.append_assoc]
    exact ⟨_, by rw [show tidyList "slepian_".toList = "slepian".toList ++ ['_'] from by decide, List.append_assoc]⟩
  | slepianFn fn =>
    obtain ⟨-, r, -, -, rfl⟩ := h
    obtain ⟨t, ht, -⟩ := begins fn
    unfold SFn.name
    rw [ht]
    simp only [String.toList_append, List.append_assoc]
    exact ⟨_, by rw [show "slepian_".toList = "slepian".toList ++ ['_'] from rfl, List.append_assoc]⟩

private theorem harmonic_clash {limDen : ℚ → ℚ} {e : SphereEnv} {X X' T T' p : String} {k : Key} {fn : Fn} (h : Labelled limDen e X k)
    (hk : ∀ fn p, k ≠ .harmonic fn p) (h' : Labelled limDen e X' (.harmonic fn p)) : X ++ T ≠ X' ++ T' := by
  intro heq
  obtain ⟨-, rfl, -⟩ := h'
  obtain ⟨u, hu⟩ := slepian_prefix h hk
  have h1 := congrArg String.toList heq
  unfold Fn.name at h1
  simp only [String.toList_append, List.append_assoc] at h1
  rw [← hu, List.append_assoc] at h1
  have h2 : "slepian".toList <+: "slepian".toList ++ (u ++ T.toList) := List.prefix_append _ _
  rw [h1] at h2
  rcases List.prefix_or_prefix_of_prefix h2 (List.prefix_append _ _) with h4 | h4
  · exact (not_slepian _ (className_mem fn)).1 (List.isPrefixOf_iff_prefix.2 h4)
  · exact (not_slepian _ (className_mem fn)).2 (List.isPrefixOf_iff_prefix.2 h4)

/-- the middle of the name of a `Slepian` function. -/
private theorem slepian_list {ending order : String} {rank : ℕ} {x : String} (ho : order = "" ∨ ∃ m : ℤ, order = "_m" ++ toString m) :
    ∃ c t, (tidy ("slepian_" ++ ending ++ order ++ "_rank" ++ toString rank ++ "_lam" ++ x)).toList =
      "slepian_".toList ++ (tidyList ending.toList ++ '_' :: c :: t) ∧ (c = 'm' ∨ c = 'r') := by
  rw [tidy_toList]
  simp only [String.toList_append, tidyList_append, List.append_assoc]
  rw [show tidyList "slepian_".toList = "slepian_".toList from by decide, show tidyList "_rank".toList = '_' :: 'r' :: ['a', 'n', 'k'] from by decide]
  rcases ho with rfl | ⟨m, rfl⟩
  · exact ⟨'r', _, by simp [tidyList]; rfl, .inr rfl⟩
  · rw [String.toList_append, tidyList_append, show tidyList "_m".toList = '_' :: ['m'] from by decide]
    exact ⟨'m', _, rfl, .inl rfl⟩

private theorem rank_clash {limDen : ℚ → ℚ} {e : SphereEnv} (hE : ∀ r, e.defaultRegion = .ok r → PlainEnding r.nameEnding) {X X' T T' : String}
    {rank : ℕ} {fn : SFn} (h : Labelled limDen e X (.slepian rank)) (h' : Labelled limDen e X' (.slepianFn fn)) (hT' : Rest T') :
    X ++ T ≠ X' ++ T' := by
  intro heq
  obtain ⟨r, order, ev, hr, ho, rfl⟩ := h
  obtain ⟨-, r', hr', hx, rfl⟩ := h'
  have : r' = r := by rw [hr] at hr'; cases hr'; rfl
  subst this
  obtain ⟨c, u, hcu, hc⟩ := slepian_list (ending := r'.nameEnding) (rank := rank) (x := e.fmt ev) ho
  obtain ⟨t, ht, hcases⟩ := begins fn
  have h1 := congrArg String.toList heq
  rw [String.toList_append, hcu, String.toList_append] at h1
  unfold SFn.name at h1
  rw [ht] at h1
  simp only [String.toList_append, List.append_assoc] at h1
  have h2 := List.append_cancel_left h1
  obtain ⟨c0, t0, hE1, hE2, hE3⟩ := hE r' hr
  have first : ∀ {y : List Char} {c1 : Char} {s : List Char}, tidyList r'.nameEnding.toList ++ y = c1 :: s → c0 = c1 := by
    intro y c1 s h
    rw [hE1] at h
    simp only [List.mem_cons, not_or, List.not_mem_nil, not_false_eq_true, and_true] at hE3
    unfold tidyList at h
    rw [List.map_cons, if_neg hE3.2.2.1, List.filter_cons_of_pos (by simpa using hE3.2.1), List.cons_append] at h
    exact (List.cons.inj h).1
  have land : ∀ s : String, r'.nameEnding = s → (∀ c ∈ s.toList, c ≠ '.' ∧ c ≠ '+') → ∀ {y : List Char}, tidyList r'.nameEnding.toList ++ '_' :: c :: (u ++ T.toList) = s.toList ++ y → y = '_' :: c :: (u ++ T.toList) := by
    intro s hs hs' y h
    rw [hs, tidyList_id hs'] at h
    exact (List.append_cancel_left h).symm
  obtain ⟨c2, t2, hT1, hT2⟩ := hT'
  have clash : ¬ (T'.toList = '_' :: c :: (u ++ T.toList)) := by
    intro h
    rw [hT1] at h
    have : c2 = c := (List.cons.inj (List.cons.inj h).2).1
    subst this
    rcases hc with rfl | rfl <;> simp at hT2 <;> exact absurd hT2 (by decide)
  rcases hcases with ⟨rfl, rfl⟩ | ⟨rfl, rfl⟩ | ⟨-, c1, s, hs, hc1⟩ | ⟨⟨c1, s, hs, hc1⟩, hland⟩
  · exact clash (land "africa" (hx _ rfl) (by decide) (by simpa using h2))
  · exact clash (land "south_america" (hx _ rfl) (by decide) (by simpa using h2))
  · rw [hs] at h2
    simp only [List.append_assoc, List.cons_append] at h2
    have := first h2
    subst this
    simp only [List.mem_cons, List.not_mem_nil, or_false] at hc1
    rcases hc1 with rfl | rfl | rfl <;> exact hE3 (by decide)
  · rw [hs] at h2
    simp only [List.append_assoc, List.cons_append] at h2
    have := first h2
    subst this
    rcases hland with h | h
    · have := hx _ h
      rw [this] at hE1
      have : c0 = 'a' := (List.cons.inj hE1).1.symm
      subst this
      exact absurd hc1 (by decide)
    · have := hx _ h
      rw [this] at hE1
      have : c0 = 's' := (List.cons.inj hE1).1.symm
      subst this
      exact absurd hc1 (by decide)

private theorem rank_parse {limDen : ℚ → ℚ} {e : SphereEnv} (hfmt : ∀ x, '_' ∉ (e.fmt x).toList) {X X' T T' : String} {rank rank' : ℕ}
    (h : Labelled limDen e X (.slepian rank)) (h' : Labelled limDen e X' (.slepian rank')) (hT : Rest T) (hT' : Rest T')
    (heq : X ++ T = X' ++ T') : rank = rank' ∧ T = T' := by
  obtain ⟨r, order, ev, hr, ho, rfl⟩ := h
  obtain ⟨r', order', ev', hr', ho', rfl⟩ := h'
  have : r' = r := by rw [hr] at hr'; cases hr'; rfl
  subst this
  have h1 := congrArg String.toList heq
  simp only [String.toList_append, tidy_toList, tidyList_append, List.append_assoc] at h1
  have h2 := List.append_cancel_left (List.append_cancel_left h1)
  have digits : ∀ n : ℕ, tidyList (toString n).toList = (toString n).toList := by
    intro n
    refine tidyList_id fun c hc => ⟨?_, ?_⟩ <;> rintro rfl <;> exact absurd (nat_digits n _ hc) (by decide)
  have ints : ∀ n : ℤ, tidyList (toString n).toList = (toString n).toList := by
    intro n
    refine tidyList_id fun c hc => ⟨?_, ?_⟩ <;> rintro rfl <;> exact absurd (int_chars n _ hc) (by decide)
  rw [digits, digits, show tidyList "_rank".toList = '_' :: 'r' :: ['a', 'n', 'k'] from by decide, show tidyList "_lam".toList = '_' :: ['l', 'a', 'm'] from by decide] at h2
  have em : tidyList "_m".toList = '_' :: ['m'] := by decide
  -- past the order
  have h3 : (toString rank).toList ++ ('_' :: ['l', 'a', 'm'] ++ (tidyList (e.fmt ev).toList ++ T.toList)) =
      (toString rank').toList ++ ('_' :: ['l', 'a', 'm'] ++ (tidyList (e.fmt ev').toList ++ T'.toList)) := by
    rcases ho with rfl | ⟨m, rfl⟩ <;> rcases ho' with rfl | ⟨m', rfl⟩
    · simpa [tidyList] using h2
    · exfalso
      rw [String.toList_append, tidyList_append, em] at h2
      simp [tidyList] at h2
    · exfalso
      rw [String.toList_append, tidyList_append, em] at h2
      simp [tidyList] at h2
    · simp only [String.toList_append, tidyList_append, em, ints, List.cons_append, List.append_assoc, List.nil_append] at h2
      have h5 := (List.cons.inj (List.cons.inj h2).2).2
      obtain ⟨-, h6⟩ := split_first (c := '_') (not_mem_int (by decide) (by decide)) (not_mem_int (by decide) (by decide)) h5
      simpa using h6
  simp only [List.cons_append] at h3
  obtain ⟨h4, h5⟩ := split_first (c := '_') (not_mem_nat (by decide)) (not_mem_nat (by decide)) h3
  refine ⟨nat_inj h4, ?_⟩
  simp only [List.nil_append, List.cons.injEq, true_and] at h5
  obtain ⟨c, t, ht, -⟩ := hT
  obtain ⟨c', t', ht', -⟩ := hT'
  rw [ht, ht'] at h5
  obtain ⟨-, h6⟩ := split_first (c := '_') (tidyList_no (hfmt _)) (tidyList_no (hfmt _)) h5
  exact String.toList_injective (by rw [ht, ht', h6])

/-- names tell the functions apart. -/
private theorem label_parse {limDen : ℚ → ℚ} (hlim : LimitDenominator limDen) {e : SphereEnv}
    (hE : ∀ r, e.defaultRegion = .ok r → PlainEnding r.nameEnding) (hfmt : ∀ x, '_' ∉ (e.fmt x).toList) {X X' T T' : String} {k k' : Key}
    (h : Labelled limDen e X k) (h' : Labelled limDen e X' k') (hT : Rest T) (hT' : Rest T') (heq : X ++ T = X' ++ T') : k = k' ∧ T = T' := by
  cases k with
  | harmonic fn p =>
    cases k' with
    | harmonic fn' p' =>
      obtain ⟨h1, rfl, h3⟩ := h
      obtain ⟨h1', rfl, h3'⟩ := h'
      rw [String.append_assoc, String.append_assoc] at heq
      have tp : ∀ {p T : String}, (p = "" ∨ ∃ r, e.defaultRegion = .ok r ∧ p = "_" ++ r.nameEnding) → Rest T → NameTail (p ++ T) := by
        rintro p T (rfl | ⟨r, -, rfl⟩) hT
        · simpa using hT.tail
        · exact Or.inr ⟨_, by rw [String.append_assoc]⟩
      obtain ⟨rfl, h6⟩ := name_parse limDen hlim fn fn' h1 h1' _ _ (tp h3 hT) (tp h3' hT') heq
      have clash : ∀ {r : Region.Obj} {T T' : String}, e.defaultRegion = .ok r → Rest T' → "_" ++ r.nameEnding ++ T ≠ "" ++ T' := by
        intro r T T' hr hT' h
        obtain ⟨c, t, h1, h2, h3⟩ := hE r hr
        obtain ⟨c', t', h1', h2'⟩ := hT'
        have h := congrArg String.toList h
        simp only [String.toList_append, h1, h1', String.toList_empty, List.nil_append] at h
        have : c = c' := (List.cons.inj (List.cons.inj h).2).1
        subst this
        rcases h2' with h | rfl | rfl
        · rw [h2] at h; cases h
        · exact h3 (by decide)
        · exact h3 (by decide)
      rcases h3 with rfl | ⟨r, hr, rfl⟩ <;> rcases h3' with rfl | ⟨r', hr', rfl⟩
      · exact ⟨rfl, by simpa using h6⟩
      · exact absurd h6.symm (clash hr' hT)
      · exact absurd h6 (clash hr hT')
      · have : r' = r := by rw [hr] at hr'; cases hr'; rfl
        subst this
        exact ⟨rfl, cancel h6⟩
    | slepian rank => exact absurd heq.symm (harmonic_clash h' (by simp) h)
    | slepianFn fn' => exact absurd heq.symm (harmonic_clash h' (by simp) h)
  | slepian rank =>
    cases k' with
    | harmonic fn' p' => exact absurd heq (harmonic_clash h (by simp) h')
    | slepian rank' =>
      obtain ⟨rfl, h2⟩ := rank_parse hfmt h h' hT hT' heq
      exact ⟨rfl, h2⟩
    | slepianFn fn' => exact absurd heq (rank_clash hE h h' hT')
  | slepianFn fn =>
    cases k' with
    | harmonic fn' p' => exact absurd heq (harmonic_clash h (by simp) h')
    | slepian rank' => exact absurd heq.symm (rank_clash hE h' h hT)
    | slepianFn fn' =>
      obtain ⟨h1, r, hr, -, rfl⟩ := h
      obtain ⟨h1', r', hr', -, rfl⟩ := h'
      have : r' = r := by rw [hr] at hr'; cases hr'; rfl
      subst this
      obtain ⟨rfl, h2⟩ := sName_parse limDen hlim _ fn fn' h1 h1' _ _ hT.tail hT'.tail heq
      exact ⟨rfl, h2⟩

/-! ### the same function is made every time -/

private theorem map_pair {x : Except Err (List ℂ)} {w v : Noise.World} {c : List ℂ} (h : x.map (·, w) = .ok (c, v)) : x = .ok c := by
  cases x with
  | error y => cases h
  | ok y =>
    simp only [Except.map, Except.ok.injEq, Prod.mk.injEq] at h
    rw [h.1]

private theorem create_steady (e : Env) (L : ℕ) (m : Option ℤ) (fn : Fn) {w v w' v' : Noise.World} {c c' : List ℂ}
    (h : fn.create e L m w = .ok (c, v)) (h' : fn.create e L m w' = .ok (c', v')) : c = c' := by
  have pure2 : ∀ {x : Except Err (List ℂ)}, x.map (·, w) = .ok (c, v) → x.map (·, w') = .ok (c', v') → c = c' := by
    intro x h h'
    have h1 := map_pair h
    rw [map_pair h'] at h1
    cases h1
    rfl
  cases fn <;> simp only [Fn.create] at h h'
  case noiseEarth snr =>
    cases h1 : Masks.earth e.S L m with
    | error x => rw [h1] at h; cases h
    | ok flm =>
      rw [h1] at h h'
      simp only [bind, Except.bind] at h h'
      obtain ⟨nlm, hn⟩ := C23_noise_reproducible e.normals L flm snr
      rw [hn] at h h'
      cases h; cases h'; rfl
  case ridgelets v spin =>
    cases h1 : Functions.ridgelets L spin (e.kappas L v.B v.jMin) with
    | error x => rw [h1] at h; cases h
    | ok ws =>
      rw [h1] at h h'
      simp only [bind, Except.bind] at h h'
      cases h2 : NumPy.item ws (Wavelets.jth v.j) with
      | error x => rw [h2] at h; cases h
      | ok row =>
        rw [h2] at h h'
        cases h; cases h'; rfl
  case wmap =>
    rcases Nat.lt_or_ge (e.wmapFile.length + 2) L with hl | hl
    · rw [C22_wmap_short _ _ _ hl] at h
      cases h
    · obtain ⟨flm, hf, -⟩ := C22_wmap_real e.normals e.wmapFile L hl
      rw [hf] at h h'
      cases h; cases h'; rfl
  case elongatedGaussian => cases h; cases h'; rfl
  case squashedGaussian => cases h; cases h'; rfl
  case identity => cases h; cases h'; rfl
  all_goals exact pure2 h h'

private theorem fst_eq {α : Type} {x y : Except Err (α × Noise.World)} (h : x.map Prod.fst = y.map Prod.fst) {a b : α} {v v' : Noise.World}
    (hx : x = .ok (a, v)) (hy : y = .ok (b, v')) : a = b := by
  subst hx hy
  simpa [Except.map] using h

private theorem sCreate_steady {L : ℕ} {Pix : Type} [Fintype Pix] (e : SEnv L Pix) (m : Option ℤ) (fn : SFn) {w v w' v' : Noise.World}
    {c c' : List ℂ} (h : fn.create e m w = .ok (c, v)) (h' : fn.create e m w' = .ok (c', v')) : c = c' := by
  have pure2 : ∀ {x : Except Err (List ℂ)}, x.map (·, w) = .ok (c, v) → x.map (·, w') = .ok (c', v') → c = c' := by
    intro x h h'
    have h1 := map_pair h
    rw [map_pair h'] at h1
    cases h1
    rfl
  have noise : ∀ {x : String} {map : Except Err (List ℂ)} {snr : ℝ}, slepianLandNoise e x map snr w = .ok (c, v) →
      slepianLandNoise e x map snr w' = .ok (c', v') → c = c' := by
    intro x map snr h h'
    unfold slepianLandNoise at h h'
    cases h1 : slepianLandObject e x map with
    | error y => rw [h1] at h; cases h
    | ok d =>
      rw [h1] at h h'
      simp only [bind, Except.bind] at h h'
      exact fst_eq (C23_slepian_noise_reproducible (F := Pix → ℂ) e.env.normals _ _ _ (fun _ => .ok []) (fun _ => .ok []) L d snr w w').1 h h'
  cases fn <;> simp only [SFn.create] at h h'
  case slepianNoiseAfrica => exact noise h h'
  case slepianNoiseSouthAmerica => exact noise h h'
  case slepianIdentity => cases h; cases h'; rfl
  all_goals exact pure2 h h'

private theorem addNoise_steady {mk : List ℂ → ℝ → Noise.World → Except Err (List ℂ × Noise.World)}
    (hmk : ∀ c x w w', (mk c x w).map Prod.fst = (mk c x w').map Prod.fst) {noise : Option ℚ} {c : List ℂ} {w v w' v' : Noise.World}
    {q q' : Functions.Noised} (h : Functions.addNoiseWith mk noise c w = .ok (q, v)) (h' : Functions.addNoiseWith mk noise c w' = .ok (q', v')) :
    q = q' := by
  unfold Functions.addNoiseWith at h h'
  cases noise with
  | none => cases h; cases h'; rfl
  | some s =>
    simp only [bind, Except.bind] at h h'
    cases h1 : mk c s w with
    | error x => rw [h1] at h; cases h
    | ok p =>
      cases h2 : mk c s w' with
      | error x => rw [h2] at h'; cases h'
      | ok p' =>
        have h3 := fst_eq (hmk c s w w') (a := p.1) (v := p.2) h1 (b := p'.1) (v' := p'.2) h2
        rw [h1] at h
        rw [h2] at h'
        simp only [← h3] at h h'
        cases h4 : NumPy.broadcast (· + ·) c p.1 with
        | error x => rw [h4] at h; cases h
        | ok d =>
          rw [h4] at h h'
          cases h; cases h'; rfl

private theorem flmNoise_steady (normals : ℕ → ℕ → ℝ) (s : Functions.Settings) {c : List ℂ} {w v w' v' : Noise.World} {q q' : Functions.Noised}
    (h : Functions.flmNoise normals s c w = .ok (q, v)) (h' : Functions.flmNoise normals s c w' = .ok (q', v')) : q = q' := by
  refine addNoise_steady (fun c x w w' => ?_) h h'
  obtain ⟨nlm, hn⟩ := C23_noise_reproducible normals s.L c x
  rw [hn, hn]
  rfl

private theorem fpNoise_steady {L : ℕ} {Pix : Type} [Fintype Pix] (normals : ℕ → ℕ → ℝ) (e : Functions.SlepianEnv L Pix) (noise : Option ℚ)
    {c : List ℂ} {w v w' v' : Noise.World} {q q' : Functions.Noised} (h : Functions.fpNoise normals e noise c w = .ok (q, v))
    (h' : Functions.fpNoise normals e noise c w' = .ok (q', v')) : q = q' :=
  addNoise_steady (fun c x w w' => (C23_slepian_noise_reproducible (F := Pix → ℂ) normals _ _ _ (fun _ => .ok []) (fun _ => .ok []) L c x w w').1) h h'

/-- how the functions are made. -/
private def Makes (limDen : ℚ → ℚ) (e : SphereEnv) {L : ℕ} (n : Option ℚ) (m : Option ℤ) (X : String) (f : Made L) : Key → Prop
  | .harmonic fn _ => ∃ w w₁ w₂ c q, fn.create e.env L m w = .ok (c, w₁) ∧ Functions.flmNoise e.env.normals ⟨L, n, none, m⟩ c w₁ = .ok (q, w₂) ∧
      f = ⟨Script.harmonic e.env.S (e.ylm L) ⟨L, X ++ (noisePart limDen n ++ (smoothPart limDen m ++ ("_L" ++ toString L))), fn.spin, fn.reality,
        q.1, q.2.1, q.2.2⟩, none⟩
  | .slepian rank => ∃ r s w w₂ v c q, e.defaultRegion = .ok r ∧ e.slepian L r = .ok s ∧ NumPy.item s.env.sl.evecs rank = .ok v ∧
      Transform.slepianForward s.env.sl s.env.synth s.env.weight { flm := some v } none = .ok c ∧
      Functions.fpNoise e.env.normals s.env n c w = .ok (q, w₂) ∧
      f = ⟨Script.slepian s.env s.pixel ⟨L, X ++ (noisePart limDen n ++ (smoothPart limDen m ++ ("_L" ++ toString L))), 0, false,
        q.1, q.2.1, q.2.2⟩, some (s, r)⟩
  | .slepianFn fn => ∃ r s w w₁ w₂ c q, e.defaultRegion = .ok r ∧ e.slepian L r = .ok s ∧ fn.create (s.senv e.env r) m w = .ok (c, w₁) ∧
      Functions.fpNoise e.env.normals s.env n c w₁ = .ok (q, w₂) ∧
      f = ⟨Script.slepian s.env s.pixel ⟨L, X ++ (noisePart limDen n ++ (smoothPart limDen m ++ ("_L" ++ toString L))), 0, false,
        q.1, q.2.1, q.2.2⟩, some (s, r)⟩

private theorem makes_unique {limDen : ℚ → ℚ} {e : SphereEnv} {L : ℕ} {n : Option ℚ} {m : Option ℤ} {X : String} {f f' : Made L} {k : Key}
    (h : Makes limDen e n m X f k) (h' : Makes limDen e n m X f' k) : f = f' := by
  cases k with
  | harmonic fn p =>
    obtain ⟨w, w₁, w₂, c, q, h1, h2, rfl⟩ := h
    obtain ⟨w', w₁', w₂', c', q', h1', h2', rfl⟩ := h'
    obtain rfl := create_steady e.env L m fn h1 h1'
    obtain rfl := flmNoise_steady _ _ h2 h2'
    rfl
  | slepian rank =>
    obtain ⟨r, s, w, w₂, v, c, q, h1, h2, h3, h4, h5, rfl⟩ := h
    obtain ⟨r', s', w', w₂', v', c', q', h1', h2', h3', h4', h5', rfl⟩ := h'
    rw [h1] at h1'; cases h1'
    rw [h2] at h2'; cases h2'
    rw [h3] at h3'; cases h3'
    rw [h4] at h4'; cases h4'
    obtain rfl := fpNoise_steady _ _ _ h5 h5'
    rfl
  | slepianFn fn =>
    obtain ⟨r, s, w, w₁, w₂, c, q, h1, h2, h3, h4, rfl⟩ := h
    obtain ⟨r', s', w', w₁', w₂', c', q', h1', h2', h3', h4', rfl⟩ := h'
    rw [h1] at h1'; cases h1'
    rw [h2] at h2'; cases h2'
    obtain rfl := sCreate_steady _ m fn h3 h3'
    obtain rfl := fpNoise_steady _ _ _ h4 h4'
    rfl

private theorem makes_name {limDen : ℚ → ℚ} {e : SphereEnv} {L : ℕ} {n : Option ℚ} {m : Option ℤ} {X : String} {f : Made L} {k : Key}
    (h : Makes limDen e n m X f k) : f.target.obj.name = X ++ (noisePart limDen n ++ (smoothPart limDen m ++ ("_L" ++ toString L))) := by
  cases k with
  | harmonic fn p => obtain ⟨w, w₁, w₂, c, q, h1, h2, rfl⟩ := h; rfl
  | slepian rank => obtain ⟨r, s, w, w₂, v, c, q, h1, h2, h3, h4, h5, rfl⟩ := h; rfl
  | slepianFn fn => obtain ⟨r, s, w, w₁, w₂, c, q, h1, h2, h3, h4, rfl⟩ := h; rfl

/-! ### from the command line -/

/-- the parameters are recorded in names. -/
private def Recorded' : AnyFn → Prop
  | .harmonic fn => NameRecords fn
  | .slepianFn fn => SNameRecords fn
  | .slepian _ => True

private theorem int_recorded (z : ℤ) : Recorded (z : ℚ) := ⟨by simp, by simp⟩

private theorem default_recorded {s : String} {fn : AnyFn} (h : (s, fn) ∈ sphereFunctions) : Recorded' fn := by
  have r10 : Recorded (10 : ℚ) := int_recorded 10
  have r1 : Recorded (1 : ℚ) := int_recorded 1
  have rm : Recorded (-10 : ℚ) := by simpa using int_recorded (-10)
  have rt : Recorded (1 / 10 : ℚ) := ⟨by decide +kernel, Or.inr (by rw [abs_of_pos (by norm_num)]; norm_num)⟩
  simp only [sphereFunctions, List.mem_cons, List.not_mem_nil, or_false, Prod.mk.injEq] at h
  rcases h with ⟨-, rfl⟩ | ⟨-, rfl⟩ | ⟨-, rfl⟩ | ⟨-, rfl⟩ | ⟨-, rfl⟩ | ⟨-, rfl⟩ | ⟨-, rfl⟩ | ⟨-, rfl⟩ | ⟨-, rfl⟩ | ⟨-, rfl⟩ | ⟨-, rfl⟩ | ⟨-, rfl⟩ |
    ⟨-, rfl⟩ | ⟨-, rfl⟩ | ⟨-, rfl⟩ | ⟨-, rfl⟩ | ⟨-, rfl⟩ | ⟨-, rfl⟩ | ⟨-, rfl⟩ | ⟨-, rfl⟩ | ⟨-, rfl⟩ | ⟨-, rfl⟩ | ⟨-, rfl⟩ | ⟨-, rfl⟩ | ⟨-, rfl⟩ |
    ⟨-, rfl⟩ | ⟨-, rfl⟩ <;>
    first | trivial | exact r10 | exact rm | exact ⟨r1, rt⟩ | exact ⟨r10, r10⟩

private theorem setup_recorded {jMax : JMax} {L : ℕ} {fn fn' : Fn} {extra : Option (List ℤ)} (hx : ∀ xs, extra = some xs → ∀ x ∈ xs, -6 ≤ x)
    (hr : NameRecords fn) (h : fn.setupArgs jMax L extra = .ok fn') : NameRecords fn' := by
  have same : ∀ {fn : Fn}, NameRecords fn → noArgs fn extra = .ok fn' → NameRecords fn' := by
    intro fn hr h
    cases extra with
    | none => cases h; exact hr
    | some xs => cases h
  have none' : ∀ {fn fn' : Fn}, NameRecords fn → (Except.ok fn : Except Err Fn) = .ok fn' → NameRecords fn' := by
    intro fn fn' hr h; cases h; exact hr
  have wave : ∀ {w : Wave} {x : Option (List ℤ)} {g : Wave → Fn}, (∀ v, NameRecords (g v)) → (waveArgs jMax L w x).map g = .ok fn' → NameRecords fn' := by
    intro w x g hg h
    cases h1 : waveArgs jMax L w x with
    | error y => rw [h1] at h; cases h
    | ok v => rw [h1] at h; cases h; exact hg v
  cases fn <;> simp only [Fn.setupArgs] at h
  case gaussian s =>
    rcases extra with _ | _ | ⟨x, _ | _⟩ <;> simp only [powArg] at h <;> try cases h
    · exact hr
    · exact C69_powers_recorded x (hx _ rfl x (by simp))
  case noiseEarth s =>
    rcases extra with _ | _ | ⟨x, _ | _⟩ <;> simp only [snrArg] at h <;> try cases h
    · exact hr
    · exact int_recorded x
  case elongatedGaussian s t =>
    rcases extra with _ | _ | ⟨x, _ | ⟨y, _ | _⟩⟩ <;> simp only [powArgs] at h <;> try cases h
    · exact hr
    · exact ⟨C69_powers_recorded x (hx _ rfl x (by simp)), C69_powers_recorded y (hx _ rfl y (by simp))⟩
  case harmonicGaussian s t =>
    rcases extra with _ | _ | ⟨x, _ | ⟨y, _ | _⟩⟩ <;> simp only [powArgs] at h <;> try cases h
    · exact hr
    · exact ⟨C69_powers_recorded x (hx _ rfl x (by simp)), C69_powers_recorded y (hx _ rfl y (by simp))⟩
  case squashedGaussian s t =>
    rcases extra with _ | _ | ⟨x, _ | ⟨y, _ | _⟩⟩ <;> simp only [powArgs] at h <;> try cases h
    · exact hr
    · exact ⟨C69_powers_recorded x (hx _ rfl x (by simp)), C69_powers_recorded y (hx _ rfl y (by simp))⟩
  case sphericalHarmonic l m =>
    cases h1 : Functions.sphericalHarmonicArgs L l m extra with
    | error y => rw [h1] at h; cases h
    | ok v => rw [h1] at h; cases h; trivial
  case ridgelets w p =>
    cases h1 : ridgeletArgs jMax L w p extra with
    | error y => rw [h1] at h; cases h
    | ok v => rw [h1] at h; cases h; trivial
  case axisymmetricWavelets => refine wave ?_ h; exact fun _ => trivial
  case axisymmetricWaveletCoefficientsAfrica => refine wave ?_ h; exact fun _ => trivial
  case axisymmetricWaveletCoefficientsEarth => refine wave ?_ h; exact fun _ => trivial
  case axisymmetricWaveletCoefficientsSouthAmerica => refine wave ?_ h; exact fun _ => trivial
  all_goals exact same hr h

private theorem sSetup_recorded {jMax : JMax} {L : ℕ} {fn fn' : SFn} {extra : Option (List ℤ)} (hr : SNameRecords fn)
    (h : fn.setupArgs jMax L extra = .ok fn') : SNameRecords fn' := by
  have same : ∀ {fn : SFn}, SNameRecords fn → noArgs fn extra = .ok fn' → SNameRecords fn' := by
    intro fn hr h
    cases extra with
    | none => cases h; exact hr
    | some xs => cases h
  have wave : ∀ {w : Wave} {x : Option (List ℤ)} {g : Wave → SFn}, (∀ v, SNameRecords (g v)) → (waveArgs jMax (L ^ 2) w x).map g = .ok fn' →
      SNameRecords fn' := by
    intro w x g hg h
    cases h1 : waveArgs jMax (L ^ 2) w x with
    | error y => rw [h1] at h; cases h
    | ok v => rw [h1] at h; cases h; exact hg v
  cases fn <;> simp only [SFn.setupArgs] at h
  case slepianNoiseAfrica s =>
    rcases extra with _ | _ | ⟨x, _ | _⟩ <;> simp only [snrArg] at h <;> try cases h
    · exact hr
    · exact int_recorded x
  case slepianNoiseSouthAmerica s =>
    rcases extra with _ | _ | ⟨x, _ | _⟩ <;> simp only [snrArg] at h <;> try cases h
    · exact hr
    · exact int_recorded x
  case slepianWavelets => refine wave ?_ h; exact fun _ => trivial
  case slepianWaveletCoefficientsAfrica => refine wave ?_ h; exact fun _ => trivial
  case slepianWaveletCoefficientsSouthAmerica => refine wave ?_ h; exact fun _ => trivial
  all_goals exact same hr h

private theorem postInit_inv {limDen : ℚ → ℚ} {h : Functions.Hooks} {s : Functions.Settings}
    {noise : List ℂ → Noise.World → Except Err (Functions.Noised × Noise.World)} {w v : Noise.World} {o : Functions.Obj}
    (ho : Functions.postInit limDen h s noise w = .ok (o, v)) : ∃ c w₁ q, h.create w = .ok (c, w₁) ∧ noise c w₁ = .ok (q, v) ∧
      o = ⟨s.L, Functions.addDetails limDen s h.name, h.spin, h.reality, q.1, q.2.1, q.2.2⟩ := by
  unfold Functions.postInit at ho
  cases h1 : h.setupArgs with
  | error e => simp [h1, bind, Except.bind] at ho
  | ok u =>
    cases h2 : h.create w with
    | error e => simp [h1, h2, bind, Except.bind] at ho
    | ok p =>
      cases h3 : noise p.1 p.2 with
      | error e => simp [h1, h2, h3, bind, Except.bind] at ho
      | ok q =>
        simp only [h1, h2, h3, bind, Except.bind, pure, Except.pure, Except.ok.injEq, Prod.mk.injEq] at ho
        exact ⟨p.1, p.2, q.1, rfl, by rw [h3, ← ho.2], ho.1.symm⟩

/-- the region of a Slepian name is not added again. -/
theorem names_slepian (t : String) : Functions.namesSlepian ("slepian_" ++ t) = true := by
  rw [namesSlepian_iff]
  exact Or.inl ⟨[], '_' :: t.toList, by rw [String.toList_append]; rfl, Or.inl rfl, Or.inr ⟨t.toList, rfl⟩⟩

private theorem build_harmonic {limDen : ℚ → ℚ} {e : SphereEnv} {L : ℕ} {fn : Fn} {extra : Option (List ℤ)} {region : Option Region.Obj}
    {n : Option ℚ} {m : Option ℤ} {w v : Noise.World} {f : Made L} (hx : ∀ xs, extra = some xs → ∀ x ∈ xs, -6 ≤ x) (hr : NameRecords fn)
    (hreg : region = none ∨ ∃ r, e.defaultRegion = .ok r ∧ region = some r)
    (h : build limDen e L (.harmonic fn) extra region n m w = .ok (f, v)) : ∃ k X, Labelled limDen e X k ∧ Makes limDen e n m X f k := by
  simp only [build, bind, Except.bind] at h
  cases h1 : fn.construct limDen e.env extra ⟨L, n, region, m⟩ w with
  | error x => rw [h1] at h; cases h
  | ok p =>
    rw [h1] at h
    cases h
    unfold Fn.construct at h1
    cases h2 : fn.setupArgs e.env.jMax L extra with
    | error x => simp only [h2, bind, Except.bind] at h1; cases h1
    | ok fn' =>
      simp only [h2, bind, Except.bind] at h1
      obtain ⟨c, w₁, q, k1, k2, k3⟩ := postInit_inv (o := p.1) (v := p.2) h1
      refine ⟨.harmonic fn' (regionPart region (fn'.name limDen)), _, ⟨setup_recorded hx hr h2, rfl, ?_⟩, w, w₁, _, c, q, k1, k2, ?_⟩
      · rcases hreg with rfl | ⟨r, h3, rfl⟩
        · exact Or.inl rfl
        · unfold regionPart
          dsimp only
          split_ifs
          · exact Or.inl rfl
          · exact Or.inr ⟨r, h3, rfl⟩
      · rw [k3, addDetails_eq]
        simp only [String.append_assoc]

private theorem default_region {e : SphereEnv} {region : Option Region.Obj} (hreg : region = none ∨ ∃ r, e.defaultRegion = .ok r ∧ region = some r)
    {r : Region.Obj} (hr : regionOr e.defaultRegion region = .ok r) : e.defaultRegion = .ok r := by
  rcases hreg with rfl | ⟨r', h1, rfl⟩
  · exact hr
  · cases hr; exact h1

private theorem slepianName_inv {fmt : ℝ → String} {ending X : String} {L : ℕ} {s : SlepianOf L} {rank : ℕ}
    (h : slepianName fmt ending s rank = .ok X) : ∃ order ev, (order = "" ∨ ∃ m : ℤ, order = "_m" ++ toString m) ∧
      X = tidy ("slepian_" ++ ending ++ order ++ "_rank" ++ toString rank ++ "_lam" ++ fmt ev) := by
  unfold slepianName at h
  cases h10 : NumPy.item s.env.sl.evals rank with
  | error x =>
    cases ho : s.orders with
    | none => simp only [ho, h10, bind, Except.bind, reduceCtorEq] at h
    | some os =>
      cases hi : NumPy.item os rank with
      | error x => simp only [ho, hi, bind, Except.bind, Except.map, reduceCtorEq] at h
      | ok z => simp only [ho, hi, h10, bind, Except.bind, Except.map, reduceCtorEq] at h
  | ok ev =>
    cases ho : s.orders with
    | none =>
      simp only [ho, h10, bind, Except.bind, pure, Except.pure, Except.ok.injEq] at h
      exact ⟨"", ev, Or.inl rfl, h.symm⟩
    | some os =>
      cases hi : NumPy.item os rank with
      | error x => simp only [ho, hi, bind, Except.bind, Except.map, reduceCtorEq] at h
      | ok z =>
        simp only [ho, hi, h10, bind, Except.bind, Except.map, pure, Except.pure, Except.ok.injEq] at h
        exact ⟨_, ev, Or.inr ⟨z, rfl⟩, h.symm⟩

private theorem build_slepian {limDen : ℚ → ℚ} {e : SphereEnv} {L : ℕ} {rank : ℤ} {extra : Option (List ℤ)} {region : Option Region.Obj}
    {n : Option ℚ} {m : Option ℤ} {w v : Noise.World} {f : Made L} 
    (hreg : region = none ∨ ∃ r, e.defaultRegion = .ok r ∧ region = some r)
    (h : build limDen e L (.slepian rank) extra region n m w = .ok (f, v)) : ∃ k X, Labelled limDen e X k ∧ Makes limDen e n m X f k := by
  simp only [build, bind, Except.bind] at h
  cases h1 : Ranks.checkRank rank with
  | error x => rw [h1] at h; cases h
  | ok u =>
  rw [h1] at h
  cases h2 : Ranks.validateSlepian L extra with
  | error x => rw [h2] at h; cases h
  | ok u =>
  rw [h2] at h
  cases h3 : regionOr e.defaultRegion region with
  | error x => rw [h3] at h; cases h
  | ok r =>
  rw [h3] at h
  dsimp only at h
  cases h4 : e.slepian L r with
  | error x => rw [h4] at h; cases h
  | ok s =>
  rw [h4] at h
  dsimp only at h
  cases h5 : slepianObject limDen e L r s rank extra n m w with
  | error x => rw [h5] at h; cases h
  | ok p =>
  rw [h5] at h
  cases h
  simp only [slepianObject, bind, Except.bind] at h5
  cases h6 : Ranks.setupRank rank extra with
  | error x => rw [h6] at h5; cases h5
  | ok k =>
  rw [h6] at h5
  dsimp only at h5
  cases h7 : slepianName e.fmt r.nameEnding s k.toNat with
  | error x => rw [h7] at h5; cases h5
  | ok X =>
  rw [h7] at h5
  dsimp only at h5
  obtain ⟨c, w₁, q, k1, k2, k3⟩ := postInit_inv (o := p.1) (v := p.2) h5
  dsimp only at k1 k2 k3
  cases h8 : NumPy.item s.env.sl.evecs k.toNat with
  | error x => rw [h8] at k1; cases k1
  | ok v =>
  rw [h8] at k1
  dsimp only at k1
  cases h9 : Transform.slepianForward s.env.sl s.env.synth s.env.weight { flm := some v } none with
  | error x => rw [h9] at k1; cases k1
  | ok c' =>
  rw [h9] at k1
  cases k1
  obtain ⟨order, ev, hord, hX⟩ := slepianName_inv h7
  have hnm : Functions.namesSlepian X = true := by
    obtain ⟨c, t, hl, -⟩ := slepian_list (ending := r.nameEnding) (rank := k.toNat) (x := e.fmt ev) hord
    have : X = "slepian_" ++ String.ofList (tidyList r.nameEnding.toList ++ '_' :: c :: t) := by
      apply String.toList_injective
      rw [hX, hl]
      simp [String.toList_append]
    rw [this]
    exact names_slepian _
  refine ⟨.slepian k.toNat, X, ⟨r, order, ev, default_region hreg h3, hord, hX⟩, r, s, w, _, v, c, q, default_region hreg h3, h4, h8, h9, k2, ?_⟩
  rw [k3, addDetails_eq]
  simp [regionPart, hnm]

private theorem build_slepianFn {limDen : ℚ → ℚ} {e : SphereEnv} {L : ℕ} {fn : SFn} {extra : Option (List ℤ)} {region : Option Region.Obj}
    {n : Option ℚ} {m : Option ℤ} {w v : Noise.World} {f : Made L} (hr : SNameRecords fn)
    (hreg : region = none ∨ ∃ r, e.defaultRegion = .ok r ∧ region = some r)
    (h : build limDen e L (.slepianFn fn) extra region n m w = .ok (f, v)) : ∃ k X, Labelled limDen e X k ∧ Makes limDen e n m X f k := by
  simp only [build, bind, Except.bind] at h
  cases h3 : regionOr e.defaultRegion region with
  | error x => rw [h3] at h; cases h
  | ok r =>
  rw [h3] at h
  dsimp only at h
  cases h4 : e.slepian L r with
  | error x => rw [h4] at h; cases h
  | ok s =>
  rw [h4] at h
  dsimp only at h
  cases h5 : fn.construct limDen (s.senv e.env r) extra n m w with
  | error x => rw [h5] at h; cases h
  | ok p =>
  rw [h5] at h
  cases h
  unfold SFn.construct at h5
  cases h6 : fn.setupArgs (s.senv e.env r).env.jMax L extra with
  | error x => simp only [h6, bind, Except.bind] at h5; cases h5
  | ok fn' =>
  simp only [h6, bind, Except.bind] at h5
  split at h5
  · cases h5
  rename_i o' ho'
  have hexp : (∀ x, fn'.expects = some x → r.nameEnding = x) ∧ o' = p := by
    split at h5
    · rename_i x hx
      unfold checkRegion at h5
      by_cases hne : r.nameEnding = x
      · rw [if_neg (by simpa [SlepianOf.senv] using hne)] at h5
        cases h5
        refine ⟨fun y hy => ?_, rfl⟩
        rw [hx] at hy; cases hy
        exact hne
      · rw [if_pos (by simpa [SlepianOf.senv] using hne)] at h5
        cases h5
    · rename_i hx
      cases h5
      exact ⟨fun y hy => (by rw [hx] at hy; cases hy), rfl⟩
  obtain ⟨hexp, rfl⟩ := hexp
  obtain ⟨c, w₁, q, k1, k2, k3⟩ := postInit_inv (o := o'.1) (v := o'.2) ho'
  refine ⟨.slepianFn fn', fn'.name limDen r.nameEnding, ⟨sSetup_recorded hr h6, r, default_region hreg h3, hexp, rfl⟩, r, s, w, w₁, _, c, q, default_region hreg h3, h4, k1, k2, ?_⟩
  have hnm : Functions.namesSlepian (fn'.name limDen r.nameEnding) = true := by
    obtain ⟨t, ht, -⟩ := begins fn'
    unfold SFn.name
    rw [ht, String.append_assoc]
    exact names_slepian _
  rw [k3, addDetails_eq]
  simp [regionPart, hnm, SlepianOf.senv]

private theorem build_inv {limDen : ℚ → ℚ} {e : SphereEnv} {L : ℕ} {fn : AnyFn} {extra : Option (List ℤ)} {region : Option Region.Obj}
    {n : Option ℚ} {m : Option ℤ} {w v : Noise.World} {f : Made L} (hx : ∀ xs, extra = some xs → ∀ x ∈ xs, -6 ≤ x) (hr : Recorded' fn)
    (hreg : region = none ∨ ∃ r, e.defaultRegion = .ok r ∧ region = some r)
    (h : build limDen e L (fn) extra region n m w = .ok (f, v)) : ∃ k X, Labelled limDen e X k ∧ Makes limDen e n m X f k := by
  cases fn with
  | harmonic fn => exact build_harmonic hx hr hreg h
  | slepian rank => exact build_slepian hreg h
  | slepianFn fn => exact build_slepianFn hr hreg h

private theorem main_inv {limDen : ℚ → ℚ} {e : SphereEnv} {a : Args} {w v : Noise.World} {shown : Shown} (h : main limDen e a w = .ok (some shown, v)) :
    ∃ fn g s type region f w₁ go w₂ amp fig, Reads a fn g s type ∧ s.annotations = !a.outline ∧ RegionOf e a region ∧
      build limDen e a.bandlimit fn a.extra region (noiseOf a) a.smoothing w = .ok (f, w₁) ∧ MapMade limDen e a.bandlimit g go w₁ w₂ ∧
      amplitude e f = .ok amp ∧ Script.plot limDen e.env.S f.target go s = .ok fig ∧
      display e f fig amp (!a.unnormalise) type (!a.unzeropad) = .ok (some shown) := by
  rcases C85_command_line a with ⟨fn, g, s, type, hr⟩ | herr
  case inr => rw [herr] at h; cases h
  have hann : s.annotations = !a.outline := by
    have := hr.annotations
    cases h1 : s.annotations <;> cases h2 : a.outline <;> simp [h1, h2] at this ⊢
  have hs : s = ⟨a.alpha, a.beta, a.gamma, !a.outline, s.method, s.view⟩ := by
    obtain ⟨x, y, z, b, m, u⟩ := s
    have h1 := hr.alpha; have h2 := hr.beta; have h3 := hr.gamma
    simp only at h1 h2 h3 hann
    rw [h1, h2, h3, hann]
  obtain ⟨-, h2, h3⟩ := function_ok _ hr.function
  simp only at h2 h3
  unfold main at h
  simp only [read_ok hr, bind, Except.bind] at h
  have hm : ∃ region, (if a.region then e.defaultRegion.map some else .ok none : Except Err (Option Region.Obj)) = .ok region ∧ RegionOf e a region := by
    cases hb : a.region with
    | false => exact ⟨none, by simp, .inl ⟨hb, rfl⟩⟩
    | true =>
      cases hd : e.defaultRegion with
      | error x => simp only [hb, hd, if_true, Except.map] at h; cases h
      | ok r => exact ⟨some r, by simp [Except.map], .inr ⟨r, hb, hd, rfl⟩⟩
  obtain ⟨region, hm1, hm2⟩ := hm
  simp only [hm1, h2, h3] at h
  cases h4 : build limDen e a.bandlimit fn a.extra region (noiseOf a) a.smoothing w with
  | error x =>
    unfold noiseOf at h4
    rw [h4] at h
    cases h
  | ok p =>
  obtain ⟨f, w₁⟩ := p
  have h4' := h4
  unfold noiseOf at h4'
  rw [h4'] at h
  dsimp only at h
  cases h5 : otherMap limDen e a.bandlimit a.convolve w₁ with
  | error x => rw [h5] at h; cases h
  | ok p =>
  obtain ⟨go, w₂⟩ := p
  rw [h5] at h
  dsimp only at h
  cases h6 : amplitude e f with
  | error x => rw [h6] at h; cases h
  | ok amp =>
  rw [h6, ← hs] at h
  dsimp only at h
  cases h7 : Script.plot limDen e.env.S f.target go s with
  | error x => rw [h7] at h; cases h
  | ok fig =>
  rw [h7] at h
  dsimp only at h
  cases h8 : display e f fig amp (!a.unnormalise) type (!a.unzeropad) with
  | error x => rw [h8] at h; cases h
  | ok sh =>
  rw [h8] at h
  simp only [pure, Except.pure, Except.ok.injEq, Prod.mk.injEq] at h
  refine ⟨fn, g, s, type, region, f, w₁, go, w₂, amp, fig, hr, hann, hm2, h4, ?_, h6, h7, by rw [h8, h.1]⟩
  rcases hr.convolve with ⟨k1, rfl⟩ | ⟨m, x, k1, rfl, hmem⟩
  · rw [k1] at h5
    cases h5
    exact .inl ⟨rfl, rfl, rfl⟩
  · obtain ⟨-, k2, k3⟩ := map_ok _ hmem
    simp only at k2 k3
    rw [k1] at h5
    simp only [otherMap, k2, k3, bind, Except.bind] at h5
    cases h9 : x.construct limDen e.env none ⟨a.bandlimit, none, none, none⟩ w₁ with
    | error y => rw [h9] at h5; cases h5
    | ok q =>
      rw [h9] at h5
      cases h5
      exact .inr ⟨x, q.1, rfl, rfl, h9⟩

private theorem plot_same {limDen : ℚ → ℚ} {S : Masks.Sphere} {f : Script.Target} {g : Option Functions.Obj} {s s' : Script.Args}
    {fig fig' : Script.Figure} (h : Script.plot limDen S f g s = .ok fig) (h' : Script.plot limDen S f g s' = .ok fig')
    (hm : s.method = s'.method) (hab : s.method ≠ .north → s.alpha = s'.alpha ∧ s.beta = s'.beta) (hg : s.method = .rotate → s.gamma = s'.gamma)
    (hv : Functions.contains "earth" fig.filename = true → s.view = s'.view) :
    fig' = { fig with annotation := fig'.annotation } ∧ (s.annotations = s'.annotations → fig.annotation = fig'.annotation) := by
  obtain ⟨x, y, z, b, m, u⟩ := s
  obtain ⟨x', y', z', b', m', u'⟩ := s'
  simp only at hm hab hg hv
  subst hm
  have hmeth : ∀ {p p'}, Script.applyMethod limDen f ⟨x, y, z, b, m, u⟩ = .ok p → Script.applyMethod limDen f ⟨x', y', z', b', m, u'⟩ = .ok p' →
      p.1 = p'.1 ∧ p.2.1 = p'.2.1 ∧ p.2.2.1 = p'.2.2.1 ∧ (b = b' → p = p') := by
    intro p p' hp hp'
    unfold Script.applyMethod at hp hp'
    cases m with
    | north => cases hp; cases hp'; exact ⟨rfl, rfl, rfl, fun _ => rfl⟩
    | rotate =>
      obtain ⟨rfl, rfl⟩ := hab (by simp)
      obtain rfl := hg rfl
      simp only [Script.rotationHelper] at hp hp'
      rw [hp] at hp'
      cases hp'
      exact ⟨rfl, rfl, rfl, fun _ => rfl⟩
    | translate =>
      obtain ⟨rfl, rfl⟩ := hab (by simp)
      simp only [Script.translationHelper, bind, Except.bind] at hp hp'
      cases h1 : Plot.calcNearestGridPoint f.obj.L x y with
      | error y => rw [h1] at hp; cases hp
      | ok q =>
        simp only [h1] at hp hp'
        cases h2 : (Functions.translate f.obj (f.helper q.1 q.2) f.shannon).1 with
        | error y => simp only [h2] at hp; cases hp
        | ok c =>
          simp only [h2, pure, Except.pure, Except.ok.injEq] at hp hp'
          subst hp hp'
          exact ⟨rfl, rfl, rfl, fun hb => by rw [hb]⟩
  unfold Script.plot at h h'
  cases h1 : Script.applyMethod limDen f ⟨x, y, z, b, m, u⟩ with
  | error y => rw [h1] at h; cases h
  | ok p =>
  cases h2 : Script.applyMethod limDen f ⟨x', y', z', b', m, u'⟩ with
  | error y => rw [h2] at h'; cases h'
  | ok p' =>
  obtain ⟨e1, e2, e3, e4⟩ := hmeth h1 h2
  rw [h1] at h
  rw [h2] at h'
  obtain ⟨c, r, n, an⟩ := p
  obtain ⟨c', r', n', an'⟩ := p'
  simp only at e1 e2 e3
  subst e1 e2 e3
  simp only [bind, Except.bind] at h h'
  cases h3 : Script.applyConvolution f g c r n with
  | error y => rw [h3] at h; cases h
  | ok q =>
  rw [h3] at h h'
  obtain ⟨c2, r2, n2⟩ := q
  simp only [pure, Except.pure, Except.ok.injEq] at h h'
  have hview : Script.applyView S f.obj.L c2 n2 u = Script.applyView S f.obj.L c2 n2 u' := by
    by_cases hc : Functions.contains "earth" n2 = true
    · have : Functions.contains "earth" fig.filename = true := by
        rw [← h]
        unfold Script.applyView
        rw [if_pos hc]
        cases u with
        | africa =>
          simp only [Functions.contains, decide_eq_true_eq, String.toList_append] at hc ⊢
          obtain ⟨l, r, hlr⟩ := hc
          exact ⟨l, r ++ "_africa".toList, by rw [← hlr]; simp⟩
        | southAmerica => exact hc
      rw [hv this]
    · unfold Script.applyView
      rw [if_neg hc, if_neg hc]
  rw [hview] at h
  subst h h'
  exact ⟨rfl, fun hb => by
    have := e4 hb
    simp only [Prod.mk.injEq, true_and] at this
    exact this⟩

private theorem display_annotation (e : SphereEnv) {L : ℕ} (f : Made L) (fig : Script.Figure) (x : List (ℝ × ℝ)) (amp : Option ℝ) (n : Bool)
    (t : String) (u : Bool) : display e f { fig with annotation := x } amp n t u =
      (display e f fig amp n t u).map fun y => y.map fun s => { s with annotation := x } := by
  unfold display
  simp only [bind, Except.bind]
  cases toField e f fig.reality fig.coefficients with
  | error _ => rfl
  | ok field =>
    dsimp only
    split
    · rfl
    · split
      · rfl
      · rename_i x _
        cases x <;> rfl

private theorem display_inv {e : SphereEnv} {L : ℕ} {f : Made L} {fig : Script.Figure} {amp : Option ℝ} {n : Bool} {t : String} {u : Bool} {shown : Shown}
    (h : display e f fig amp n t u = .ok (some shown)) : ∃ s : Plot.SphereSettings, s.normalise = n ∧ s.plotType = t ∧ s.upsample = u ∧
      shown.filename = s.filename fig.filename ∧ shown.annotation = fig.annotation := by
  unfold display at h
  simp only [bind, Except.bind] at h
  cases h1 : toField e f fig.reality fig.coefficients with
  | error x => rw [h1] at h; cases h
  | ok field =>
    rw [h1] at h
    dsimp only at h
    split at h
    · cases h
    · split at h
      · cases h
      · rename_i m _ _ x _
        cases x with
        | none => cases h
        | some pf =>
          simp only [pure, Except.pure, Except.ok.injEq, Option.map_some, Option.some.injEq] at h
          exact ⟨⟨L, amp, n, t, u, m⟩, rfl, rfl, rfl, by rw [← h], by rw [← h]⟩

/-- the last word of the name of a figure. -/
private theorem last_word (limDen : ℚ → ℚ) (name : String) (hn : EndsInBandlimit name) (s : Script.Args) (g : Option Functions.Obj)
    (hg : ∀ x, g = some x → EndsInBandlimit x.name) (view : String) (hview : view = "" ∨ view = "_africa") :
    ∃ u c v, (name ++ methodName limDen s ++ convolvedName g ++ view).toList = u ++ '_' :: c :: v ∧ c ≠ 'r' ∧ '_' ∉ c :: v := by
  have eL : "_L".toList = ['_', 'L'] := rfl
  have band : ∀ {x : String}, EndsInBandlimit x → ∃ u c v, x.toList = u ++ '_' :: c :: v ∧ c ≠ 'r' ∧ '_' ∉ c :: v := by
    rintro x ⟨y, K, rfl⟩
    refine ⟨y.toList, 'L', (toString K).toList, by simp only [String.toList_append, eL, List.append_assoc]; rfl, by decide, ?_⟩
    rw [List.mem_cons, not_or]
    exact ⟨by decide, not_mem_nat (by decide)⟩
  have more : ∀ (x : String) {y : String}, (∃ u c v, y.toList = u ++ '_' :: c :: v ∧ c ≠ 'r' ∧ '_' ∉ c :: v) →
      ∃ u c v, (x ++ y).toList = u ++ '_' :: c :: v ∧ c ≠ 'r' ∧ '_' ∉ c :: v := by
    rintro x y ⟨u, c, v, h1, h2, h3⟩
    exact ⟨x.toList ++ u, c, v, by rw [String.toList_append, h1, List.append_assoc], h2, h3⟩
  have angle : ∀ a b c : ℚ, ∃ u d v, (filenameAngle limDen a b c).toList = u ++ '_' :: d :: v ∧ d ≠ 'r' ∧ '_' ∉ d :: v := by
    intro a b c
    have hf : ∀ n d, '_' ∉ (angleField n d).toList := fun n d => angleField_chars n d (by decide) (by decide) (by decide) (by decide)
    have e1 : "_beta".toList = '_' :: 'b' :: ['e', 't', 'a'] := rfl
    have e2 : "_gamma".toList = '_' :: 'g' :: ['a', 'm', 'm', 'a'] := rfl
    rw [filenameAngle_eq]
    split_ifs
    · refine ⟨("alpha" ++ angleField (limDen a).num (limDen a).den).toList, 'b', ['e', 't', 'a'] ++ (angleField (limDen b).num (limDen b).den).toList, ?_,
        by decide, ?_⟩
      · simp [String.toList_append, e1]
      · simp [hf]
    · refine ⟨("alpha" ++ angleField (limDen a).num (limDen a).den ++ "_beta" ++ angleField (limDen b).num (limDen b).den).toList, 'g',
        ['a', 'm', 'm', 'a'] ++ (angleField (limDen c).num (limDen c).den).toList, ?_, by decide, ?_⟩
      · simp [String.toList_append, e2]
      · simp [hf]
  rcases hview with rfl | rfl
  · rw [String.append_empty]
    cases g with
    | some g =>
      simp only [convolvedName]
      exact more _ (more _ (band (hg g rfl)))
    | none =>
      simp only [convolvedName, String.append_empty]
      unfold methodName
      split
      · simpa using band hn
      · exact more _ (more _ (angle _ _ _))
      · exact more _ (more _ (angle _ _ _))
  · exact more _ ⟨[], 'a', ['f', 'r', 'i', 'c', 'a'], rfl, by decide, by decide⟩

private theorem map_made {limDen : ℚ → ℚ} {e : SphereEnv} {L : ℕ} {m : String} {x : Fn} (hx : (m, x) ∈ sphereMaps) {o : Functions.Obj} {w v : Noise.World}
    (h : x.construct limDen e.env none ⟨L, none, none, none⟩ w = .ok (o, v)) : NameRecords x ∧ ∃ w₁ c q, x.create e.env L none w = .ok (c, w₁) ∧
      Functions.flmNoise e.env.normals ⟨L, none, none, none⟩ c w₁ = .ok (q, v) ∧
      o = ⟨L, x.name limDen ++ ("_L" ++ toString L), x.spin, x.reality, q.1, q.2.1, q.2.2⟩ := by
  have h0 : x.setupArgs e.env.jMax L none = .ok x ∧ NameRecords x := by
    simp only [sphereMaps, List.mem_cons, List.not_mem_nil, or_false, Prod.mk.injEq] at hx
    rcases hx with ⟨-, rfl⟩ | ⟨-, rfl⟩ | ⟨-, rfl⟩ <;> exact ⟨rfl, trivial⟩
  unfold Fn.construct at h
  simp only [h0.1, bind, Except.bind] at h
  obtain ⟨c, w₁, q, k1, k2, k3⟩ := postInit_inv h
  refine ⟨h0.2, w₁, c, q, k1, k2, ?_⟩
  rw [k3, addDetails_eq]
  simp [regionPart, noisePart, smoothPart]

/-- the denominators of the angles. -/
private def Small (s : Script.Args) : Prop := s.alpha.den ≤ 1000000 ∧ s.beta.den ≤ 1000000 ∧ s.gamma.den ≤ 1000000

private theorem figures {limDen : ℚ → ℚ} (hlim : LimitDenominator limDen) {e : SphereEnv} (hE : ∀ r, e.defaultRegion = .ok r → PlainEnding r.nameEnding)
    (hfmt : ∀ x, '_' ∉ (e.fmt x).toList) {L L' : ℕ} {n n' m m' : Option ℤ} {k k' : Key} {X X' : String} {f : Made L} {f' : Made L'}
    (hk : Labelled limDen e X k) (hk' : Labelled limDen e X' k') (hM : Makes limDen e (n.map fun x : ℤ => (x : ℚ)) m X f k)
    (hM' : Makes limDen e (n'.map fun x : ℤ => (x : ℚ)) m' X' f' k') {g g' : Option Fn} (hg : ∀ x, g = some x → ∃ i, (i, x) ∈ sphereMaps)
    (hg' : ∀ x, g' = some x → ∃ i, (i, x) ∈ sphereMaps) {go go' : Option Functions.Obj} {w₁ w₂ w₁' w₂' : Noise.World}
    (hgo : MapMade limDen e L g go w₁ w₂) (hgo' : MapMade limDen e L' g' go' w₁' w₂') {amp amp' : Option ℝ} (hamp : amplitude e f = .ok amp)
    (hamp' : amplitude e f' = .ok amp') {s s' : Script.Args} (hs : Small s) (hs' : Small s') {fig fig' : Script.Figure}
    (hp : Script.plot limDen e.env.S f.target go s = .ok fig) (hp' : Script.plot limDen e.env.S f'.target go' s' = .ok fig') {nrm nrm' up up' : Bool}
    {t t' : String} (ht : t ∈ ["abs", "real", "imag", "sum"]) (ht' : t' ∈ ["abs", "real", "imag", "sum"]) {shown shown' : Shown}
    (hd : display e f fig amp nrm t up = .ok (some shown)) (hd' : display e f' fig' amp' nrm' t' up' = .ok (some shown'))
    (hname : shown.filename = shown'.filename) :
    shown' = { shown with annotation := shown'.annotation } ∧ (s.annotations = s'.annotations → shown = shown') := by
  have ebl : ∀ {L : ℕ} {go : Option Functions.Obj} {g : Option Fn} {w₁ w₂ : Noise.World}, (∀ x, g = some x → ∃ i, (i, x) ∈ sphereMaps) →
      MapMade limDen e L g go w₁ w₂ → ∀ x, go = some x → EndsInBandlimit x.name := by
    rintro L go g w₁ w₂ hg (⟨-, h, -⟩ | ⟨y, o, rfl, rfl, ho⟩) x hx
    · rw [h] at hx; cases hx
    · cases hx
      obtain ⟨i, hi⟩ := hg y rfl
      obtain ⟨-, w, c, q, -, -, rfl⟩ := map_made hi ho
      exact ⟨_, L, by rw [String.append_assoc]⟩
  have bl : ∀ {L : ℕ} {n : Option ℚ} {m : Option ℤ} {X : String} {f : Made L} {k : Key}, Makes limDen e n m X f k → EndsInBandlimit f.target.obj.name := by
    intro L n m X f k h
    exact ⟨X ++ (noisePart limDen n ++ smoothPart limDen m), L, by rw [makes_name h]; simp only [String.append_assoc]⟩
  -- the ending
  obtain ⟨σ, s1, s2, s3, s4, s5⟩ := display_inv hd
  obtain ⟨σ', s1', s2', s3', s4', s5'⟩ := display_inv hd'
  have hv : ∀ {p : Prop} [Decidable p], (if p then "_africa" else "") = "" ∨ (if p then "_africa" else "") = "_africa" := by
    intro p _
    by_cases h : p <;> simp [h]
  have f1 := C75_filename limDen e.env.S f.target go s fig hp
  have f2 := C75_filename limDen e.env.S f'.target go' s' fig' hp'
  rw [s4, s4'] at hname
  obtain ⟨hfile, hup, hty, hnr⟩ := ending_parse (by rw [s2]; exact ht) (by rw [s2']; exact ht')
    (by rw [f1]; exact last_word limDen _ (bl hM) s go (ebl hg hgo) _ hv) (by rw [f2]; exact last_word limDen _ (bl hM') s' go' (ebl hg' hgo') _ hv) hname
  rw [s1, s1'] at hnr
  rw [s2, s2'] at hty
  rw [s3, s3'] at hup
  subst hnr hty hup
  -- the function
  have hfile2 := hfile
  rw [f1, f2, makes_name hM, makes_name hM'] at hfile2
  simp only [String.append_assoc] at hfile2
  have tail : ∀ {s : Script.Args} {go : Option Functions.Obj} {x : String}, (x = "" ∨ x = "_africa") →
      NameTail (methodName limDen s ++ (convolvedName go ++ x)) := by
    intro s go x hx
    refine tail_append ?_ (tail_append ?_ ?_)
    · unfold methodName
      split
      · exact Or.inl rfl
      · exact Or.inr ⟨"rotate_" ++ filenameAngle limDen s.alpha s.beta s.gamma, by rw [← String.append_assoc]; rfl⟩
      · exact Or.inr ⟨"translate_" ++ filenameAngle limDen s.alpha s.beta 0, by rw [← String.append_assoc]; rfl⟩
    · cases go with
      | none => exact Or.inl rfl
      | some g => exact Or.inr ⟨"convolved_" ++ g.name, by simp only [convolvedName]; rw [← String.append_assoc]; rfl⟩
    · rcases hx with rfl | rfl
      · exact Or.inl rfl
      · exact Or.inr ⟨"africa", rfl⟩
  obtain ⟨rfl, hT⟩ := label_parse hlim hE hfmt hk hk' (rest_settings _ _ _ _ _) (rest_settings _ _ _ _ _) hfile2
  obtain ⟨rfl, rfl, rfl, -⟩ := settings_parse limDen hlim n n' m m' L L' _ _ (tail hv) (tail hv) hT
  have hX : X = X' := by
    rw [hT] at hfile2
    have := congrArg String.toList hfile2
    rw [String.toList_append, String.toList_append (s := X')] at this
    exact String.toList_injective (List.append_cancel_right this)
  subst hX
  obtain rfl := makes_unique hM hM'
  rw [hamp] at hamp'
  cases hamp'
  -- the rest
  obtain ⟨c1, c2, c3, c4, c5⟩ := C75_filename_determines limDen e.env.S f.target f.target rfl (bl hM) go go' (ebl hg hgo) (ebl hg' hgo') s s' fig fig' hp hp' hfile
  have hgg : go = go' := by
    rcases hgo with ⟨-, rfl, -⟩ | ⟨y, o, rfl, rfl, ho⟩ <;> rcases hgo' with ⟨-, rfl, -⟩ | ⟨y', o', rfl, rfl, ho'⟩
    · rfl
    · cases c4
    · cases c4
    · obtain ⟨i, hi⟩ := hg y rfl
      obtain ⟨i', hi'⟩ := hg' y' rfl
      obtain ⟨r1, w, c, q, k1, k2, rfl⟩ := map_made hi ho
      obtain ⟨r1', w', c', q', k1', k2', rfl⟩ := map_made hi' ho'
      simp only [Option.map_some, Option.some.injEq] at c4
      have hL : NameTail ("_L" ++ toString L) := Or.inr ⟨"L" ++ toString L, by rw [← String.append_assoc]; rfl⟩
      obtain ⟨rfl, -⟩ := name_parse limDen hlim y y' r1 r1' _ _ hL hL c4
      obtain rfl := create_steady _ _ _ _ k1 k1'
      obtain rfl := flmNoise_steady _ _ k2 k2'
      rfl
  subst hgg
  obtain ⟨d1, d2⟩ := plot_same hp hp' c1 (fun h => by
    have := c2 h
    rw [hlim _ hs.1, hlim _ hs'.1, hlim _ hs.2.1, hlim _ hs'.2.1] at this
    exact this) (fun h => by
    have := c3 h
    rw [hlim _ hs.2.2, hlim _ hs'.2.2] at this
    exact this) c5
  rw [d1, display_annotation, hd] at hd'
  simp only [Except.map, Option.map_some, Except.ok.injEq, Option.some.injEq] at hd'
  refine ⟨by rw [← hd'], fun h => ?_⟩
  rw [← hd', ← d2 h, ← s5]

/-- C118.  Two figures of the sphere command that are saved under one name show the same: the same colours and the same scale, whatever was asked for and
whatever random numbers were drawn before; only the annotations may differ, if one was made with `-o` and the other without. -/
theorem C118_figure_name (limDen : ℚ → ℚ) (hlim : LimitDenominator limDen) (e : SphereEnv)
    (hE : ∀ r, e.defaultRegion = .ok r → PlainEnding r.nameEnding) (hfmt : ∀ x, '_' ∉ (e.fmt x).toList) (a a' : Args)
    (ha : a.alpha.den ≤ 1000000 ∧ a.beta.den ≤ 1000000 ∧ a.gamma.den ≤ 1000000)
    (ha' : a'.alpha.den ≤ 1000000 ∧ a'.beta.den ≤ 1000000 ∧ a'.gamma.den ≤ 1000000)
    (hx : ∀ xs, a.extra = some xs → ∀ x ∈ xs, -6 ≤ x) (hx' : ∀ xs, a'.extra = some xs → ∀ x ∈ xs, -6 ≤ x)
    (w v w' v' : Noise.World) (shown shown' : Shown) (h : main limDen e a w = .ok (some shown, v)) (h' : main limDen e a' w' = .ok (some shown', v'))
    (hname : shown.filename = shown'.filename) :
    shown.colours = shown'.colours ∧ shown.cmin = shown'.cmin ∧ shown.cmax = shown'.cmax ∧ (a.outline = a'.outline → shown = shown') := by
  obtain ⟨fn, g, s, type, region, f, w₁, go, w₂, amp, fig, hr, hann, hreg, hb, hgo, hamp, hp, hd⟩ := main_inv h
  obtain ⟨fn', g', s', type', region', f', w₁', go', w₂', amp', fig', hr', hann', hreg', hb', hgo', hamp', hp', hd'⟩ := main_inv h'
  have reg : ∀ {a : Args} {region : Option Region.Obj}, RegionOf e a region → region = none ∨ ∃ r, e.defaultRegion = .ok r ∧ region = some r := by
    rintro a region (⟨-, h⟩ | ⟨r, -, h1, h2⟩)
    · exact .inl h
    · exact .inr ⟨r, h1, h2⟩
  have maps : ∀ {a : Args} {fn : AnyFn} {g : Option Fn} {s : Script.Args} {type : String}, Reads a fn g s type →
      ∀ x, g = some x → ∃ i, (i, x) ∈ sphereMaps := by
    intro a fn g s type hr x hx
    rcases hr.convolve with ⟨-, h⟩ | ⟨m, y, -, h, hm⟩
    · rw [h] at hx; cases hx
    · rw [h] at hx; cases hx
      exact ⟨m, hm⟩
  have types : ∀ {a : Args} {fn : AnyFn} {g : Option Fn} {s : Script.Args} {type : String}, Reads a fn g s type →
      type ∈ ["abs", "real", "imag", "sum"] := by
    intro a fn g s type hr
    rcases hr.type with ⟨-, rfl⟩ | ⟨v, -, hv⟩
    · decide
    · simp only [List.mem_cons, List.not_mem_nil, or_false, Prod.mk.injEq] at hv ⊢
      tauto
  obtain ⟨k, X, hk, hM⟩ := build_inv hx (default_recorded hr.function) (reg hreg) hb
  obtain ⟨k', X', hk', hM'⟩ := build_inv hx' (default_recorded hr'.function) (reg hreg') hb'
  have small : Small s := by rw [Small, hr.alpha, hr.beta, hr.gamma]; exact ha
  have small' : Small s' := by rw [Small, hr'.alpha, hr'.beta, hr'.gamma]; exact ha'
  obtain ⟨h1, h2⟩ := figures hlim hE hfmt hk hk' hM hM' (maps hr) (maps hr') hgo hgo' hamp hamp' small small' hp hp' (types hr) (types hr') hd hd' hname
  refine ⟨by rw [h1], by rw [h1], by rw [h1], fun ho => h2 ?_⟩
  rw [hann, hann', ho]

/-! ### examples -/

/-- the command `sphere gaussian -L 2 -t imag -u -z`, with a method, an angle and maybe `-o`. -/
private def command (m : String) (α : ℚ) (o : Bool) : Args :=
  { function := "gaussian", bandlimit := 2, type := some (some "imag"), unnormalise := true, unzeropad := true, method := some (some m), alpha := α,
    outline := o }

private theorem command_reads (α : ℚ) (o : Bool) {m : String} {k : Script.Method}
    (hm : (m, k) ∈ [("north", Script.Method.north), ("rotate", .rotate), ("translate", .translate)]) :
    Reads (command m α o) (.harmonic (.gaussian 10)) none ⟨α, 1 / 8, 0, !o, k, .southAmerica⟩ "imag" :=
  ⟨by simp [sphereFunctions, command], .inl ⟨rfl, rfl⟩, .inr ⟨m, rfl, hm⟩, .inl ⟨.inl rfl, rfl⟩,
    .inr ⟨"imag", rfl, by simp⟩, rfl, rfl, rfl, by simp [command]⟩

private theorem command_ok (limDen : ℚ → ℚ) (w : Noise.World) (α : ℚ) (o : Bool) {m : String} {k : Script.Method}
    (hm : (m, k) ∈ [("north", Script.Method.north), ("rotate", .rotate), ("translate", .translate)]) :
    ∃ (shown : Shown), main limDen sampleSphere (command m α o) w = .ok (some shown, w) ∧
      (shown.annotation = [] ↔ ¬ (k = .translate ∧ o = false)) ∧
      shown.filename = (Fn.gaussian 10).name limDen ++ "_L2" ++ methodName limDen ⟨α, 1 / 8, 0, !o, k, .southAmerica⟩ ++ "_imag" := by
  obtain ⟨c, ob, ho, -⟩ := sample_gaussian limDen w
  obtain ⟨c₁, c₂, c, pts, A, -, -, -, -, h3, -, h5, -, -⟩ := C85_harmonic limDen sampleSphere (command m α o) w w w (.gaussian 10) none _
    "imag" (command_reads α o hm) none (.inl ⟨rfl, rfl⟩) spike sampleSphere_good sampleSphere_transforms (by simp) ob ho none
    (.inl ⟨rfl, rfl, rfl⟩) 2 rfl (fun z : ℂ => z.im) (by simp [plotParts])
  obtain ⟨fig, f1, -, -, -, f4, f5⟩ := h5.plain rfl
  refine ⟨fig, f1, by rw [f5]; exact h3, ?_⟩
  have hn : ob.name = (Fn.gaussian 10).name limDen ++ "_L2" := by
    unfold Fn.construct at ho
    have h0 : (Fn.gaussian 10).setupArgs sampleSphere.env.jMax 2 none = .ok (.gaussian 10) := rfl
    simp only [h0, bind, Except.bind] at ho
    obtain ⟨c, w₁, q, -, -, k3⟩ := postInit_inv ho
    rw [k3, addDetails_eq]
    simp [regionPart, noisePart, smoothPart]
    rfl
  rw [f4, hn, if_neg (fun h => by cases h.2)]
  have h1 : plotName (!(command m α o).unzeropad) false 2 "imag" = "_imag" := by
    change plotName (!true) false 2 "imag" = "_imag"
    decide +kernel
  rw [h1]
  simp [convolvedName]

private theorem sample_plain : ∀ r, sampleSphere.defaultRegion = .ok r → PlainEnding r.nameEnding := by
  intro r hr
  have : r = ⟨{ thetaMax := Real.pi / 4 }, "polar45", "polar"⟩ := by
    have h : sampleSphere.defaultRegion = .ok ⟨{ thetaMax := Real.pi / 4 }, "polar45", "polar"⟩ := rfl
    rw [h] at hr
    exact (Except.ok.inj hr).symm
  rw [this]
  exact ⟨'p', "olar45".toList, by decide +kernel, by decide, by decide⟩

/-- the regions of the package have such names. -/
example : PlainEnding "polar40" ∧ PlainEnding "theta30_phi120" ∧ PlainEnding "south_america" ∧ PlainEnding "africa" :=
  ⟨⟨'p', "olar40".toList, by decide +kernel, by decide, by decide⟩, ⟨'t', "heta30_phi120".toList, by decide +kernel, by decide, by decide⟩,
    ⟨'s', "outh_america".toList, by decide +kernel, by decide, by decide⟩, ⟨'a', "frica".toList, by decide +kernel, by decide, by decide⟩⟩

/-- the hypotheses of C118 are met by different commands: `sphere gaussian -L 2 -t imag -u -z -m north -a 1/2` and the same with `-a 1/3 -o` have two
figures of one name, after whatever random numbers. -/
example (limDen : ℚ → ℚ) (w w' : Noise.World) : ∃ (a a' : Args) (shown shown' : Shown), a ≠ a' ∧
    (∀ r, sampleSphere.defaultRegion = .ok r → PlainEnding r.nameEnding) ∧ (∀ x, '_' ∉ (sampleSphere.fmt x).toList) ∧
    (a.alpha.den ≤ 1000000 ∧ a.beta.den ≤ 1000000 ∧ a.gamma.den ≤ 1000000) ∧ (a'.alpha.den ≤ 1000000 ∧ a'.beta.den ≤ 1000000 ∧ a'.gamma.den ≤ 1000000) ∧
    (∀ xs, a.extra = some xs → ∀ x ∈ xs, -6 ≤ x) ∧ (∀ xs, a'.extra = some xs → ∀ x ∈ xs, -6 ≤ x) ∧
    main limDen sampleSphere a w = .ok (some shown, w) ∧ main limDen sampleSphere a' w' = .ok (some shown', w') ∧ shown.filename = shown'.filename := by
  obtain ⟨x, h1, -, h3⟩ := command_ok limDen w (1 / 2) false (m := "north") (k := .north) (by simp)
  obtain ⟨y, k1, -, k3⟩ := command_ok limDen w' (1 / 3) true (m := "north") (k := .north) (by simp)
  refine ⟨_, _, x, y, fun h => ?_, sample_plain, fun x => by change '_' ∉ "5.000000e-01".toList; decide +kernel, ?_, ?_, fun xs h => (by cases h), fun xs h => (by cases h),
    h1, k1, by rw [h3, k3]; rfl⟩
  · have := congrArg Args.outline h
    simp [command] at this
  · simp only [command]; norm_num
  · simp only [command]; norm_num

/-- C118 (of the annotations: violated).  The name does not tell whether the flag `-o` was given: `sphere gaussian -m translate` with and without it has
two figures of one name, of which one marks the point translated to. -/
theorem C118_annotation_violation (limDen : ℚ → ℚ) (w : Noise.World) : ∃ (e : SphereEnv) (a : Args) (shown shown' : Shown),
    main limDen e { a with outline := false } w = .ok (some shown, w) ∧ main limDen e { a with outline := true } w = .ok (some shown', w) ∧
    shown.filename = shown'.filename ∧ shown.annotation ≠ [] ∧ shown'.annotation = [] := by
  obtain ⟨x, h1, h2, h3⟩ := command_ok limDen w (1 / 2) false (m := "translate") (k := .translate) (by simp)
  obtain ⟨y, k1, k2, k3⟩ := command_ok limDen w (1 / 2) true (m := "translate") (k := .translate) (by simp)
  exact ⟨sampleSphere, command "translate" (1 / 2) false, x, y, h1, k1, by rw [h3, k3]; rfl, fun h => (h2.1 h) ⟨rfl, rfl⟩, k2.2 (by simp)⟩

end Sleplet.Props
