import Mathlib.Data.List.Nodup
import Mathlib.Tactic.Linarith
import Mathlib.Tactic.NormNum
import Verif.Lemmas.Strings

/-!
C44 (names encode parameters), C45 (rotation angles in names), C46 (command-line lookup).
-/
namespace Sleplet.Props

open Strings Names

/-- `Fraction.limit_denominator()` leaves fractions with denominators up to a million alone. -/
def LimitDenominator (limDen : ℚ → ℚ) : Prop := ∀ q : ℚ, q.den ≤ 1000000 → limDen q = q

/-- an argument name: it starts with a letter. -/
def ArgName (arg : String) : Prop := ∃ c cs, arg.toList = c :: cs ∧ c.isAlpha

private theorem alpha_not_digit {c : Char} (h : c.isAlpha) : c.isDigit = false ∧ c ≠ '-' := by
  have h1 : (65 ≤ c.val.toNat ∧ c.val.toNat ≤ 90) ∨ (97 ≤ c.val.toNat ∧ c.val.toNat ≤ 122) := by
    simp only [Char.isAlpha, Char.isUpper, Char.isLower, Bool.or_eq_true, Bool.and_eq_true, decide_eq_true_eq, ge_iff_le,
      UInt32.le_iff_toNat_le] at h
    exact h
  constructor
  · rw [Bool.eq_false_iff]
    intro h2
    simp only [Char.isDigit, Bool.and_eq_true, decide_eq_true_eq, ge_iff_le, UInt32.le_iff_toNat_le] at h2
    have e2 : ('9' : Char).val.toNat = 57 := rfl
    omega
  · rintro rfl
    have e2 : ('-' : Char).val.toNat = 45 := rfl
    omega

private theorem abs_lt_one_of_num_eq {v w : ℚ} (h : v.num = w.num) (hv : v = 0) : w = 0 := by
  rw [← Rat.num_eq_zero] at hv ⊢
  rw [← h]
  exact hv

/-- what a fragment says about the value: the numerator, and for magnitudes in (0,1) the denominator. -/
private theorem fragment_parse {v w : ℚ} {arg : String} (harg : ArgName arg) {r s : List Char}
    (hr : r = [] ∨ ∃ t, r = '_' :: t) (hs : s = [] ∨ ∃ t, s = '_' :: t)
    (h : '_' :: ((toString v.num).toList ++ (arg.toList ++ if |v| < 1 ∧ v ≠ 0 then (toString v.den).toList else [])) ++ r =
      '_' :: ((toString w.num).toList ++ (arg.toList ++ if |w| < 1 ∧ w ≠ 0 then (toString w.den).toList else [])) ++ s) :
    v.num = w.num ∧ r = s ∧ ((|v| < 1 ∧ v ≠ 0 ∧ |w| < 1 ∧ w ≠ 0 ∧ v.den = w.den) ∨ (¬(|v| < 1 ∧ v ≠ 0) ∧ ¬(|w| < 1 ∧ w ≠ 0))) := by
  obtain ⟨c, cs, e, hc⟩ := harg
  obtain ⟨hd, hm⟩ := alpha_not_digit hc
  simp only [e, List.cons_append, List.append_assoc, List.cons.injEq, true_and] at h
  obtain ⟨h1, h2⟩ := int_split hd hm h
  have h3 := List.append_cancel_left h2
  refine ⟨h1, ?_⟩
  have nat_r : ∀ (n : ℕ) (r s : List Char), (r = [] ∨ ∃ t, r = '_' :: t) → (s = [] ∨ ∃ t, s = '_' :: t) →
      (toString n).toList ++ r ≠ s := by
    intro n r s hr hs he
    obtain ⟨d, ds, hds⟩ := List.exists_cons_of_ne_nil (nat_toList_ne_nil n)
    rcases hs with rfl | ⟨t, rfl⟩
    · simp at he
    · rw [hds, List.cons_append] at he
      have : '_' ∈ (toString n).toList := by rw [hds, (List.cons.inj he).1]; simp
      exact not_mem_nat (by decide) this
  have nat_nat : ∀ (m n : ℕ) (r s : List Char), (r = [] ∨ ∃ t, r = '_' :: t) → (s = [] ∨ ∃ t, s = '_' :: t) →
      (toString m).toList ++ r = (toString n).toList ++ s → m = n ∧ r = s := by
    intro m n r s hr hs he
    rcases hr with rfl | ⟨t, rfl⟩ <;> rcases hs with rfl | ⟨t', rfl⟩
    · simp only [List.append_nil] at he
      exact ⟨nat_inj he, rfl⟩
    · have : '_' ∈ (toString m).toList := by rw [List.append_nil] at he; rw [he]; simp
      exact absurd this (not_mem_nat (by decide))
    · have : '_' ∈ (toString n).toList := by rw [List.append_nil] at he; rw [← he]; simp
      exact absurd this (not_mem_nat (by decide))
    · obtain ⟨h4, h5⟩ := split_first (not_mem_nat (by decide)) (not_mem_nat (by decide)) he
      exact ⟨nat_inj h4, by rw [h5]⟩
  by_cases hv : |v| < 1 ∧ v ≠ 0 <;> by_cases hw : |w| < 1 ∧ w ≠ 0
  · rw [if_pos hv, if_pos hw] at h3
    obtain ⟨h4, h5⟩ := nat_nat _ _ _ _ hr hs h3
    exact ⟨h5, Or.inl ⟨hv.1, hv.2, hw.1, hw.2, h4⟩⟩
  · rw [if_pos hv, if_neg hw, List.nil_append] at h3
    exact absurd h3 (nat_r _ _ _ hr hs)
  · rw [if_neg hv, if_pos hw, List.nil_append] at h3
    exact absurd h3.symm (nat_r _ _ _ hs hr)
  · rw [if_neg hv, if_neg hw] at h3
    exact ⟨by simpa using h3, Or.inr ⟨hv, hw⟩⟩

private theorem one_le_abs_of {v : ℚ} (h : ¬(|v| < 1 ∧ v ≠ 0)) : v = 0 ∨ 1 ≤ |v| := by
  by_cases hv : v = 0
  · exact Or.inl hv
  · exact Or.inr (not_lt.1 fun hlt => h ⟨hlt, hv⟩)

/-- C44. Exactly which parameters share a name: equal ones, and those of magnitude at least one with the same numerator. -/
theorem C44_collisions (limDen : ℚ → ℚ) (hlim : LimitDenominator limDen) (arg : String) (harg : ArgName arg) (v w : ℚ)
    (hv : v.den ≤ 1000000) (hw : w.den ≤ 1000000) :
    filenameArgs limDen v arg = filenameArgs limDen w arg ↔ v = w ∨ (v.num = w.num ∧ 1 ≤ |v| ∧ 1 ≤ |w|) := by
  constructor
  · intro h
    have h1 := congrArg String.toList h
    rw [filenameArgs_toList, filenameArgs_toList, hlim v hv, hlim w hw] at h1
    obtain ⟨h2, -, h3⟩ := fragment_parse harg (r := []) (s := []) (Or.inl rfl) (Or.inl rfl) (by simpa using h1)
    rcases h3 with ⟨-, -, -, -, h4⟩ | ⟨h4, h5⟩
    · exact Or.inl (Rat.ext h2 h4)
    · rcases one_le_abs_of h4 with h6 | h6
      · exact Or.inl (by rw [h6, abs_lt_one_of_num_eq h2 h6])
      · rcases one_le_abs_of h5 with h7 | h7
        · exact Or.inl (by rw [h7, abs_lt_one_of_num_eq h2.symm h7])
        · exact Or.inr ⟨h2, h6, h7⟩
  · rintro (rfl | ⟨h1, h2, h3⟩)
    · rfl
    · apply String.toList_injective
      rw [filenameArgs_toList, filenameArgs_toList, hlim v hv, hlim w hw, if_neg, if_neg, h1]
      · exact fun h => absurd h.1 (not_lt.2 h3)
      · exact fun h => absurd h.1 (not_lt.2 h2)

/-- C44 is violated: the same name for 3 and 3/2, whatever the argument. -/
theorem C44_violation (limDen : ℚ → ℚ) (hlim : LimitDenominator limDen) (arg : String) :
    filenameArgs limDen 3 arg = filenameArgs limDen (3 / 2) arg := by
  have e1 : ((3 : ℚ) / 2).num = 3 := by decide +kernel
  have e2 : ((3 : ℚ) / 2).den = 2 := by decide +kernel
  apply String.toList_injective
  rw [filenameArgs_toList, filenameArgs_toList, hlim 3 (by norm_num), hlim (3 / 2) (by rw [e2]; norm_num), if_neg, if_neg, e1]
  · rfl
  · rw [abs_of_nonneg (by norm_num)]; norm_num
  · rw [abs_of_nonneg (by norm_num)]; norm_num

/-- C44 for integers and fractions of magnitude below one: the fragment, even followed by further fragments, determines
the value. -/
theorem C44_names_partial (limDen : ℚ → ℚ) (hlim : LimitDenominator limDen) (arg : String) (harg : ArgName arg) (v w : ℚ)
    (hv : v.den ≤ 1000000) (hw : w.den ≤ 1000000) (hv' : v.den = 1 ∨ |v| < 1) (hw' : w.den = 1 ∨ |w| < 1) (r s : String)
    (hr : r = "" ∨ ∃ t, r = "_" ++ t) (hs : s = "" ∨ ∃ t, s = "_" ++ t)
    (h : filenameArgs limDen v arg ++ r = filenameArgs limDen w arg ++ s) : v = w ∧ r = s := by
  have conv : ∀ r : String, (r = "" ∨ ∃ t, r = "_" ++ t) → (r.toList = [] ∨ ∃ t, r.toList = '_' :: t) := by
    rintro r (rfl | ⟨t, rfl⟩)
    · exact Or.inl rfl
    · exact Or.inr ⟨t.toList, by rw [String.toList_append]; rfl⟩
  have h1 := congrArg String.toList h
  rw [String.toList_append, String.toList_append, filenameArgs_toList, filenameArgs_toList, hlim v hv, hlim w hw] at h1
  obtain ⟨h2, h8, h3⟩ := fragment_parse harg (conv r hr) (conv s hs) h1
  refine ⟨?_, String.toList_injective h8⟩
  rcases h3 with ⟨-, -, -, -, h4⟩ | ⟨h4, h5⟩
  · exact Rat.ext h2 h4
  · rcases one_le_abs_of h4 with h6 | h6
    · rw [h6, abs_lt_one_of_num_eq h2 h6]
    · rcases one_le_abs_of h5 with h7 | h7
      · rw [h7, abs_lt_one_of_num_eq h2.symm h7]
      · refine Rat.ext h2 ?_
        rw [hv'.resolve_right (not_lt.2 h6), hw'.resolve_right (not_lt.2 h7)]

/-- C44. The ending written for a wavelet determines the scale. -/
theorem C44_wavelet_ending (limDen : ℚ → ℚ) (hlim : LimitDenominator limDen) (jMin : ℤ) (j j' : Option ℤ)
    (h : waveletEnding limDen jMin j = waveletEnding limDen jMin j') : j = j' := by
  have key : ∀ i : ℤ, "_scaling" ≠ filenameArgs limDen (i : ℚ) "j" := by
    intro i h
    have h1 := congrArg String.toList h
    rw [filenameArgs_toList, hlim _ (by simp)] at h1
    have e : ("_scaling" : String).toList = '_' :: 's' :: ['c', 'a', 'l', 'i', 'n', 'g'] := rfl
    rw [e] at h1
    simp only [List.cons.injEq, true_and] at h1
    obtain ⟨d, ds, hds⟩ : ∃ d ds, (toString (i : ℚ).num).toList = d :: ds := by
      apply List.exists_cons_of_ne_nil
      rw [Rat.num_intCast]
      cases i with
      | ofNat m => exact nat_toList_ne_nil m
      | negSucc m =>
        have : toString (Int.negSucc m) = "-" ++ toString (m + 1) := rfl
        rw [this, String.toList_append]
        simp
    have hs : 's' ∈ (toString (i : ℚ).num).toList := by
      rw [hds]
      rw [hds, List.cons_append] at h1
      rw [← (List.cons.inj h1).1]
      simp
    exact not_mem_int (by decide) (by decide) hs
  match j, j' with
  | none, none => rfl
  | none, some i => exact absurd h (key _)
  | some i, none => exact absurd h.symm (key _)
  | some i, some i' =>
    have := (C44_names_partial limDen hlim "j" ⟨'j', [], rfl, by decide⟩ ((i + jMin : ℤ) : ℚ) ((i' + jMin : ℤ) : ℚ)
      (by simp) (by simp) (Or.inl (by simp)) (Or.inl (by simp)) "" "" (Or.inl rfl) (Or.inl rfl)
      (by simpa [waveletEnding] using h)).1
    have h2 : i + jMin = i' + jMin := by exact_mod_cast this
    rw [show i = i' by omega]

/-- a function that meets the assumption; 3/2 and 1/3 have small denominators. -/
example : LimitDenominator id ∧ (3 / 2 : ℚ).den ≤ 1000000 ∧ |(1 / 3 : ℚ)| < 1 :=
  ⟨fun _ _ => rfl, by decide +kernel, by rw [abs_of_nonneg (by norm_num)]; norm_num⟩

example : filenameArgs id (-3 / 4) "sig" = "_-3sig4" := by decide +kernel

/-- C45. Two triples of fractions of pi get the same name exactly when they are the same fractions after
`limit_denominator`. -/
theorem C45_angles (limDen : ℚ → ℚ) (a b g a' b' g' : ℚ) :
    filenameAngle limDen a b g = filenameAngle limDen a' b' g' ↔
      limDen a = limDen a' ∧ limDen b = limDen b' ∧ limDen g = limDen g' := by
  constructor
  swap
  · rintro ⟨h1, h2, h3⟩
    rw [filenameAngle_eq, filenameAngle_eq, h1, h2, h3]
  intro h
  rw [filenameAngle_eq, filenameAngle_eq] at h
  have h1 := congrArg String.toList h
  have e1 : ("alpha" : String).toList = ['a', 'l', 'p', 'h', 'a'] := rfl
  have e2 : ("_beta" : String).toList = '_' :: ['b', 'e', 't', 'a'] := rfl
  simp only [String.toList_append, e1, e2, List.append_assoc] at h1
  have h2 := List.append_cancel_left h1
  obtain ⟨h3, h4⟩ := split_first (not_mem_angleField _ _) (not_mem_angleField _ _) h2
  have hA := angleField_inj (String.toList_injective h3)
  have h5 := List.append_cancel_left h4
  have e3 : ∀ s : String, ("_gamma" ++ s).toList = '_' :: (['g', 'a', 'm', 'm', 'a'] ++ s.toList) := by
    intro s
    rw [String.toList_append]
    rfl
  by_cases hg : (limDen g).num = 0 <;> by_cases hg' : (limDen g').num = 0
  · rw [if_pos hg, if_pos hg'] at h5
    rw [Rat.num_eq_zero] at hg hg'
    simp only [String.toList_empty, List.append_nil] at h5
    exact ⟨hA, angleField_inj (String.toList_injective h5), by rw [hg, hg']⟩
  · rw [if_pos hg, if_neg hg', e3, String.toList_empty, List.append_nil] at h5
    have : '_' ∈ (angleField (limDen b).num (limDen b).den).toList := by rw [h5]; simp
    exact absurd this (not_mem_angleField _ _)
  · rw [if_neg hg, if_pos hg', e3, String.toList_empty, List.append_nil] at h5
    have : '_' ∈ (angleField (limDen b').num (limDen b').den).toList := by rw [← h5]; simp
    exact absurd this (not_mem_angleField _ _)
  · rw [if_neg hg, if_neg hg', e3, e3] at h5
    obtain ⟨h6, h7⟩ := split_first (not_mem_angleField _ _) (not_mem_angleField _ _) h5
    have h8 := List.append_cancel_left h7
    exact ⟨hA, angleField_inj (String.toList_injective h6), angleField_inj (String.toList_injective h8)⟩

example : filenameAngle id (3 / 4) (1 / 8) 0 = "alpha3pi4_beta1pi8" := by decide +kernel
example : filenameAngle id 0 1 (1 / 2) = "alpha0_beta1pi_gamma1pi2" := by decide +kernel

/-- a class name as Python programmers write them: a capital first and no underscore. -/
def CamelCase (s : String) : Prop := ∃ c cs, s.toList = c :: cs ∧ c.isUpper ∧ '_' ∉ cs

/-- C46. Snake case loses nothing. -/
theorem C46_snake_injective (s t : String) (hs : CamelCase s) (ht : CamelCase t) (h : snake s = snake t) : s = t := by
  obtain ⟨c, cs, e, hc, hcs⟩ := hs
  obtain ⟨d, ds, e', hd, hds⟩ := ht
  unfold snake at h
  rw [e, e'] at h
  have h1 := congrArg String.toList h
  simp only [String.toList_ofList, List.cons.injEq] at h1
  apply String.toList_injective
  rw [e, e', toLower_inj hc hd h1.1, snakeTail_inj hcs hds h1.2]

/-- C46. Looking up a name finds the class with that name, and nothing else is accepted. -/
theorem C46_lookup (classes : List String) (word : String) (hcamel : ∀ c ∈ classes, CamelCase (removePrefix word c))
    (hnodup : (classes.map (removePrefix word)).Nodup) (arg : String) :
    (∀ c, lookup classes word arg = .ok c ↔ c ∈ classes ∧ snake (removePrefix word c) = arg) ∧
    ((∀ c ∈ classes, snake (removePrefix word c) ≠ arg) → lookup classes word arg = .error .valueError) := by
  have hnd : (classesToSnake classes word).Nodup := by
    unfold classesToSnake
    rw [show (fun c => snake (removePrefix word c)) = snake ∘ removePrefix word from rfl, ← List.map_map]
    apply List.Nodup.map_on _ hnodup
    intro x hx y hy hxy
    obtain ⟨a, ha, rfl⟩ := List.mem_map.1 hx
    obtain ⟨b, hb, rfl⟩ := List.mem_map.1 hy
    exact C46_snake_injective _ _ (hcamel a ha) (hcamel b hb) hxy
  have hbad : (∀ c ∈ classes, snake (removePrefix word c) ≠ arg) → lookup classes word arg = .error .valueError := by
    intro h
    unfold lookup
    rw [if_neg]
    intro hc
    rw [List.contains_iff_mem] at hc
    obtain ⟨c, hc1, hc2⟩ := List.mem_map.1 hc
    exact h c hc1 hc2
  have hgood : ∀ c ∈ classes, lookup classes word (snake (removePrefix word c)) = .ok c := by
    intro c hc
    obtain ⟨i, hi, rfl⟩ := List.getElem_of_mem hc
    have hi' : i < (classesToSnake classes word).length := by simpa [classesToSnake] using hi
    have hget : (classesToSnake classes word)[i] = snake (removePrefix word classes[i]) := by simp [classesToSnake]
    have hmem : snake (removePrefix word classes[i]) ∈ classesToSnake classes word := by
      rw [← hget]
      exact List.getElem_mem hi'
    have hidx : (classesToSnake classes word).idxOf? (snake (removePrefix word classes[i])) = some i := by
      rw [← hget, List.idxOf?_eq_some_iff]
      refine ⟨hi', rfl, fun j hj => ?_⟩
      intro he
      have he' : (classesToSnake classes word)[j]'(by omega) = (classesToSnake classes word)[i] := by simpa using he
      have := (List.Nodup.getElem_inj_iff hnd).1 he'
      omega
    unfold lookup
    rw [if_pos (by rw [List.contains_iff_mem]; exact hmem), hidx]
    simp [hi]
  refine ⟨fun c => ⟨fun h => ?_, ?_⟩, hbad⟩
  · by_cases hex : ∃ d ∈ classes, snake (removePrefix word d) = arg
    · obtain ⟨d, hd, rfl⟩ := hex
      rw [hgood d hd] at h
      cases h
      exact ⟨hd, rfl⟩
    · push Not at hex
      rw [hbad hex] at h
      cases h
  · rintro ⟨hc, rfl⟩
    exact hgood c hc

private def camelB (s : String) : Bool :=
  match s.toList with
  | [] => false
  | c :: cs => c.isUpper && !cs.contains '_'

private theorem camel_of {s : String} (h : camelB s = true) : CamelCase s := by
  unfold camelB at h
  split at h
  · cases h
  · rename_i c cs e
    simp only [Bool.and_eq_true, Bool.not_eq_true', List.contains_eq_mem, decide_eq_false_iff_not] at h
    exact ⟨c, cs, e, h.1, h.2⟩

/-- C46. The three lists offered on the command lines meet the hypotheses, so each of their classes is selected by its
snake-case name only. -/
theorem C46_command_lines (arg c : String) :
    (lookup COEFFICIENTS "" arg = .ok c ↔ c ∈ COEFFICIENTS ∧ snake (removePrefix "" c) = arg) ∧
    (lookup MAPS_LM "" arg = .ok c ↔ c ∈ MAPS_LM ∧ snake (removePrefix "" c) = arg) ∧
    (lookup MESH_COEFFICIENTS "Mesh" arg = .ok c ↔ c ∈ MESH_COEFFICIENTS ∧ snake (removePrefix "Mesh" c) = arg) := by
  have h1 : ∀ c ∈ COEFFICIENTS, camelB (removePrefix "" c) = true := by decide +kernel
  have h2 : ∀ c ∈ MAPS_LM, camelB (removePrefix "" c) = true := by decide +kernel
  have h3 : ∀ c ∈ MESH_COEFFICIENTS, camelB (removePrefix "Mesh" c) = true := by decide +kernel
  exact ⟨(C46_lookup _ _ (fun c hc => camel_of (h1 c hc)) (by decide +kernel) arg).1 c,
    (C46_lookup _ _ (fun c hc => camel_of (h2 c hc)) (by decide +kernel) arg).1 c,
    (C46_lookup _ _ (fun c hc => camel_of (h3 c hc)) (by decide +kernel) arg).1 c⟩

example : lookup COEFFICIENTS "" "axisymmetric_wavelet_coefficients_earth" = .ok "AxisymmetricWaveletCoefficientsEarth" :=
  ((C46_command_lines _ _).1).2 ⟨by decide +kernel, by decide +kernel⟩

example : lookup MESH_COEFFICIENTS "Mesh" "slepian_noise_field" = .ok "MeshSlepianNoiseField" :=
  ((C46_command_lines _ _).2.2).2 ⟨by decide +kernel, by decide +kernel⟩

end Sleplet.Props
