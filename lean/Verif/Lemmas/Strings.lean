import Verif.Lemmas.Names
import Verif.Model.Strings

/-! Parsing of the names written by `_string_methods.py`. -/
namespace Sleplet.Strings

open Names

theorem toLower_of_not_upper {c : Char} (h : ¬ c.isUpper) : c.toLower = c := by
  unfold Char.toLower
  rw [dif_neg]
  simpa [Char.isUpper] using h

theorem toLower_inj {c d : Char} (hc : c.isUpper) (hd : d.isUpper) (h : c.toLower = d.toLower) : c = d := by
  unfold Char.toLower at h
  rw [dif_pos (by simpa [Char.isUpper] using hc), dif_pos (by simpa [Char.isUpper] using hd)] at h
  have := congrArg Char.val h
  simp only at this
  exact Char.ext (by simpa using this)

theorem snakeTail_inj : ∀ {l l' : List Char}, '_' ∉ l → '_' ∉ l' → snakeTail l = snakeTail l' → l = l'
  | [], [], _, _, _ => rfl
  | [], d :: l', _, _, h => by
    simp only [snakeTail] at h
    split at h <;> cases h
  | c :: l, [], _, _, h => by
    simp only [snakeTail] at h
    split at h <;> cases h
  | c :: l, d :: l', h1, h2, h => by
    have r1 : '_' ∉ l := fun hm => h1 (List.mem_cons_of_mem _ hm)
    have r2 : '_' ∉ l' := fun hm => h2 (List.mem_cons_of_mem _ hm)
    have c1 : c ≠ '_' := fun e => h1 (e ▸ List.mem_cons_self)
    have c2 : d ≠ '_' := fun e => h2 (e ▸ List.mem_cons_self)
    simp only [snakeTail] at h
    by_cases hc : c.isUpper <;> by_cases hd : d.isUpper
    · rw [if_pos hc, if_pos hd] at h
      simp only [List.cons.injEq, true_and] at h
      rw [toLower_inj hc hd h.1, snakeTail_inj r1 r2 h.2]
    · rw [if_pos hc, if_neg hd] at h
      simp only [List.cons.injEq, toLower_of_not_upper hd] at h
      exact absurd h.1.symm c2
    · rw [if_neg hc, if_pos hd] at h
      simp only [List.cons.injEq, toLower_of_not_upper hc] at h
      exact absurd h.1 c1
    · rw [if_neg hc, if_neg hd] at h
      simp only [List.cons.injEq, toLower_of_not_upper hc, toLower_of_not_upper hd] at h
      rw [h.1, snakeTail_inj r1 r2 h.2]

/-- an integer followed by a character that cannot belong to it. -/
theorem int_split {a b : ℤ} {c : Char} {s t : List Char} (hc : c.isDigit = false) (hc' : c ≠ '-')
    (h : (toString a).toList ++ c :: s = (toString b).toList ++ c :: t) : a = b ∧ s = t := by
  obtain ⟨h1, h2⟩ := split_first (not_mem_int hc hc') (not_mem_int hc hc') h
  exact ⟨int_inj h1, h2⟩

theorem piInFilename_inj {a b : ℤ} {m n : ℕ} (h : piInFilename a m = piInFilename b n) : a = b ∧ m = n := by
  have h1 := congrArg String.toList h
  unfold piInFilename at h1
  simp only [String.toList_append, List.append_assoc] at h1
  have e : ("pi" : String).toList = ['p', 'i'] := rfl
  simp only [e, List.cons_append, List.nil_append] at h1
  obtain ⟨h2, h3⟩ := int_split (by decide) (by decide) h1
  refine ⟨h2, ?_⟩
  simp only [List.cons.injEq, true_and] at h3
  by_cases hm : m = 1 <;> by_cases hn : n = 1
  · rw [hm, hn]
  · rw [if_neg (by simpa using hm), if_pos hn] at h3
    exact absurd h3.symm (nat_toList_ne_nil n)
  · rw [if_pos hm, if_neg (by simpa using hn)] at h3
    exact absurd h3 (nat_toList_ne_nil m)
  · rw [if_pos hm, if_pos hn] at h3
    exact nat_inj h3

/-- the angle part for one angle: `0` or a multiple of pi. -/
def angleField (num : ℤ) (den : ℕ) : String := if num = 0 then "0" else piInFilename num den

theorem angleField_inj {q r : ℚ} (h : angleField q.num q.den = angleField r.num r.den) : q = r := by
  unfold angleField at h
  have key : ∀ (a : ℤ) (m : ℕ), "0" ≠ piInFilename a m := by
    intro a m h
    have h1 := congrArg String.toList h
    have : 'p' ∈ (piInFilename a m).toList := by
      unfold piInFilename
      simp only [String.toList_append]
      have e : ("pi" : String).toList = ['p', 'i'] := rfl
      simp [e]
    rw [← h1] at this
    exact absurd this (by decide)
  by_cases hq : q.num = 0 <;> by_cases hr : r.num = 0
  · rw [Rat.num_eq_zero] at hq hr
    rw [hq, hr]
  · rw [if_pos hq, if_neg hr] at h
    exact absurd h (key _ _)
  · rw [if_neg hq, if_pos hr] at h
    exact absurd h.symm (key _ _)
  · rw [if_neg hq, if_neg hr] at h
    obtain ⟨h1, h2⟩ := piInFilename_inj h
    exact Rat.ext h1 h2

theorem not_mem_angleField (num : ℤ) (den : ℕ) : '_' ∉ (angleField num den).toList := by
  unfold angleField piInFilename
  split
  · decide
  · simp only [String.toList_append, List.mem_append, not_or]
    refine ⟨⟨not_mem_int (by decide) (by decide), by decide⟩, ?_⟩
    split
    · exact not_mem_nat (by decide)
    · decide

theorem filenameAngle_eq (limDen : ℚ → ℚ) (a b g : ℚ) :
    filenameAngle limDen a b g = "alpha" ++ angleField (limDen a).num (limDen a).den ++ "_beta" ++
      angleField (limDen b).num (limDen b).den ++
      (if (limDen g).num = 0 then "" else "_gamma" ++ angleField (limDen g).num (limDen g).den) := by
  unfold filenameAngle angleNumDem angleField
  simp only
  by_cases ha : (limDen a).num = 0 <;> by_cases hb : (limDen b).num = 0 <;> by_cases hg : (limDen g).num = 0 <;>
    simp [ha, hb, hg, String.append_assoc] <;> rfl

/-- one fragment `_<num><arg>[<den>]`, followed by nothing or by another fragment. -/
theorem filenameArgs_toList (limDen : ℚ → ℚ) (v : ℚ) (arg : String) :
    (filenameArgs limDen v arg).toList = '_' :: ((toString (limDen v).num).toList ++
      (arg.toList ++ if |v| < 1 ∧ v ≠ 0 then (toString (limDen v).den).toList else [])) := by
  unfold filenameArgs angleNumDem
  have e : ("_" : String).toList = ['_'] := rfl
  simp only [String.toList_append, e, List.append_assoc]
  split <;> simp

end Sleplet.Strings
