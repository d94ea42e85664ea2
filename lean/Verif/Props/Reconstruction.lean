import Verif.Lemmas.Experiments
import Verif.Props.SigmaJ

/-!
C90: the reconstructions of the continents scale by scale.
-/
namespace Sleplet.Props

open Complex NumPy Experiments

section
variable {n N : ℕ} {Pix : Type} {sl : Transform.Slepian n} {E : Fin N → Fin n → ℂ}

private theorem map_range_ofFn (N : ℕ) (g : ℕ → ℂ) : (List.range N).map g = List.ofFn fun p : Fin N => g p := by
  apply List.ext_getElem <;> simp

open Classical in
/-- C90, what is shown.  There is one field for each scale that sees the signal.  In field `i`, the Slepian coefficient of rank `p` is multiplied by the
sum of all wavelets at `p` (the first `N`, if there are more) and by the sum of the wavelets seen up to number `i`. -/
theorem C90_fields_shown (hN : sl.N = N) (hE : ∀ p : Fin N, sl.evecs[(p : ℕ)]? = some (E p)) (synth : (Fin n → ℂ) → Pix → ℂ) (fp : List ℂ)
    (hf : N ≤ fp.length) (wavelets : Array2 ℂ) (hw : wavelets.WF) (hc : N ≤ wavelets.cols) :
    ∃ fields, progressiveFields sl synth fp wavelets = .ok fields ∧
      fields.length = (wavelets.rows.filter fun psi => decide (Seen fp N psi)).length ∧
      ∀ (i : ℕ) (fld : Pix → ℂ), fields[i]? = some fld → ∀ x, fld x = ∑ p : Fin N, fp.getD p 0 *
        (((wavelets.rows.take N).map fun psi => psi.getD p 0).sum *
          (starRingEnd ℂ) (((wavelets.rows.filter fun psi => decide (Seen fp N psi)).take (i + 1)).map fun psi => psi.getD p 0).sum) *
        synth (E p) x := by
  set seen := wavelets.rows.filter fun psi => decide (Seen fp N psi) with hseen
  have h1 : Wavelets.slepianForward fp wavelets sl.N = .ok ⟨N, seen.map (waveletRow fp N)⟩ := by
    rw [hN]
    exact slepianForward_eq fp wavelets hw N hf hc
  have h2 := progressiveFrom_ok wavelets hw N hc (seen.map (waveletRow fp N)) (by
    intro r hr
    obtain ⟨psi, -, rfl⟩ := List.mem_map.1 hr
    simp [waveletRow]) (fun _ => 0)
  have h3 : (List.range N).map (fun _ => (0 : ℂ)) = List.replicate N 0 := by simp
  rw [h3] at h2
  let g : ℕ → ℕ → ℂ := fun i p => 0 + ((wavelets.rows.take N).map fun r => r.getD p 0).sum *
    (starRingEnd ℂ) (((seen.map (waveletRow fp N)).take (i + 1)).map fun w => w.getD p 0).sum
  refine ⟨(List.range seen.length).map fun i x => ∑ p : Fin N, g i p * synth (E p) x, ?_, by simp, ?_⟩
  · unfold progressiveFields
    rw [h1]
    simp only [bind, Except.bind]
    rw [hN, h2]
    simp only [List.length_map]
    have hm := mapM_eq_ok (Transform.slepianInverse sl synth) (fun l : List ℂ => fun x => ∑ p : Fin N, l.getD p 0 * synth (E p) x)
      ((List.range seen.length).map fun i => (List.range N).map (g i)) (by
        intro l hl
        obtain ⟨i, -, rfl⟩ := List.mem_map.1 hl
        rw [map_range_ofFn, Transform.slepianInverse_ok sl synth E hN hE]
        congr 1
        funext x
        refine Finset.sum_congr rfl fun p _ => ?_
        simp [List.getD_eq_getElem?_getD])
    refine hm.trans ?_
    rw [List.map_map]
    congr 1
    refine List.map_congr_left fun i _ => ?_
    funext x
    refine Finset.sum_congr rfl fun p _ => ?_
    simp [List.getD_eq_getElem?_getD]
  · intro i fld hi x
    rw [List.getElem?_map] at hi
    obtain ⟨i', hi', rfl⟩ := Option.map_eq_some_iff.1 hi
    obtain ⟨-, rfl⟩ := List.getElem?_eq_some_iff.1 hi'
    simp only [List.getElem_range]
    refine Finset.sum_congr rfl fun p _ => ?_
    congr 1
    have : ((seen.map (waveletRow fp N)).take (i + 1)).map (fun w => w.getD p 0) =
        (seen.take (i + 1)).map fun psi => psi.getD p 0 * (starRingEnd ℂ) (fp.getD p 0) := by
      rw [← List.map_take, List.map_map]
      refine List.map_congr_left fun psi _ => ?_
      simp [waveletRow, List.getD_eq_getElem?_getD]
    simp only [g]
    rw [this, sum_mul_right, map_mul, conj_conj]
    ring

open Classical in
/-- C90, partial: for wavelets of which no two overlap, field `i` is the part of the signal in the scales up to `i` that see it, and the last field is the signal
(that is, its first `N` coefficients).  Missing: wavelets which overlap, as those of the program do, where the code is wrong (`C90_overlap_violation`). -/
theorem C90_progressive_partial (hN : sl.N = N) (hE : ∀ p : Fin N, sl.evecs[(p : ℕ)]? = some (E p)) (synth : (Fin n → ℂ) → Pix → ℂ) (fp : List ℂ)
    (hf : N ≤ fp.length) (wavelets : Array2 ℂ) (hw : wavelets.WF) (hc : N ≤ wavelets.cols) (hn : wavelets.rows.length ≤ N)
    (hadm : ∀ p < N, (wavelets.rows.map fun psi => ‖psi.getD p 0‖ ^ 2).sum = 1)
    (hover : ∀ p < N, wavelets.rows.Pairwise fun a b => a.getD p 0 * b.getD p 0 = 0) :
    ∃ fields, progressiveFields sl synth fp wavelets = .ok fields ∧
      fields.length = (wavelets.rows.filter fun psi => decide (Seen fp N psi)).length ∧
      (∀ (i : ℕ) (fld : Pix → ℂ), fields[i]? = some fld → ∀ x, fld x = ∑ p : Fin N, fp.getD p 0 *
        ((((wavelets.rows.filter fun psi => decide (Seen fp N psi)).take (i + 1)).map fun psi => ‖psi.getD p 0‖ ^ 2).sum : ℝ) * synth (E p) x) ∧
      ∀ fld, fields.getLast? = some fld → ∀ x, fld x = ∑ p : Fin N, fp.getD p 0 * synth (E p) x := by
  obtain ⟨fields, h1, h2, h3⟩ := C90_fields_shown hN hE synth fp hf wavelets hw hc
  set seen := wavelets.rows.filter fun psi => decide (Seen fp N psi) with hseen
  have hsub : ∀ i, (seen.take i).Sublist wavelets.rows := fun i => (List.take_sublist _ _).trans List.filter_sublist
  have h4 : ∀ (i : ℕ) (fld : Pix → ℂ), fields[i]? = some fld → ∀ x, fld x = ∑ p : Fin N, fp.getD p 0 *
        (((seen.take (i + 1)).map fun psi => ‖psi.getD p 0‖ ^ 2).sum : ℝ) * synth (E p) x := by
    intro i fld hi x
    rw [h3 i fld hi x]
    refine Finset.sum_congr rfl fun p _ => ?_
    congr 2
    rw [List.take_of_length_le hn]
    have := sum_mul_conj ((hsub (i + 1)).map fun psi => psi.getD p 0) (List.pairwise_map.2 (hover p p.2))
    rw [this, List.map_map]
    rfl
  refine ⟨fields, h1, h2, h4, ?_⟩
  intro fld hlast x
  have hlen : fields.length ≠ 0 := by
    intro h0
    rw [List.length_eq_zero_iff.1 h0] at hlast
    simp at hlast
  rw [List.getLast?_eq_getElem?] at hlast
  rw [h4 _ fld hlast x]
  refine Finset.sum_congr rfl fun p _ => ?_
  congr 1
  rw [List.take_of_length_le (by omega)]
  by_cases h0 : fp.getD p 0 = 0
  · rw [h0]; simp
  · have : (seen.map fun psi => ‖psi.getD p 0‖ ^ 2).sum = (wavelets.rows.map fun psi => ‖psi.getD p 0‖ ^ 2).sum := by
      have hz : ∀ l : List (List ℂ), ((l.filter fun psi => decide (Seen fp N psi)).map fun psi => ‖psi.getD p 0‖ ^ 2).sum =
          (l.map fun psi => ‖psi.getD p 0‖ ^ 2).sum := by
        intro l
        induction l with
        | nil => simp
        | cons a l ih =>
          by_cases ha : Seen fp N a
          · rw [List.filter_cons_of_pos (by simpa using ha)]
            simp only [List.map_cons, List.sum_cons, ih]
          · rw [List.filter_cons_of_neg (by simpa using ha), ih]
            have : a.getD p 0 = 0 := by
              by_contra hne
              exact ha ⟨p, p.2, mul_ne_zero hne h0⟩
            simp only [List.map_cons, List.sum_cons, this]
            simp
      exact hz wavelets.rows
    rw [this, hadm p p.2]
    simp

/-- C90, violated: for real wavelets that all see the signal, the last field shown has coefficient `f_p (∑_j ψ_j(p))²` in place of `f_p`, which is what the
reconstruction from all scales at once shows; the factor is greater than one wherever two wavelets overlap. -/
theorem C90_overlap_violation (hN : sl.N = N) (hE : ∀ p : Fin N, sl.evecs[(p : ℕ)]? = some (E p)) (synth : (Fin n → ℂ) → Pix → ℂ) (fp : List ℂ)
    (hf : N ≤ fp.length) (wavelets : Array2 ℂ) (hw : wavelets.WF) (hc : N ≤ wavelets.cols) (hn : wavelets.rows.length ≤ N)
    (kappas : List (List ℝ)) (hk : wavelets.rows = kappas.map fun k => k.map fun a : ℝ => (a : ℂ)) (hpos : ∀ k ∈ kappas, ∀ a ∈ k, 0 ≤ a)
    (hadm : ∀ p < N, (kappas.map fun k => k.getD p 0 ^ 2).sum = 1) (hseen : ∀ psi ∈ wavelets.rows, Seen fp N psi) :
    ∃ fields whole, progressiveFields sl synth fp wavelets = .ok fields ∧ fields.length = kappas.length ∧
      reconstructedField sl synth fp wavelets = .ok whole ∧
      (∀ x, whole x = ∑ p : Fin N, fp.getD p 0 * synth (E p) x) ∧
      (∀ fld, fields.getLast? = some fld → ∀ x, fld x = ∑ p : Fin N, fp.getD p 0 * ((kappas.map fun k => k.getD p 0).sum ^ 2 : ℝ) * synth (E p) x) ∧
      ∀ p < N, 1 ≤ (kappas.map fun k => k.getD p 0).sum ^ 2 ∧
        ∀ (i j : ℕ) (k k' : List ℝ), i < j → kappas[i]? = some k → kappas[j]? = some k' → k.getD p 0 ≠ 0 → k'.getD p 0 ≠ 0 →
          1 < (kappas.map fun k => k.getD p 0).sum ^ 2 := by
  classical
  obtain ⟨fields, h1, h2, h3⟩ := C90_fields_shown hN hE synth fp hf wavelets hw hc
  have hfilter : (wavelets.rows.filter fun psi => decide (Seen fp N psi)) = wavelets.rows :=
    List.filter_eq_self.2 (by simpa using hseen)
  rw [hfilter] at h2 h3
  have hget : ∀ (k : List ℝ) (p : ℕ), (k.map fun a : ℝ => (a : ℂ)).getD p 0 = ((k.getD p 0 : ℝ) : ℂ) := by
    intro k p
    rw [List.getD_eq_getElem?_getD, List.getD_eq_getElem?_getD, List.getElem?_map]
    rcases k[p]? with _ | a <;> simp
  have hsum : ∀ p, (wavelets.rows.map fun psi => psi.getD p 0).sum = (((kappas.map fun k => k.getD p 0).sum : ℝ) : ℂ) := by
    intro p
    rw [hk, List.map_map]
    generalize kappas = ks
    induction ks with
    | nil => simp
    | cons k ks ih =>
      simp only [List.map_cons, List.sum_cons, Function.comp_apply, ofReal_add, ih, hget]
  have hadm' : ∀ p < N, (wavelets.rows.map fun psi => ‖psi.getD p 0‖ ^ 2).sum = 1 := by
    intro p hp
    rw [← hadm p hp, hk, List.map_map]
    congr 1
    refine List.map_congr_left fun k _ => ?_
    simp only [Function.comp_apply, hget, norm_real, Real.norm_eq_abs, sq_abs]
  have hnn : ∀ p, ∀ a ∈ kappas.map fun k => k.getD p 0, 0 ≤ a := by
    intro p a ha
    obtain ⟨k, hk, rfl⟩ := List.mem_map.1 ha
    rw [List.getD_eq_getElem?_getD]
    rcases hg : k[p]? with _ | b
    · simp
    · exact hpos k hk b (List.mem_of_getElem? hg)
  have hadm'' : ∀ p < N, ((kappas.map fun k => k.getD p 0).map fun a => a ^ 2).sum = 1 := by
    intro p hp
    rw [List.map_map]
    exact hadm p hp
  obtain ⟨w, hw1, hw2⟩ := C27_round_trip_partial fp wavelets hw N hf hc hadm' wavelets.rows [] (by simp) hseen (by simp)
  have htake : fp.take N = List.ofFn fun p : Fin N => fp.getD p 0 := by
    apply List.ext_getElem
    · simp [hf]
    · intro i h1 h2
      have : i < fp.length := by simp at h1; omega
      simp [List.getD_eq_getElem?_getD, this]
  refine ⟨fields, fun x => ∑ p : Fin N, fp.getD p 0 * synth (E p) x, h1, by rw [h2, hk, List.length_map], ?_, fun x => rfl, ?_, ?_⟩
  · unfold reconstructedField
    rw [hN, hw1]
    simp only [bind, Except.bind]
    rw [hw2]
    simp only
    rw [htake, Transform.slepianInverse_ok sl synth E hN hE]
  · intro fld hlast x
    have hlen : fields.length ≠ 0 := by
      intro h0
      rw [List.length_eq_zero_iff.1 h0] at hlast
      simp at hlast
    rw [List.getLast?_eq_getElem?] at hlast
    rw [h3 _ fld hlast x]
    refine Finset.sum_congr rfl fun p _ => ?_
    congr 2
    rw [List.take_of_length_le hn, List.take_of_length_le (by omega), hsum, conj_ofReal, ← ofReal_mul, sq]
  · intro p hp
    refine ⟨?_, fun i j k k' hij hi hj hki hkj => ?_⟩
    · have := one_le_sum (hnn p) (hadm'' p hp)
      nlinarith
    · have := one_lt_sum (hnn p) (hadm'' p hp) hij (a := k.getD p 0) (b := k'.getD p 0) (by simp [hi]) (by simp [hj]) hki hkj
      nlinarith

end

/-- the hypotheses of both theorems are met for `N = 2` and fields on two samples: the wavelets `(1, 0)`, `(0, 1)` do not overlap, and `(1, 3/5)`, `(0, 4/5)` do;
with the latter the second coefficient of the signal `(1, 1)` is shown as `49/25`. -/
example : (∃ fields, progressiveFields (⟨2, [1, 1], [![1, 0], ![0, 1]]⟩ : Transform.Slepian 2) (fun c x => c x) [1, 1] ⟨2, [[1, 0], [0, 1]]⟩ = .ok fields ∧
      ∀ fld, fields.getLast? = some fld → fld 1 = 1) ∧
    ∃ fields, progressiveFields (⟨2, [1, 1], [![1, 0], ![0, 1]]⟩ : Transform.Slepian 2) (fun c x => c x) [1, 1] ⟨2, [[1, 3 / 5], [0, 4 / 5]]⟩ = .ok fields ∧
      fields.length = 2 ∧ ∀ fld, fields.getLast? = some fld → fld 1 = 49 / 25 := by
  have hE : ∀ p : Fin 2, ([![1, 0], ![0, 1]] : List (Fin 2 → ℂ))[(p : ℕ)]? = some ((![![1, 0], ![0, 1]] : Fin 2 → Fin 2 → ℂ) p) := by
    intro p
    fin_cases p <;> rfl
  constructor
  · obtain ⟨fields, h1, -, -, h2⟩ := C90_progressive_partial (sl := ⟨2, [1, 1], [![1, 0], ![0, 1]]⟩) (N := 2) rfl hE (fun c (x : Fin 2) => c x) [1, 1]
      (by simp) ⟨2, [[1, 0], [0, 1]]⟩ (by intro r hr; fin_cases hr <;> rfl) (le_refl _) (by simp)
      (by intro p hp; interval_cases p <;> simp) (by intro p hp; interval_cases p <;> simp)
    refine ⟨fields, h1, fun fld hl => ?_⟩
    rw [h2 fld hl]
    simp [Fin.sum_univ_two]
  · obtain ⟨fields, -, h1, h0, -, -, h2, -⟩ := C90_overlap_violation (sl := ⟨2, [1, 1], [![1, 0], ![0, 1]]⟩) (N := 2) rfl hE (fun c (x : Fin 2) => c x) [1, 1]
      (by simp) ⟨2, [[1, 3 / 5], [0, 4 / 5]]⟩ (by intro r hr; fin_cases hr <;> rfl) (le_refl _) (by simp) [[1, 3 / 5], [0, 4 / 5]] (by simp)
      (by intro k hk a ha; fin_cases hk <;> fin_cases ha <;> norm_num) (by intro p hp; interval_cases p <;> norm_num)
      (by
        intro psi hpsi
        fin_cases hpsi
        · exact ⟨0, by norm_num, by simp⟩
        · exact ⟨1, by norm_num, by simp⟩)
    refine ⟨fields, h1, h0, fun fld hl => ?_⟩
    rw [h2 fld hl]
    simp [Fin.sum_univ_two]
    norm_num

end Sleplet.Props
