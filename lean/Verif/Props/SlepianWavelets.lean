import Mathlib.Tactic.FinCases
import Verif.Props.Wavelets

/-!
C27 (Slepian wavelet round trip), C28 (selecting a scale).
-/
namespace Sleplet.Props

open Complex NumPy Wavelets

/-- The wavelet `psi` has a nonzero coefficient of the signal among the first `n`. -/
def Seen (f : List ℂ) (n : ℕ) (psi : List ℂ) : Prop := ∃ p < n, psi.getD p 0 * f.getD p 0 ≠ 0

/-- no scale that does not see the signal comes before one that does. -/
def UnseenLast (f : List ℂ) (n : ℕ) (wavelets : Array2 ℂ) : Prop :=
  wavelets.rows.Pairwise fun first later => Seen f n later → Seen f n first

/-- the coefficients `ψ(p) conj f(p)` of a signal for one wavelet. -/
noncomputable def waveletRow (f : List ℂ) (n : ℕ) (psi : List ℂ) : List ℂ :=
  (List.range n).map fun p => psi.getD p 0 * (starRingEnd ℂ) (f.getD p 0)

private theorem prod_take (f psi : List ℂ) (n : ℕ) (hf : n ≤ f.length) (hp : n ≤ psi.length) :
    prod (psi.take n) (f.take n) = waveletRow f n psi := by
  apply List.ext_getElem
  · simp [prod, waveletRow, hf, hp]
  · intro i h1 h2
    have hi : i < n := by simpa [waveletRow] using h2
    have h3 : i < f.length := by omega
    have h4 : i < psi.length := by omega
    simp [prod, waveletRow, List.getD_eq_getElem?_getD, h3, h4]

private theorem seen_iff (f : List ℂ) (n : ℕ) (psi : List ℂ) : (∃ x ∈ waveletRow f n psi, x ≠ 0) ↔ Seen f n psi := by
  unfold waveletRow Seen
  simp only [List.mem_map, List.mem_range]
  constructor
  · rintro ⟨x, ⟨p, hp, rfl⟩, hx⟩
    refine ⟨p, hp, ?_⟩
    simpa using hx
  · rintro ⟨p, hp, hx⟩
    refine ⟨_, ⟨p, hp, rfl⟩, ?_⟩
    simpa using hx

open Classical in
/-- Analysis keeps, in order, the rows of the wavelets that see the signal. -/
theorem slepianForward_eq (f : List ℂ) (wavelets : Array2 ℂ) (hw : wavelets.WF) (n : ℕ) (hf : n ≤ f.length)
    (hc : n ≤ wavelets.cols) :
    Wavelets.slepianForward f wavelets n =
      .ok ⟨n, (wavelets.rows.filter fun psi => decide (Seen f n psi)).map (waveletRow f n)⟩ := by
  unfold Wavelets.slepianForward
  rw [sift2_vector wavelets hw f n hc hf]
  simp only [bind, Except.bind, pure, Except.pure, findNonZero]
  have h1 : (wavelets.rows.map fun r => prod (r.take n) (f.take n)) = wavelets.rows.map (waveletRow f n) := by
    apply List.map_congr_left
    intro r hr
    exact prod_take f r n hf (by rw [hw r hr]; exact hc)
  rw [h1, List.filter_map]
  congr 4
  funext r
  simp only [Function.comp_apply]
  rw [Bool.eq_iff_iff]
  simp only [List.any_eq_true, decide_eq_true_eq]
  exact seen_iff f n r

/-- Signals that are too short.  One coefficient alone stands for a constant signal, with which it has the same transform; any other number of
coefficients below `n` raises `ValueError`. -/
theorem C27_short_signals (wavelets : Array2 ℂ) (hw : wavelets.WF) (n : ℕ) (hc : n ≤ wavelets.cols) :
    (∀ c : ℂ, Wavelets.slepianForward [c] wavelets n = Wavelets.slepianForward (List.replicate n c) wavelets n) ∧
    ∀ f : List ℂ, 2 ≤ f.length → f.length < n → Wavelets.slepianForward f wavelets n = .error .valueError := by
  refine ⟨fun c => ?_, fun f h2 h3 => ?_⟩
  · rcases Nat.lt_or_ge n 2 with hn | hn
    · obtain rfl | rfl : n = 0 ∨ n = 1 := by omega
      · unfold Wavelets.slepianForward sift2 newaxis broadcast2 Array2.colsUpTo
        simp only [upTo_nat, List.map_cons, List.map_nil, List.length_take, List.length_range, List.take_zero, Nat.zero_min]
      · rfl
    unfold Wavelets.slepianForward
    rw [sift2_vector wavelets hw (List.replicate n c) n hc (by simp)]
    congr 1
    have hne : n ≠ 1 := by omega
    have h1 : ([(starRingEnd ℂ) c] : List ℂ).take n = [(starRingEnd ℂ) c] := List.take_of_length_le (by simp; omega)
    unfold sift2 newaxis broadcast2 Array2.colsUpTo
    simp only [upTo_nat, List.map_cons, List.map_nil, List.length_take, List.length_range, List.length_singleton, Nat.min_eq_left hc,
      Nat.min_eq_right (show 1 ≤ n by omega), h1]
    simp only [dim, if_neg hne, if_true, bind, Except.bind, broadcast_singleton, List.map_map, Function.comp_def]
    have hm := mapM_id_ok (wavelets.rows.map fun r => (r.take n).map fun x => x * (starRingEnd ℂ) c)
    rw [List.map_map, Function.comp_def] at hm
    rw [hm]
    simp only [pure, Except.pure]
    congr 2
    apply List.map_congr_left
    intro r hr
    apply List.ext_getElem
    · simp [prod, hw r hr]
    · intro i h1 h2
      simp [prod]
  · unfold Wavelets.slepianForward sift2 newaxis broadcast2 Array2.colsUpTo
    simp only [upTo_nat, List.map_cons, List.map_nil, List.length_take, List.length_range, Nat.min_eq_left hc, Nat.min_eq_right h3.le]
    simp only [dim, if_neg h3.ne', if_neg (show n ≠ 1 by omega), if_neg (show f.length ≠ 1 by omega), bind, Except.bind]

example : Wavelets.slepianForward [3] ⟨2, [[1, 2], [5, 0]]⟩ (2 : ℕ) = Wavelets.slepianForward [3, 3] ⟨2, [[1, 2], [5, 0]]⟩ (2 : ℕ) :=
  (C27_short_signals ⟨2, [[1, 2], [5, 0]]⟩ (by intro r hr; fin_cases hr <;> rfl) 2 le_rfl).1 3

open Classical in
/-- C27, what is computed: analysis followed by synthesis multiplies coefficient `p` by `Σ_i ψ_i(p) conj ψ_{k(i)}(p)`,
where `k(0) < k(1) < …` are the scales that see the signal. -/
theorem C27_round_trip_formula (f : List ℂ) (wavelets : Array2 ℂ) (hw : wavelets.WF) (n : ℕ) (hf : n ≤ f.length)
    (hc : n ≤ wavelets.cols) :
    ∃ w out, Wavelets.slepianForward f wavelets n = .ok w ∧ Wavelets.slepianInverse w wavelets n = .ok out ∧
      out.length = n ∧ ∀ p < n, out.getD p 0 = f.getD p 0 *
        (List.zipWith (fun (a b : List ℂ) => a.getD p 0 * (starRingEnd ℂ) (b.getD p 0)) wavelets.rows
          (wavelets.rows.filter fun psi => decide (Seen f n psi))).sum := by
  set kept := wavelets.rows.filter fun psi => decide (Seen f n psi) with hkept
  have hle : kept.length ≤ wavelets.rows.length := List.length_filter_le _ _
  refine ⟨_, (⟨n, List.zipWith (fun r s => prod (r.take n) s) (wavelets.rows.take kept.length)
      (kept.map (waveletRow f n))⟩ : Array2 ℂ).sumRows, slepianForward_eq f wavelets hw n hf hc, ?_, ?_, ?_⟩
  · unfold Wavelets.slepianInverse
    have hwf : (⟨n, kept.map (waveletRow f n)⟩ : Array2 ℂ).WF := by
      intro r hr
      obtain ⟨psi, _, rfl⟩ := List.mem_map.1 hr
      simp [waveletRow]
    have hwt : (⟨wavelets.cols, wavelets.rows.take (kept.map (waveletRow f n)).length⟩ : Array2 ℂ).WF :=
      fun r hr => hw r (List.mem_of_mem_take hr)
    rw [sift2_rows _ _ hwt hwf n hc rfl (by simp [hle])]
    simp [bind, Except.bind, pure, Except.pure]
  · simp [Array2.sumRows]
  · intro p hp
    have hz : List.zipWith (fun (a b : List ℂ) => a.getD p 0 * (starRingEnd ℂ) (b.getD p 0)) wavelets.rows kept =
        List.zipWith (fun (a b : List ℂ) => a.getD p 0 * (starRingEnd ℂ) (b.getD p 0)) (wavelets.rows.take kept.length) kept := by
      apply List.ext_getElem?
      intro i
      simp only [List.getElem?_zipWith, List.getElem?_take]
      by_cases hi : i < kept.length
      · simp [hi]
      · rw [List.getElem?_eq_none (by omega : kept.length ≤ i)]
        simp [hi]
    rw [hz]
    have hr : ∀ r ∈ wavelets.rows.take kept.length, r.length = wavelets.cols := fun r h => hw r (List.mem_of_mem_take h)
    simp only [Array2.sumRows, List.getD_eq_getElem?_getD, List.getElem?_map, List.getElem?_range hp, Option.map_some,
      Option.getD_some]
    simp only [← List.getD_eq_getElem?_getD]
    generalize wavelets.rows.take kept.length = a at hr
    generalize kept = b
    induction a generalizing b with
    | nil => simp
    | cons r a ih =>
      match b with
      | [] => simp
      | s :: b =>
        simp only [List.map_cons, List.zipWith_cons_cons, List.sum_cons]
        rw [ih (fun r h => hr r (by simp [h])) b, mul_add]
        congr 1
        have hpr : p < r.length := by rw [hr r (by simp)]; omega
        simp only [prod, waveletRow, List.getD_eq_getElem?_getD, List.getElem?_zipWith, List.getElem?_take, hp, if_true,
          List.getElem?_map, List.getElem?_range hp, Option.map_some, List.getElem?_eq_getElem hpr, Option.getD_some,
          map_mul, starRingEnd_self_apply]
        ring

/-- C27, partial: if the scales that do not see the signal are the last ones, synthesis inverts analysis on the first `n`
coefficients.  (Missing: signals not seen by a scale that is followed by one that sees it, where the code fails.) -/
theorem C27_round_trip_partial (f : List ℂ) (wavelets : Array2 ℂ) (hw : wavelets.WF) (n : ℕ) (hf : n ≤ f.length)
    (hc : n ≤ wavelets.cols) (hadm : ∀ p < n, (wavelets.rows.map fun psi => ‖psi.getD p 0‖ ^ 2).sum = 1)
    (A B : List (List ℂ)) (hAB : wavelets.rows = A ++ B) (hA : ∀ psi ∈ A, Seen f n psi) (hB : ∀ psi ∈ B, ¬ Seen f n psi) :
    ∃ w, Wavelets.slepianForward f wavelets n = .ok w ∧ Wavelets.slepianInverse w wavelets n = .ok (f.take n) := by
  classical
  obtain ⟨w, out, h1, h2, hl, hv⟩ := C27_round_trip_formula f wavelets hw n hf hc
  refine ⟨w, h1, ?_⟩
  have hkept : (wavelets.rows.filter fun psi => decide (Seen f n psi)) = A := by
    rw [hAB, List.filter_append, List.filter_eq_self.2 (by simpa using hA), List.filter_eq_nil_iff.2 (by simpa using hB),
      List.append_nil]
  rw [h2]
  congr 1
  apply List.ext_getElem (by simp [hl, hf])
  intro p hp1 hp2
  have hp : p < n := by omega
  have hpf : p < f.length := by omega
  have := hv p hp
  rw [hkept, hAB] at this
  have hz : List.zipWith (fun (a b : List ℂ) => a.getD p 0 * (starRingEnd ℂ) (b.getD p 0)) (A ++ B) A =
      A.map fun psi => ((‖psi.getD p 0‖ ^ 2 : ℝ) : ℂ) := by
    apply List.ext_getElem?
    intro i
    simp only [List.getElem?_zipWith, List.getElem?_map]
    by_cases hi : i < A.length
    · rw [List.getElem?_append_left hi, List.getElem?_eq_getElem hi]
      simp only [Option.map_some, Complex.mul_conj, Complex.normSq_eq_norm_sq]
    · rw [List.getElem?_eq_none (by omega : A.length ≤ i)]
      simp
  rw [hz] at this
  have hgoal : out.getD p 0 = f.getD p 0 := by
    rw [this]
    by_cases hfp : f.getD p 0 = 0
    · rw [hfp, zero_mul]
    · have hBz : (B.map fun psi => ‖psi.getD p 0‖ ^ 2).sum = 0 := by
        apply List.sum_eq_zero
        intro x hx
        obtain ⟨psi, hpsi, rfl⟩ := List.mem_map.1 hx
        have : psi.getD p 0 = 0 := by
          by_contra hne
          exact hB psi hpsi ⟨p, hp, mul_ne_zero hne hfp⟩
        rw [this]
        simp
      have hsum := hadm p hp
      rw [hAB, List.map_append, List.sum_append, hBz, add_zero] at hsum
      have hcast : ∀ l : List (List ℂ), (l.map fun psi => ((‖psi.getD p 0‖ ^ 2 : ℝ) : ℂ)).sum =
          ((l.map fun psi => ‖psi.getD p 0‖ ^ 2).sum : ℝ) := by
        intro l
        induction l with
        | nil => simp
        | cons x l ih => simp only [List.map_cons, List.sum_cons]; rw [ih]; push_cast; ring
      rw [hcast, hsum]
      simp
  have h3 : out.getD p 0 = out[p] := by simp [List.getD_eq_getElem?_getD, hp1]
  have h4 : f.getD p 0 = f[p] := by simp [List.getD_eq_getElem?_getD, hpf]
  rw [List.getElem_take, ← h3, ← h4, hgoal]

private theorem norm_zipWith_le (p : ℕ) (A B : List (List ℂ)) :
    2 * ‖(List.zipWith (fun (a b : List ℂ) => a.getD p 0 * (starRingEnd ℂ) (b.getD p 0)) A B).sum‖ ≤
      (A.map fun psi => ‖psi.getD p 0‖ ^ 2).sum + (B.map fun psi => ‖psi.getD p 0‖ ^ 2).sum := by
  have hnn : ∀ l : List (List ℂ), 0 ≤ (l.map fun psi => ‖psi.getD p 0‖ ^ 2).sum := fun l =>
    List.sum_nonneg fun x hx => by obtain ⟨psi, -, rfl⟩ := List.mem_map.1 hx; positivity
  induction A generalizing B with
  | nil => simpa using hnn B
  | cons a A ih =>
    cases B with
    | nil => simpa using hnn (a :: A)
    | cons b B =>
      simp only [List.zipWith_cons_cons, List.map_cons, List.sum_cons]
      have h1 := norm_add_le (a.getD p 0 * (starRingEnd ℂ) (b.getD p 0))
        (List.zipWith (fun (a b : List ℂ) => a.getD p 0 * (starRingEnd ℂ) (b.getD p 0)) A B).sum
      rw [norm_mul, RCLike.norm_conj] at h1
      have h2 := ih B
      nlinarith [sq_nonneg (‖a.getD p 0‖ - ‖b.getD p 0‖)]

private theorem zip_self (p : ℕ) (A : List (List ℂ)) :
    (List.zipWith (fun (a b : List ℂ) => a.getD p 0 * (starRingEnd ℂ) (b.getD p 0)) A A).sum =
      ((A.map fun psi => ‖psi.getD p 0‖ ^ 2).sum : ℝ) := by
  induction A with
  | nil => simp
  | cons a A ih =>
    simp only [List.zipWith_cons_cons, List.map_cons, List.sum_cons, ih, Complex.mul_conj, Complex.normSq_eq_norm_sq]
    push_cast
    rfl

/-- the scales that see the signal come first. -/
theorem unseenLast_split {f : List ℂ} {n : ℕ} {wavelets : Array2 ℂ} (h : UnseenLast f n wavelets) :
    ∃ A B, wavelets.rows = A ++ B ∧ (∀ psi ∈ A, Seen f n psi) ∧ ∀ psi ∈ B, ¬ Seen f n psi := by
  revert h
  unfold UnseenLast
  generalize wavelets.rows = R
  intro hpw
  induction R with
  | nil => exact ⟨[], [], rfl, by simp, by simp⟩
  | cons c R ih =>
    rw [List.pairwise_cons] at hpw
    by_cases hcs : Seen f n c
    · obtain ⟨A, B, h1, h2, h3⟩ := ih hpw.2
      exact ⟨c :: A, B, by rw [h1]; rfl, by simpa using ⟨hcs, h2⟩, h3⟩
    · exact ⟨[], c :: R, rfl, by simp, by simpa using ⟨hcs, fun d hd hs => hcs (hpw.1 d hd hs)⟩⟩

/-- C27, exactly: for admissible wavelets synthesis inverts analysis on the first `n` coefficients of a signal if and only if no
scale that does not see the signal comes before one that does. -/
theorem C27_round_trip_iff (f : List ℂ) (wavelets : Array2 ℂ) (hw : wavelets.WF) (n : ℕ) (hf : n ≤ f.length)
    (hc : n ≤ wavelets.cols) (hadm : ∀ p < n, (wavelets.rows.map fun psi => ‖psi.getD p 0‖ ^ 2).sum = 1) :
    ∃ w, Wavelets.slepianForward f wavelets n = .ok w ∧
      (Wavelets.slepianInverse w wavelets n = .ok (f.take n) ↔ UnseenLast f n wavelets) := by
  classical
  unfold UnseenLast
  obtain ⟨w, out, h1, h2, hl, hv⟩ := C27_round_trip_formula f wavelets hw n hf hc
  refine ⟨w, h1, ?_⟩
  constructor
  · intro h
    rw [h2] at h
    injection h with h
    have hv' : ∀ p < n, f.getD p 0 ≠ 0 →
        (List.zipWith (fun (a b : List ℂ) => a.getD p 0 * (starRingEnd ℂ) (b.getD p 0)) wavelets.rows
          (wavelets.rows.filter fun psi => decide (Seen f n psi))).sum = 1 := by
      intro p hp hfp
      have e := hv p hp
      rw [h] at e
      have ht : (f.take n).getD p 0 = f.getD p 0 := by
        rw [List.getD_eq_getElem?_getD, List.getD_eq_getElem?_getD, List.getElem?_take, if_pos hp]
      rw [ht] at e
      exact mul_left_cancel₀ hfp (by rw [← e, mul_one])
    revert hadm hv'
    generalize hR : wavelets.rows = R
    clear hR h h1 h2 hv
    intro hadm hv'
    -- drop the scales that see the signal from the front
    suffices H : ∀ R : List (List ℂ), (∀ p < n, f.getD p 0 ≠ 0 →
        (List.zipWith (fun (a b : List ℂ) => a.getD p 0 * (starRingEnd ℂ) (b.getD p 0)) R
          (R.filter fun psi => decide (Seen f n psi))).sum = ((R.map fun psi => ‖psi.getD p 0‖ ^ 2).sum : ℝ)) →
        R.Pairwise fun first later => Seen f n later → Seen f n first from
      H R fun p hp hfp => by rw [hv' p hp hfp, hadm p hp]; simp
    intro R
    induction R with
    | nil => intro _; exact List.Pairwise.nil
    | cons c R ih =>
      intro hR
      by_cases hcs : Seen f n c
      · refine List.Pairwise.cons (fun d _ _ => hcs) (ih fun p hp hfp => ?_)
        have e := hR p hp hfp
        rw [List.filter_cons, if_pos (by simpa using hcs)] at e
        simp only [List.zipWith_cons_cons, List.map_cons, List.sum_cons, Complex.mul_conj, Complex.normSq_eq_norm_sq] at e
        push_cast at e ⊢
        exact add_left_cancel e
      · have hnone : ∀ d ∈ R, ¬ Seen f n d := by
          by_contra hex
          push Not at hex
          obtain ⟨d₀, hd₀, hs₀⟩ := hex
          rcases hk : R.filter fun psi => decide (Seen f n psi) with _ | ⟨d, ds⟩
          · have : d₀ ∈ R.filter fun psi => decide (Seen f n psi) := List.mem_filter.2 ⟨hd₀, by simpa using hs₀⟩
            rw [hk] at this
            simp at this
          · have hd : d ∈ R.filter fun psi => decide (Seen f n psi) := by rw [hk]; exact List.mem_cons_self
            obtain ⟨p, hp, hne⟩ : Seen f n d := by simpa using (List.mem_filter.1 hd).2
            have hfp : f.getD p 0 ≠ 0 := right_ne_zero_of_mul hne
            have hdp : d.getD p 0 ≠ 0 := left_ne_zero_of_mul hne
            have hcp : c.getD p 0 = 0 := by
              by_contra h0
              exact hcs ⟨p, hp, mul_ne_zero h0 hfp⟩
            have e := hR p hp hfp
            rw [List.filter_cons, if_neg (by simpa using hcs), hk] at e
            simp only [List.zipWith_cons_cons, List.map_cons, List.sum_cons, hcp, zero_mul, zero_add, norm_zero, ne_eq,
              OfNat.ofNat_ne_zero, not_false_eq_true, zero_pow] at e
            have hle := norm_zipWith_le p R ds
            have hsub : ((d :: ds).map fun psi => ‖psi.getD p 0‖ ^ 2).sum ≤ (R.map fun psi => ‖psi.getD p 0‖ ^ 2).sum := by
              rw [← hk]
              exact ((List.filter_sublist).map _).sum_le_sum fun x hx => by
                obtain ⟨psi, -, rfl⟩ := List.mem_map.1 hx; positivity
            rw [e, Complex.norm_real, Real.norm_eq_abs] at hle
            have habs := le_abs_self (R.map fun psi => ‖psi.getD p 0‖ ^ 2).sum
            simp only [List.map_cons, List.sum_cons] at hsub
            have hpos : 0 < ‖d.getD p 0‖ ^ 2 := by positivity
            linarith
        refine List.Pairwise.cons (fun d hd hs => absurd hs (hnone d hd)) ?_
        exact List.pairwise_of_forall_mem_list fun a _ b hb hs => absurd hs (hnone b hb)
  · intro hpw
    obtain ⟨A, B, hAB, hA, hB⟩ := unseenLast_split hpw
    obtain ⟨w', e1, e2⟩ := C27_round_trip_partial f wavelets hw n hf hc hadm A B hAB hA hB
    rw [h1] at e1
    injection e1 with e1
    rw [e1, e2]

/-- C27. The wavelet coefficients have the energy of the first `n` coefficients of the signal, whichever scales see it. -/
theorem C27_energy (f : List ℂ) (wavelets : Array2 ℂ) (hw : wavelets.WF) (n : ℕ) (hf : n ≤ f.length)
    (hc : n ≤ wavelets.cols) (hadm : ∀ p < n, (wavelets.rows.map fun psi => ‖psi.getD p 0‖ ^ 2).sum = 1) :
    ∃ w, Wavelets.slepianForward f wavelets n = .ok w ∧
      (∀ row ∈ w.rows, row.length = n ∧ ∃ psi ∈ wavelets.rows, ∀ p < n, row.getD p 0 = psi.getD p 0 * (starRingEnd ℂ) (f.getD p 0)) ∧
      (w.rows.map fun row => ∑ p ∈ Finset.range n, ‖row.getD p 0‖ ^ 2).sum = ∑ p ∈ Finset.range n, ‖f.getD p 0‖ ^ 2 := by
  classical
  refine ⟨_, slepianForward_eq f wavelets hw n hf hc, ?_, ?_⟩
  · intro row hr
    obtain ⟨psi, hp, rfl⟩ := List.mem_map.1 hr
    refine ⟨by simp [waveletRow], psi, (List.mem_filter.1 hp).1, fun p hp => ?_⟩
    simp [waveletRow, List.getD_eq_getElem?_getD, hp]
  · have hval : ∀ psi : List ℂ, ∑ p ∈ Finset.range n, ‖(waveletRow f n psi).getD p 0‖ ^ 2 =
        ∑ p ∈ Finset.range n, ‖psi.getD p 0‖ ^ 2 * ‖f.getD p 0‖ ^ 2 := by
      intro psi
      refine Finset.sum_congr rfl fun p hp => ?_
      rw [Finset.mem_range] at hp
      have : (waveletRow f n psi).getD p 0 = psi.getD p 0 * (starRingEnd ℂ) (f.getD p 0) := by
        simp [waveletRow, List.getD_eq_getElem?_getD, hp]
      rw [this, norm_mul, RCLike.norm_conj, mul_pow]
    have hall : ∀ R : List (List ℂ), ((R.filter fun psi => decide (Seen f n psi)).map fun psi =>
          ∑ p ∈ Finset.range n, ‖(waveletRow f n psi).getD p 0‖ ^ 2).sum =
        ∑ p ∈ Finset.range n, (R.map fun psi => ‖psi.getD p 0‖ ^ 2).sum * ‖f.getD p 0‖ ^ 2 := by
      intro R
      induction R with
      | nil => simp
      | cons c R ih =>
        by_cases hcs : Seen f n c
        · rw [List.filter_cons, if_pos (by simpa using hcs), List.map_cons, List.sum_cons, ih, hval, ← Finset.sum_add_distrib]
          exact Finset.sum_congr rfl fun p _ => by rw [List.map_cons, List.sum_cons, add_mul]
        · rw [List.filter_cons, if_neg (by simpa using hcs), ih]
          refine Finset.sum_congr rfl fun p hp => ?_
          rw [Finset.mem_range] at hp
          rw [List.map_cons, List.sum_cons, add_mul]
          have : ‖c.getD p 0‖ ^ 2 * ‖f.getD p 0‖ ^ 2 = 0 := by
            have h0 : c.getD p 0 * f.getD p 0 = 0 := by
              by_contra h0
              exact hcs ⟨p, hp, h0⟩
            rw [← mul_pow, ← norm_mul, h0]; simp
          rw [this, zero_add]
    dsimp only
    rw [List.map_map]
    change ((wavelets.rows.filter fun psi => decide (Seen f n psi)).map fun psi =>
          ∑ p ∈ Finset.range n, ‖(waveletRow f n psi).getD p 0‖ ^ 2).sum = _
    rw [hall]
    refine Finset.sum_congr rfl fun p hp => ?_
    rw [hadm p (Finset.mem_range.1 hp), one_mul]

/-- two wavelets that tile two coefficients. -/
noncomputable def tiling : Array2 ℂ := ⟨2, [[1, 0], [0, 1]]⟩

theorem tiling_wf : tiling.WF := by
  intro r hr
  simp only [tiling, List.mem_cons, List.not_mem_nil, or_false] at hr
  rcases hr with rfl | rfl <;> rfl

theorem tiling_admissible : ∀ p < 2, (tiling.rows.map fun psi => ‖psi.getD p 0‖ ^ 2).sum = 1 := by
  intro p hp
  match p, hp with
  | 0, _ => simp [tiling]
  | 1, _ => simp [tiling]

private theorem seen_first : ¬ Seen [0, 1] 2 [1, 0] := by
  rintro ⟨p, hp, h⟩
  match p, hp with
  | 0, _ => simp at h
  | 1, _ => simp at h

private theorem seen_second : Seen [0, 1] 2 [0, 1] := ⟨1, by norm_num, by simp⟩

theorem tiling_kept :
    (open Classical in tiling.rows.filter fun psi => decide (Seen [0, 1] 2 psi)) = [[0, 1]] := by
  classical
  simp only [tiling, List.filter_cons, List.filter_nil, seen_first, seen_second, decide_true, decide_false, if_true]
  simp

/-- both scales of the tiling see the signal `(1, 1)`, so it meets the hypotheses of the partial theorem. -/
example : ∃ w, Wavelets.slepianForward [1, 1] tiling (2 : ℕ) = .ok w ∧
    Wavelets.slepianInverse w tiling (2 : ℕ) = .ok [1, 1] :=
  C27_round_trip_partial [1, 1] tiling tiling_wf 2 le_rfl le_rfl tiling_admissible tiling.rows [] (by simp)
    (by
      intro psi h
      simp only [tiling, List.mem_cons, List.not_mem_nil, or_false] at h
      rcases h with rfl | rfl
      · exact ⟨0, by norm_num, by simp⟩
      · exact ⟨1, by norm_num, by simp⟩) (by simp)

/-- C27 is violated: for the tiling and the signal `(0, 1)`, which only the second scale sees, synthesis returns zero. -/
theorem C27_violation : ∃ w, Wavelets.slepianForward [0, 1] tiling (2 : ℕ) = .ok w ∧
    Wavelets.slepianInverse w tiling (2 : ℕ) = .ok [0, 0] := by
  classical
  obtain ⟨w, out, h1, h2, hl, hv⟩ := C27_round_trip_formula [0, 1] tiling tiling_wf 2 le_rfl le_rfl
  refine ⟨w, h1, ?_⟩
  rw [h2]
  rw [tiling_kept] at hv
  have h0 := hv 0 (by norm_num)
  have h1 := hv 1 (by norm_num)
  match out, hl with
  | [a, b], _ =>
    simp [tiling] at h0 h1
    rw [h0, h1]

/-- C28 for wavelets: with one generating function for each scale `j_min, …, j_max` and one for the scaling function, a
scale `j` is accepted exactly when that wavelet exists, and is the one selected. -/
theorem C28_wavelet_selection (wavelets : Array2 ℂ) (jMax jMin : ℤ) (hJ : (wavelets.rows.length : ℤ) = jMax - jMin + 2)
    (v : ℤ) :
    (0 ≤ v ∧ v + 1 < wavelets.rows.length → ∃ psi, wavelets.rows[(v + 1).toNat]? = some psi ∧
      (checkJ jMax jMin (some v)).bind (selectWavelet wavelets) = .ok psi) ∧
    (¬ (0 ≤ v ∧ v + 1 < wavelets.rows.length) →
      (checkJ jMax jMin (some v)).bind (selectWavelet wavelets) = .error .valueError) ∧
    (checkJ jMax jMin none).bind (selectWavelet wavelets) = item wavelets.rows 0 := by
  refine ⟨?_, ?_, rfl⟩
  · rintro ⟨h0, h1⟩
    have hlt : (v + 1).toNat < wavelets.rows.length := by omega
    refine ⟨wavelets.rows[(v + 1).toNat], List.getElem?_eq_getElem hlt, ?_⟩
    simp only [checkJ, if_neg (not_lt.2 h0), if_neg (show ¬ v > jMax - jMin by omega), Except.bind, selectWavelet, jth]
    have e : v.toNat + 1 = (v + 1).toNat := by omega
    rw [e, item_of_lt _ _ hlt]
  · intro h
    simp only [checkJ]
    by_cases h0 : v < 0
    · simp [h0, Except.bind]
    · rw [if_neg h0, if_pos (by omega)]
      rfl

/-- C28, partial: the coefficients exposed for a scale are those of that scale's wavelet if it and all scales before it see
the signal.  (Missing: scales after one that does not see the signal, where the code fails.) -/
theorem C28_selected_scale_partial (f : List ℂ) (wavelets : Array2 ℂ) (hw : wavelets.WF) (n : ℕ) (hf : n ≤ f.length)
    (hc : n ≤ wavelets.cols) (A B : List (List ℂ)) (psi : List ℂ) (hAB : wavelets.rows = A ++ psi :: B)
    (hA : ∀ x ∈ A, Seen f n x) (hpsi : Seen f n psi) (j : Option ℕ) (hj : jth j = A.length) :
    ∃ row, selectCoefficients f wavelets n j = .ok row ∧ row.length = n ∧
      ∀ p < n, row.getD p 0 = psi.getD p 0 * (starRingEnd ℂ) (f.getD p 0) := by
  classical
  refine ⟨waveletRow f n psi, ?_, by simp [waveletRow], ?_⟩
  · unfold selectCoefficients
    rw [slepianForward_eq f wavelets hw n hf hc]
    simp only [bind, Except.bind, hj, hAB, List.filter_append]
    rw [List.filter_eq_self.2 (by simpa using hA), List.filter_cons_of_pos (by simpa using hpsi)]
    simp [item]
  · intro p hp
    simp [waveletRow, List.getD_eq_getElem?_getD, hp]

/-- C28, decided: if the coefficients of the scale asked for differ from those of every later scale, those exposed are of that scale exactly when
it and all scales before it see the signal. -/
theorem C28_selected_scale_iff (f : List ℂ) (wavelets : Array2 ℂ) (hw : wavelets.WF) (n : ℕ) (hf : n ≤ f.length)
    (hc : n ≤ wavelets.cols) (A B : List (List ℂ)) (psi : List ℂ) (hAB : wavelets.rows = A ++ psi :: B)
    (hB : ∀ chi ∈ B, ∃ p < n, chi.getD p 0 * (starRingEnd ℂ) (f.getD p 0) ≠ psi.getD p 0 * (starRingEnd ℂ) (f.getD p 0)) (j : Option ℕ)
    (hj : jth j = A.length) :
    (∃ row, selectCoefficients f wavelets n j = .ok row ∧ row.length = n ∧
      ∀ p < n, row.getD p 0 = psi.getD p 0 * (starRingEnd ℂ) (f.getD p 0)) ↔ (∀ x ∈ A, Seen f n x) ∧ Seen f n psi := by
  classical
  refine ⟨fun ⟨row, h1, _, h2⟩ => ?_, fun ⟨hA, hpsi⟩ => C28_selected_scale_partial f wavelets hw n hf hc A B psi hAB hA hpsi j hj⟩
  unfold selectCoefficients at h1
  rw [slepianForward_eq f wavelets hw n hf hc] at h1
  simp only [bind, Except.bind, hj, hAB, List.filter_append, List.map_append] at h1
  have hno : ∀ chi ∈ B, waveletRow f n chi ≠ row := by
    intro chi hchi he
    obtain ⟨p, hp, hne⟩ := hB chi hchi
    apply hne
    rw [← h2 p hp, ← he]
    simp [waveletRow, List.getD_eq_getElem?_getD, hp]
  have hget : ((A.filter fun psi => decide (Seen f n psi)).map (waveletRow f n) ++
      ((psi :: B).filter fun psi => decide (Seen f n psi)).map (waveletRow f n))[A.length]? = some row := by
    unfold item at h1
    split at h1
    · rename_i x hx
      rw [Except.ok.injEq] at h1
      rw [← h1]
      exact hx
    · cases h1
  have hlen := List.length_filter_le (fun psi => decide (Seen f n psi)) A
  rw [List.getElem?_append_right (by simpa using hlen), List.length_map] at hget
  by_cases hA : ∀ x ∈ A, Seen f n x
  · refine ⟨hA, ?_⟩
    by_contra hpsi
    rw [List.filter_cons_of_neg (by simpa using hpsi)] at hget
    obtain ⟨chi, hchi, he⟩ := List.mem_map.1 (List.mem_of_getElem? hget)
    exact hno chi (List.mem_filter.1 hchi).1 he
  · exfalso
    have hlt : (A.filter fun psi => decide (Seen f n psi)).length < A.length := by
      refine lt_of_le_of_ne hlen fun he => hA ?_
      simpa using List.length_filter_eq_length_iff.1 he
    obtain ⟨k, hk⟩ := Nat.exists_eq_add_of_lt hlt
    rw [show A.length - (A.filter fun psi => decide (Seen f n psi)).length = k + 1 by omega] at hget
    have hmem : row ∈ (B.filter fun psi => decide (Seen f n psi)).map (waveletRow f n) := by
      by_cases hpsi : Seen f n psi
      · rw [List.filter_cons_of_pos (by simpa using hpsi), List.map_cons, List.getElem?_cons_succ] at hget
        exact List.mem_of_getElem? hget
      · rw [List.filter_cons_of_neg (by simpa using hpsi)] at hget
        exact List.mem_of_getElem? hget
    obtain ⟨chi, hchi, he⟩ := List.mem_map.1 hmem
    exact hno chi (List.mem_filter.1 hchi).1 he

/-- hypotheses met: for a signal without rank 0 the scaling coefficients exposed are not those of the scaling function. -/
example : ¬ ∃ row, selectCoefficients [0, 1] tiling (2 : ℕ) none = .ok row ∧ row.length = 2 ∧
    ∀ p < 2, row.getD p 0 = ([1, 0] : List ℂ).getD p 0 * (starRingEnd ℂ) (([0, 1] : List ℂ).getD p 0) := by
  rw [C28_selected_scale_iff [0, 1] tiling tiling_wf 2 le_rfl le_rfl [] [[0, 1]] [1, 0] rfl
    (by intro chi h; rw [List.mem_singleton] at h; subst h; exact ⟨1, by norm_num, by simp⟩) none rfl]
  rintro ⟨-, p, hp, h⟩
  obtain rfl | rfl : p = 0 ∨ p = 1 := by omega
  · simp at h
  · simp at h

/-- C28: a scale beyond the number of scales that see the signal raises `IndexError`. -/
theorem C28_index_error (f : List ℂ) (wavelets : Array2 ℂ) (hw : wavelets.WF) (n : ℕ) (hf : n ≤ f.length)
    (hc : n ≤ wavelets.cols) (j : Option ℕ)
    (hj : (open Classical in (wavelets.rows.filter fun psi => decide (Seen f n psi)).length) ≤ jth j) :
    selectCoefficients f wavelets n j = .error .indexError := by
  classical
  unfold selectCoefficients
  rw [slepianForward_eq f wavelets hw n hf hc]
  simp only [bind, Except.bind]
  rw [item_of_ge]
  simpa using hj

/-- C28 is violated: for the tiling, scale 0 passes validation and raises `IndexError`, and the scaling coefficients (which
are zero) are replaced by those of scale 0. -/
theorem C28_violation :
    (checkJ 0 0 (some 0)).bind (selectCoefficients [0, 1] tiling (2 : ℕ)) = .error .indexError ∧
    selectCoefficients [0, 1] tiling (2 : ℕ) none = .ok [0, 1] := by
  classical
  constructor
  · simp only [checkJ, lt_irrefl, if_false, Except.bind]
    rw [if_neg (by norm_num)]
    apply C28_index_error [0, 1] tiling tiling_wf 2 le_rfl le_rfl
    rw [tiling_kept]
    rfl
  · unfold selectCoefficients
    rw [slepianForward_eq [0, 1] tiling tiling_wf 2 le_rfl le_rfl, tiling_kept]
    simp [bind, Except.bind, item, jth, waveletRow, List.range_succ]

end Sleplet.Props
