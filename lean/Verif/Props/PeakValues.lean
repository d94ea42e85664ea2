import Verif.Lemmas.Peaks
import Verif.Props.DataErrors
import Verif.Props.Denoising
import Verif.Props.Functions

/-!
C129: how large fields can be at a point.
-/
namespace Sleplet.Props

open Complex Sleplet.Spec Sleplet.Transform

section
variable {Pix : Type} {L N : ℕ}

/-- `N` orthonormal Slepian eigenvectors `E`, and a synthesis that evaluates fields at the points of the samples. -/
structure SampledRows (sl : Transform.Slepian (L ^ 2)) (synth : (Fin (L ^ 2) → ℂ) → Pix → ℂ) (point : Pix → ℝ × ℝ)
    (E : Fin N → Fin (L ^ 2) → ℂ) : Prop where
  number : sl.N = N
  le : N ≤ L ^ 2
  rows : ∀ p : Fin N, sl.evecs[(p : ℕ)]? = some (E p)
  orthonormal : OrthonormalRows E
  samples : ∀ c x, synth c x = synthesis L (List.ofFn c) (point x).1 (point x).2

variable {sl : Transform.Slepian (L ^ 2)} {synth : (Fin (L ^ 2) → ℂ) → Pix → ℂ} {point : Pix → ℝ × ℝ} {E : Fin N → Fin (L ^ 2) → ℂ}

private theorem value (h : SampledRows sl synth point E) (c : Fin (L ^ 2) → ℂ) (x : Pix) :
    synth c x = ∑ i, c i * Gaunt.harm i (point x).1 (point x).2 := by
  rw [h.samples, Gaunt.synthesis_eq]
  exact Finset.sum_congr rfl fun i _ => by simp [List.getD_eq_getElem?_getD]

private theorem power_le (h : SampledRows sl synth point E) (x : Pix) :
    ∑ p, ‖synth (E p) x‖ ^ 2 ≤ (L : ℝ) ^ 2 / (4 * Real.pi) := by
  rw [← Peaks.sum_harm L (point x).1 (point x).2]
  simp only [value h]
  exact Peaks.rows_le h.orthonormal _

private theorem power_eq (h : SampledRows sl synth point E) (hN : N = L ^ 2) (x : Pix) :
    ∑ p, ‖synth (E p) x‖ ^ 2 = (L : ℝ) ^ 2 / (4 * Real.pi) := by
  subst hN
  rw [← Peaks.sum_harm L (point x).1 (point x).2]
  simp only [value h]
  exact Peaks.rows_eq h.orthonormal _

/-- C129. The fields of the Slepian functions: at every sample their squared moduli add up to at most `L²/4π`, and to exactly that for all
`L²` of them. -/
theorem C129_power (h : SampledRows sl synth point E) :
    ∃ s : List (Pix → ℂ), computeSp sl synth (List.range sl.N) = .ok s ∧ s.length = N ∧
      ∀ x, (s.map fun g => ‖g x‖ ^ 2).sum ≤ (L : ℝ) ^ 2 / (4 * Real.pi) ∧
        (N = L ^ 2 → (s.map fun g => ‖g x‖ ^ 2).sum = (L : ℝ) ^ 2 / (4 * Real.pi)) := by
  have hs : computeSp sl synth (List.range sl.N) = .ok (List.ofFn fun p => synth (E p)) := by
    rw [h.number, computeSp_ok sl synth (fun p => if hp : p < N then E ⟨p, hp⟩ else fun _ => 0)]
    · congr 1
      apply List.ext_getElem
      · simp
      · intro i h1 h2
        have : i < N := by simpa using h2
        simp [this]
    · intro p hp
      have hp : p < N := by simpa using hp
      simp only [hp, dite_true]
      exact h.rows ⟨p, hp⟩
  have hsum : ∀ x, ((List.ofFn fun p => synth (E p)).map fun g => ‖g x‖ ^ 2).sum = ∑ p, ‖synth (E p) x‖ ^ 2 := by
    intro x
    rw [List.map_ofFn, List.sum_ofFn]
    rfl
  refine ⟨_, hs, by simp, fun x => ?_⟩
  rw [hsum]
  exact ⟨power_le h x, fun hN => power_eq h hN x⟩

/-- C129. A field made from Slepian coefficients: nowhere is its squared modulus more than `L²/4π` times the sum of the squared moduli of the
coefficients. -/
theorem C129_peak (h : SampledRows sl synth point E) (c : Fin N → ℂ) :
    ∃ u : Pix → ℂ, slepianInverse sl synth (List.ofFn c) = .ok u ∧
      ∀ x, ‖u x‖ ^ 2 ≤ (L : ℝ) ^ 2 / (4 * Real.pi) * ∑ p, ‖c p‖ ^ 2 := by
  refine ⟨_, slepianInverse_ok sl synth E h.number h.rows c, fun x => (Peaks.cauchy _ _).trans ?_⟩
  rw [mul_comm]
  exact mul_le_mul_of_nonneg_right (power_le h x) (Finset.sum_nonneg fun _ _ => sq_nonneg _)

/-- C129. For all `L²` Slepian functions the bound is attained at every sample, by the conjugates of their values there. -/
theorem C129_peak_attained (h : SampledRows sl synth point E) (hN : N = L ^ 2) (x : Pix) :
    ∃ (c : Fin N → ℂ) (u : Pix → ℂ), slepianInverse sl synth (List.ofFn c) = .ok u ∧ ∑ p, ‖c p‖ ^ 2 = (L : ℝ) ^ 2 / (4 * Real.pi) ∧
      ‖u x‖ ^ 2 = (L : ℝ) ^ 2 / (4 * Real.pi) * ∑ p, ‖c p‖ ^ 2 := by
  have h1 : ∑ p, ‖(starRingEnd ℂ) (synth (E p) x)‖ ^ 2 = (L : ℝ) ^ 2 / (4 * Real.pi) := by
    simp only [RCLike.norm_conj]
    exact power_eq h hN x
  refine ⟨fun p => (starRingEnd ℂ) (synth (E p) x), _, slepianInverse_ok sl synth E h.number h.rows _, h1, ?_⟩
  have h2 : ∑ p, (starRingEnd ℂ) (synth (E p) x) * synth (E p) x = (((L : ℝ) ^ 2 / (4 * Real.pi) : ℝ) : ℂ) := by
    rw [← power_eq h hN x, ofReal_sum]
    exact Finset.sum_congr rfl fun p _ => by rw [conj_mul']; push_cast; rfl
  rw [h1, h2, norm_real, Real.norm_eq_abs, sq_abs, sq]

/-- C129. Data that differ by a small amount in the region give fields that are close at every sample: where the eigenvalues are at least
`least`, the squared difference is at most `L²/4π` over `least` times the energy in the region of the difference of the data. -/
theorem C129_error [Fintype Pix] {w mask : Pix → ℝ} {e : Fin N → ℝ} (h : SampledRows sl synth point E) (hs : SolvesMask sl synth w mask E e)
    (hw : ∀ x, 0 ≤ w x) (hm : ∀ x, 0 ≤ mask x) {least : ℝ} (h0 : 0 < least) (he : ∀ p, least ≤ e p) (f g : Pix → ℂ) :
    ∃ (F G : Fin N → ℂ) (u v : Pix → ℂ),
      slepianForward sl synth w { f := some f, mask := some mask } none = .ok (List.ofFn F) ∧ slepianInverse sl synth (List.ofFn F) = .ok u ∧
      slepianForward sl synth w { f := some g, mask := some mask } none = .ok (List.ofFn G) ∧ slepianInverse sl synth (List.ofFn G) = .ok v ∧
      ∀ x, ‖u x - v x‖ ^ 2 ≤ (L : ℝ) ^ 2 / (4 * Real.pi) / least * ∑ y, w y * mask y * ‖f y - g y‖ ^ 2 := by
  obtain ⟨F, G, u, v, h1, h2, h3, h4, h5, -⟩ := C128_region hs hw hm (fun p => h0.trans_le (he p)) f g
  refine ⟨F, G, u, v, h1, h2, h3, h4, fun x => ?_⟩
  have hu := slepianInverse_ok sl synth E h.number h.rows F
  have hv := slepianInverse_ok sl synth E h.number h.rows G
  rw [h2, Except.ok.injEq] at hu
  rw [h4, Except.ok.injEq] at hv
  have hd : u x - v x = ∑ p, (F p - G p) * synth (E p) x := by
    rw [hu, hv, ← Finset.sum_sub_distrib]
    exact Finset.sum_congr rfl fun p _ => by ring
  have hl : least * ∑ p, ‖F p - G p‖ ^ 2 ≤ ∑ y, w y * mask y * ‖f y - g y‖ ^ 2 := by
    refine le_trans ?_ h5
    rw [Finset.mul_sum]
    exact Finset.sum_le_sum fun p _ => mul_le_mul_of_nonneg_right (he p) (sq_nonneg _)
  have hc : ∑ p, ‖F p - G p‖ ^ 2 ≤ (∑ y, w y * mask y * ‖f y - g y‖ ^ 2) / least := by
    rw [le_div_iff₀ h0, mul_comm]
    exact hl
  rw [hd]
  refine (Peaks.cauchy _ _).trans ?_
  calc (∑ p, ‖F p - G p‖ ^ 2) * ∑ p, ‖synth (E p) x‖ ^ 2
      ≤ (∑ y, w y * mask y * ‖f y - g y‖ ^ 2) / least * ((L : ℝ) ^ 2 / (4 * Real.pi)) :=
        mul_le_mul hc (power_le h x) (Finset.sum_nonneg fun _ _ => sq_nonneg _)
          ((Finset.sum_nonneg fun _ _ => sq_nonneg _).trans hc)
    _ = _ := by ring

/-- C129. The deviations of the Slepian wavelet coefficients of noise, which are the thresholds of denoising up to a factor: for a wavelet with
no coefficient larger than `K`, the squared deviation is nowhere more than `K²/4π` times the power of the noise, whatever the bandlimit; for
wavelets whose squares add up to one, the squared deviations add up to at most `1/4π` times it, and to exactly that for all `L²` Slepian
functions. -/
theorem C129_deviations [Fintype Pix] (h : SampledRows sl synth point E) (signal : List ℂ) (psi : List (List ℂ)) (hpsi : ∀ r ∈ psi, N ≤ r.length)
    (snrIn : ℝ) :
    ∃ sigma : List (Pix → ℝ), SigmaJ.slepianSigmaJ sl synth signal psi snrIn = .ok sigma ∧ sigma.length = psi.length ∧
      (∀ (j : ℕ) (κ : List ℂ) (s : Pix → ℝ) (K : ℝ), psi[j]? = some κ → sigma[j]? = some s → (∀ p < N, ‖κ.getD p 0‖ ≤ K) →
        ∀ x, 0 ≤ s x ∧ s x ^ 2 ≤ K ^ 2 / (4 * Real.pi) * (10 ^ (-snrIn / 10) * powerOf signal)) ∧
      ((∀ p < N, (psi.map fun κ => ‖κ.getD p 0‖ ^ 2).sum = 1) → ∀ x,
        (sigma.map fun s => s x ^ 2).sum ≤ 1 / (4 * Real.pi) * (10 ^ (-snrIn / 10) * powerOf signal) ∧
        (N = L ^ 2 → 0 < L → (sigma.map fun s => s x ^ 2).sum = 1 / (4 * Real.pi) * (10 ^ (-snrIn / 10) * powerOf signal))) := by
  obtain ⟨-, -, sigma, -, -, -, h1, h2, -⟩ := C84_sphere sl synth (fun _ => 0) E h.number h.le h.rows signal psi hpsi snrIn
  set Q : ℝ := 10 ^ (-snrIn / 10) * powerOf signal with hQ
  have hQ0 : 0 ≤ Q := by
    have : 0 ≤ powerOf signal := List.sum_nonneg (by simp)
    positivity
  have hsq : ∀ (κ : List ℂ) (x : Pix), (Real.sqrt (Q / L ^ 2) * Real.sqrt (∑ p : Fin N, ‖κ.getD p 0‖ ^ 2 * ‖synth (E p) x‖ ^ 2)) ^ 2 =
      Q / L ^ 2 * ∑ p : Fin N, ‖κ.getD p 0‖ ^ 2 * ‖synth (E p) x‖ ^ 2 := by
    intro κ x
    rw [mul_pow, Real.sq_sqrt (by positivity), Real.sq_sqrt (by positivity)]
  have hbound : ∀ K : ℝ, Q / L ^ 2 * (K ^ 2 * ((L : ℝ) ^ 2 / (4 * Real.pi))) ≤ K ^ 2 / (4 * Real.pi) * Q := by
    intro K
    rcases Nat.eq_zero_or_pos L with hL | hL
    · subst hL
      simp
      positivity
    · have : (L : ℝ) ≠ 0 := by exact_mod_cast hL.ne'
      apply le_of_eq
      field_simp
  refine ⟨sigma, h1, by simp [h2], ?_, ?_⟩
  · intro j κ s K hκ hs hK x
    rw [h2, List.getElem?_map, hκ, Option.map_some, Option.some.injEq] at hs
    subst hs
    refine ⟨by positivity, ?_⟩
    rw [hsq]
    refine le_trans (mul_le_mul_of_nonneg_left ?_ (by positivity)) (hbound K)
    calc ∑ p : Fin N, ‖κ.getD p 0‖ ^ 2 * ‖synth (E p) x‖ ^ 2 ≤ ∑ p : Fin N, K ^ 2 * ‖synth (E p) x‖ ^ 2 :=
          Finset.sum_le_sum fun p _ => mul_le_mul_of_nonneg_right (pow_le_pow_left₀ (norm_nonneg _) (hK p p.2) 2) (sq_nonneg _)
      _ ≤ _ := by
          rw [← Finset.mul_sum]
          exact mul_le_mul_of_nonneg_left (power_le h x) (sq_nonneg _)
  · intro ht x
    have hsum : (sigma.map fun s => s x ^ 2).sum = Q / L ^ 2 * ∑ p, ‖synth (E p) x‖ ^ 2 := by
      rw [h2, List.map_map, Function.comp_def]
      simp only [hsq]
      have : ∀ l : List (List ℂ), (l.map fun κ => Q / L ^ 2 * ∑ p : Fin N, ‖κ.getD p 0‖ ^ 2 * ‖synth (E p) x‖ ^ 2).sum =
          Q / L ^ 2 * ∑ p : Fin N, (l.map fun κ => ‖κ.getD p 0‖ ^ 2).sum * ‖synth (E p) x‖ ^ 2 := by
        intro l
        induction l with
        | nil => simp
        | cons κ l ih =>
          rw [List.map_cons, List.sum_cons, ih, ← mul_add, ← Finset.sum_add_distrib]
          congr 1
          exact Finset.sum_congr rfl fun p _ => by rw [List.map_cons, List.sum_cons]; ring
      rw [this]
      congr 1
      exact Finset.sum_congr rfl fun p _ => by rw [ht p p.2, one_mul]
    rw [hsum]
    constructor
    · refine le_trans (mul_le_mul_of_nonneg_left (power_le h x) (by positivity)) ?_
      simpa using hbound 1
    · intro hN hL
      rw [power_eq h hN x]
      have : (L : ℝ) ≠ 0 := by exact_mod_cast hL.ne'
      field_simp

end

/-- C129. A field made from harmonic coefficients: nowhere is its squared modulus more than `L²/4π` times the sum of the squared moduli of the
coefficients, and the Dirac delta attains it at the north pole: no signal of the bandlimit with the same energy is larger anywhere. -/
theorem C129_harmonic (L : ℕ) :
    (∀ (c : List ℂ) (th ph : ℝ), c.length = L ^ 2 →
      ‖synthesis L c th ph‖ ^ 2 ≤ (L : ℝ) ^ 2 / (4 * Real.pi) * (c.map fun z => ‖z‖ ^ 2).sum) ∧
    ∃ d, Functions.diracDelta L = .ok d ∧ d.length = L ^ 2 ∧ (d.map fun z => ‖z‖ ^ 2).sum = (L : ℝ) ^ 2 / (4 * Real.pi) ∧
      ∀ ph, ‖synthesis L d 0 ph‖ ^ 2 = (L : ℝ) ^ 2 / (4 * Real.pi) * (d.map fun z => ‖z‖ ^ 2).sum := by
  have hsum : ∀ c : List ℂ, c.length = L ^ 2 → (c.map fun z => ‖z‖ ^ 2).sum = ∑ i : Fin (L ^ 2), ‖c.getD i 0‖ ^ 2 := by
    intro c hc
    rw [Bessel.sum_map _ c 0, hc, Finset.sum_range]
  refine ⟨fun c th ph hc => ?_, ?_⟩
  · rw [Gaunt.synthesis_eq, hsum c hc, ← Peaks.sum_harm L th ph, mul_comm]
    exact Peaks.cauchy _ _
  · obtain ⟨d, h1, h2, h3, -⟩ := C55_dirac_delta L
    have hd : ∀ (i : Fin (L ^ 2)) ph, d.getD i 0 = (starRingEnd ℂ) (Gaunt.harm i 0 ph) := by
      intro i ph
      have hi := ind2elm_fst_lt i.2
      have := h3 (ind2elm i).1 (ind2elm i).2 hi (ind2elm_abs_le i)
      rw [elm2ind_ind2elm] at this
      rw [this]
      unfold Gaunt.harm
      rw [Gaunt.sphHarm_north]
      split_ifs <;> simp
    have h4 : (d.map fun z => ‖z‖ ^ 2).sum = (L : ℝ) ^ 2 / (4 * Real.pi) := by
      rw [hsum d h2, ← Peaks.sum_harm L 0 0]
      exact Finset.sum_congr rfl fun i _ => by rw [hd i 0, RCLike.norm_conj]
    refine ⟨d, h1, h2, h4, fun ph => ?_⟩
    have h5 : synthesis L d 0 ph = (((L : ℝ) ^ 2 / (4 * Real.pi) : ℝ) : ℂ) := by
      rw [Gaunt.synthesis_eq, ← Peaks.sum_harm L 0 ph, ofReal_sum]
      exact Finset.sum_congr rfl fun i _ => by rw [hd i ph, conj_mul']; push_cast; rfl
    rw [h4, h5, norm_real, Real.norm_eq_abs, sq_abs, sq]

/-- all four Slepian functions of bandlimit 2, at every point of the sphere. -/
private theorem sampled_two : SampledRows (L := 2) (N := 4) ⟨4, [1, 1, 1, 1], List.ofFn fun p : Fin 4 => fun i : Fin (2 ^ 2) => if (i : ℕ) = p then I else 0⟩
    (fun c (x : ℝ × ℝ) => synthesis 2 (List.ofFn c) x.1 x.2) id (fun p i => if (i : ℕ) = p then I else 0) := by
  refine ⟨rfl, by norm_num, fun p => by simp only [List.getElem?_ofFn, p.2, dif_pos, Fin.eta], fun p q => ?_, fun _ _ => rfl⟩
  fin_cases p <;> fin_cases q <;> simp [Fin.sum_univ_four]

/-- four coefficients of modulus 1: the squared modulus of the field is at most `4/π`, and it is reached. -/
example : ∃ (sl : Transform.Slepian (2 ^ 2)) (u v : ℝ × ℝ → ℂ),
    slepianInverse sl (fun c x => synthesis 2 (List.ofFn c) x.1 x.2) [1, I, -1, 1] = .ok u ∧ (∀ x, ‖u x‖ ^ 2 ≤ 4 / Real.pi) ∧
    ∃ c, slepianInverse sl (fun c x => synthesis 2 (List.ofFn c) x.1 x.2) c = .ok v ∧ ‖v (1, 2)‖ ^ 2 = 1 / Real.pi ^ 2 := by
  obtain ⟨u, h1, h2⟩ := C129_peak sampled_two ![1, I, -1, 1]
  obtain ⟨c, v, h3, h4, h5⟩ := C129_peak_attained sampled_two rfl (1, 2)
  refine ⟨_, u, v, h1, fun x => (h2 x).trans (le_of_eq ?_), _, h3, ?_⟩
  · simp [Fin.sum_univ_four]
    ring
  · rw [h5, h4]
    push_cast
    field_simp
    ring

/-- one wavelet equal to one everywhere, with as much noise as signal. -/
example : ∃ (sl : Transform.Slepian (2 ^ 2)) (sigma : List (Fin 3 → ℝ)),
    SigmaJ.slepianSigmaJ sl (fun c (_ : Fin 3) => synthesis 2 (List.ofFn c) 1 2) [2, 0, 0, 0] [[1, 1, 1, 1]] 0 = .ok sigma ∧
    ∀ x, (sigma.map fun s => s x ^ 2).sum = 1 / Real.pi := by
  have h : SampledRows (L := 2) (N := 4) _ (fun c (_ : Fin 3) => synthesis 2 (List.ofFn c) 1 2) (fun _ => (1, 2)) _ :=
    ⟨sampled_two.number, sampled_two.le, sampled_two.rows, sampled_two.orthonormal, fun _ _ => rfl⟩
  obtain ⟨sigma, h1, -, -, h2⟩ := C129_deviations h [2, 0, 0, 0] [[1, 1, 1, 1]] (by simp) 0
  refine ⟨_, sigma, h1, fun x => ?_⟩
  rw [(h2 (fun p hp => by interval_cases p <;> simp) x).2 rfl (by norm_num)]
  simp [powerOf]
  ring

/-- bandlimit 1, two samples of which one is in the region. -/
example : ∃ (sl : Transform.Slepian (1 ^ 2)) (F G : Fin 1 → ℂ) (u v : Fin 2 → ℂ),
    slepianForward sl (fun c (_ : Fin 2) => synthesis 1 (List.ofFn c) 1 2) (fun _ => 2 * Real.pi) { f := some ![3, 5], mask := some ![1, 0] } none =
      .ok (List.ofFn F) ∧
    slepianForward sl (fun c (_ : Fin 2) => synthesis 1 (List.ofFn c) 1 2) (fun _ => 2 * Real.pi) { f := some ![1, 100], mask := some ![1, 0] } none =
      .ok (List.ofFn G) ∧
    slepianInverse sl (fun c (_ : Fin 2) => synthesis 1 (List.ofFn c) 1 2) (List.ofFn F) = .ok u ∧
    slepianInverse sl (fun c (_ : Fin 2) => synthesis 1 (List.ofFn c) 1 2) (List.ofFn G) = .ok v ∧ ∀ x, ‖u x - v x‖ ^ 2 ≤ 4 := by
  have hY := Peaks.sum_harm 1 1 2
  have hs : ∀ c : Fin (1 ^ 2) → ℂ, synthesis 1 (List.ofFn c) 1 2 = ∑ i, c i * Gaunt.harm i 1 2 := fun c => by
    rw [Gaunt.synthesis_eq]
    exact Finset.sum_congr rfl fun i _ => by simp only [List.getD_eq_getElem?_getD, List.getElem?_ofFn, i.2, dif_pos, Fin.eta, Option.getD_some]
  have hz : ∀ i : Fin (1 ^ 2), i = 0 := fun i => Fin.ext (by have := i.2; simp at this ⊢)
  have hn : Gaunt.harm 0 1 2 * (starRingEnd ℂ) (Gaunt.harm 0 1 2) = ((1 / (4 * Real.pi) : ℝ) : ℂ) := by
    rw [mul_conj, normSq_eq_norm_sq]
    have : ∑ i : Fin (1 ^ 2), ‖Gaunt.harm i 1 2‖ ^ 2 = ‖Gaunt.harm 0 1 2‖ ^ 2 := Fin.sum_univ_one fun i : Fin 1 => ‖Gaunt.harm i 1 2‖ ^ 2
    rw [← this, hY]
    norm_num
  have hpi : (Real.pi : ℂ) ≠ 0 := by exact_mod_cast Real.pi_ne_zero
  have ho : OrthonormalRows (fun (_ : Fin 1) (_ : Fin (1 ^ 2)) => (1 : ℂ)) := fun p q => by simp [Subsingleton.elim p q]
  have h : SolvesMask (L := 1) (N := 1) ⟨1, [1 / 2], [fun _ => 1]⟩ (fun c (_ : Fin 2) => synthesis 1 (List.ofFn c) 1 2) (fun _ => 2 * Real.pi)
      ![1, 0] (fun _ _ => 1) (fun _ => 1 / 2) := by
    refine ⟨rfl, by norm_num, fun p => ?_, fun p => ?_, ho, fun i _ => Gaunt.harm i 1 2, fun c x => hs c, fun i j => ?_, fun p r => ?_⟩
    · fin_cases p; rfl
    · fin_cases p; rfl
    · rw [hz i, hz j, if_pos rfl, Fin.sum_univ_two]
      change Gaunt.harm 0 1 2 * (starRingEnd ℂ) (Gaunt.harm 0 1 2) * _ + Gaunt.harm 0 1 2 * (starRingEnd ℂ) (Gaunt.harm 0 1 2) * _ = 1
      rw [hn]
      push_cast
      field_simp
      norm_num
    · rw [hz r]
      have : ∀ g : Fin (1 ^ 2) → ℂ, ∑ c, g c = g 0 := fun g => Fin.sum_univ_one (fun i : Fin 1 => g i)
      rw [this, Fin.sum_univ_two]
      change ((starRingEnd ℂ) (Gaunt.harm 0 1 2) * Gaunt.harm 0 1 2 * _ * _ + (starRingEnd ℂ) (Gaunt.harm 0 1 2) * Gaunt.harm 0 1 2 * _ * _) * _ = _
      rw [mul_comm ((starRingEnd ℂ) (Gaunt.harm 0 1 2)), hn]
      simp
      field_simp
      norm_num
  have h' : SampledRows (L := 1) (N := 1) ⟨1, [1 / 2], [fun _ => 1]⟩ (fun c (_ : Fin 2) => synthesis 1 (List.ofFn c) 1 2) (fun _ => (1, 2))
      (fun _ _ => 1) := ⟨rfl, by norm_num, h.rows, ho, fun _ _ => rfl⟩
  obtain ⟨F, G, u, v, h1, h2, h3, h4, h5⟩ := C129_error h' h (fun _ => by positivity) (fun x => by fin_cases x <;> simp) (least := 1 / 2)
    (by norm_num) (fun _ => le_rfl) ![3, 5] ![1, 100]
  refine ⟨_, F, G, u, v, h1, h3, h2, h4, fun x => (h5 x).trans (le_of_eq ?_)⟩
  rw [Fin.sum_univ_two]
  norm_num
  field_simp
  norm_num

end Sleplet.Props
