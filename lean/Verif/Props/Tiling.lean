import Verif.Lemmas.Tiling
import Verif.Props.SlepianWavelets
import Verif.Props.Wavelets

/-!
C94: the wavelets of S2LET tile the line, and what follows for the transforms.
-/
namespace Sleplet.Props

open Complex NumPy Wavelets Tiling

private theorem getD_map_range {α : Type} (n : ℕ) (f : ℕ → α) (d : α) {l : ℕ} (hl : l < n) : ((List.range n).map f).getD l d = f l := by
  simp [List.getD_eq_getElem?_getD, hl]

private theorem kappa_getD {B xlim j l : ℕ} (hl : l < xlim) : (kappa B xlim j).getD l 0 = Real.sqrt (phi2 B (j + 1) l - phi2 B j l) :=
  getD_map_range _ _ _ hl

private theorem kappa0_getD {B xlim j l : ℕ} (hl : l < xlim) : (kappa0 B xlim j).getD l 0 = Real.sqrt (phi2 B j l) :=
  getD_map_range _ _ _ hl

private theorem kappa_ne_zero {B xlim j l : ℕ} (hB : 2 ≤ B) (hl : l < xlim) : (kappa B xlim j).getD l 0 ≠ 0 ↔ B ^ j < l * B ∧ l < B ^ (j + 1) := by
  rw [kappa_getD hl, ← diff_pos_iff hB, Real.sqrt_ne_zero']

private theorem kappa0_ne_zero {B xlim j l : ℕ} (hB : 2 ≤ B) (hl : l < xlim) : (kappa0 B xlim j).getD l 0 ≠ 0 ↔ l < B ^ j := by
  rw [kappa0_getD hl, ← phi2_ne_zero hB, Real.sqrt_ne_zero']
  exact ⟨fun h => h.ne', fun h => lt_of_le_of_ne (phi2_mem hB _ _).1 (Ne.symm h)⟩

private theorem row_succ {xlim B jMin i : ℕ} (hi : i + jMin ≤ jMax B xlim) :
    (createKappas xlim B jMin)[i + 1]? = some (kappa B xlim (jMin + i)) := by
  simp only [createKappas, List.getElem?_cons_succ, wavelets, List.getElem?_map, List.getElem?_range (show i < jMax B xlim + 1 - jMin by omega),
    Option.map_some]

private theorem kappas_length (xlim B jMin : ℕ) : (createKappas xlim B jMin).length = jMax B xlim + 1 - jMin + 1 := by
  simp [createKappas, wavelets]

private theorem mem_kappas {xlim B jMin : ℕ} {r : List ℝ} (h : r ∈ createKappas xlim B jMin) :
    r = kappa0 B xlim jMin ∨ ∃ i, i + jMin ≤ jMax B xlim ∧ r = kappa B xlim (jMin + i) := by
  simp only [createKappas, wavelets, List.mem_cons, List.mem_map, List.mem_range] at h
  rcases h with h | ⟨i, hi, h⟩
  · exact Or.inl h
  · exact Or.inr ⟨i, by omega, h.symm⟩

private theorem admissible {B : ℕ} (hB : 2 ≤ B) (xlim jMin : ℕ) (hj : jMin ≤ jMax B xlim) {l : ℕ} (hl : l < xlim) :
    ((createKappas xlim B jMin).map fun k => k.getD l 0 ^ 2).sum = 1 := by
  unfold createKappas wavelets
  rw [List.map_cons, List.sum_cons, kappa0_getD hl, Real.sq_sqrt (phi2_mem hB _ _).1, List.map_map]
  have h1 : (List.range (jMax B xlim + 1 - jMin)).map ((fun k : List ℝ => k.getD l 0 ^ 2) ∘ fun i => kappa B xlim (jMin + i)) =
      (List.range (jMax B xlim + 1 - jMin)).map fun i => phi2 B (jMin + i + 1) l - phi2 B (jMin + i) l := by
    refine List.map_congr_left fun i _ => ?_
    simp only [Function.comp_apply]
    rw [kappa_getD hl, Real.sq_sqrt (by linarith [phi2_mono hB (jMin + i) l])]
  rw [h1, telescope, show jMin + (jMax B xlim + 1 - jMin) = jMax B xlim + 1 by omega]
  have h2 : xlim ≤ B ^ jMax B xlim := Nat.le_pow_clog (by omega) xlim
  rw [phi2_one hB (j := jMax B xlim + 1) (by rw [pow_succ]; exact Nat.mul_le_mul_right _ (by omega))]
  ring

/-- C94. The generating functions: the scaling function and the scales `j_min, …, J` with `J = ⌈log_B x⌉`, all between 0 and 1, the squares adding up to 1 at every degree
below the limit.  The scaling function vanishes exactly from `B^j_min` on; scale `j` vanishes exactly outside `B^(j-1) < l < B^(j+1)` and is 1 at `B^j`. -/
theorem C94_tiling (B xlim jMin : ℕ) (hB : 2 ≤ B) (hj : jMin ≤ jMax B xlim) :
    (xlim ≤ B ^ jMax B xlim ∧ ∀ J, xlim ≤ B ^ J → jMax B xlim ≤ J) ∧
    (createKappas xlim B jMin).length = jMax B xlim - jMin + 2 ∧ (∀ k ∈ createKappas xlim B jMin, k.length = xlim) ∧
    (∀ k ∈ createKappas xlim B jMin, ∀ l < xlim, 0 ≤ k.getD l 0 ∧ k.getD l 0 ≤ 1) ∧
    (∀ l < xlim, ((createKappas xlim B jMin).map fun k => k.getD l 0 ^ 2).sum = 1) ∧
    (∃ k, (createKappas xlim B jMin)[0]? = some k ∧ ∀ l < xlim, k.getD l 0 ≠ 0 ↔ l < B ^ jMin) ∧
    ∀ j, jMin ≤ j → j ≤ jMax B xlim → ∃ k, (createKappas xlim B jMin)[j - jMin + 1]? = some k ∧
      (∀ l < xlim, k.getD l 0 ≠ 0 ↔ (B : ℝ) ^ ((j : ℤ) - 1) < l ∧ (l : ℝ) < (B : ℝ) ^ ((j : ℤ) + 1)) ∧ (B ^ j < xlim → k.getD (B ^ j) 0 = 1) := by
  have hb0 : (0 : ℝ) < B := by positivity
  refine ⟨⟨Nat.le_pow_clog (by omega) _, fun J hJ => Nat.clog_le_of_le_pow hJ⟩, by rw [kappas_length]; omega, ?_, ?_, fun l hl => admissible hB xlim jMin hj hl,
    ⟨_, rfl, fun l hl => kappa0_ne_zero hB hl⟩, ?_⟩
  · intro k hk
    rcases mem_kappas hk with rfl | ⟨i, -, rfl⟩ <;> simp [kappa0, kappa]
  · intro k hk l hl
    rcases mem_kappas hk with rfl | ⟨i, -, rfl⟩
    · rw [kappa0_getD hl]
      exact ⟨Real.sqrt_nonneg _, Real.sqrt_le_one.2 (phi2_mem hB _ _).2⟩
    · rw [kappa_getD hl]
      exact ⟨Real.sqrt_nonneg _, Real.sqrt_le_one.2 (by linarith [(phi2_mem hB (jMin + i + 1) l).2, (phi2_mem hB (jMin + i) l).1])⟩
  · intro j h1 h2
    refine ⟨kappa B xlim j, ?_, fun l hl => ?_, fun hl => ?_⟩
    · rw [row_succ (by omega), show jMin + (j - jMin) = j by omega]
    · rw [kappa_ne_zero hB hl, zpow_sub₀ hb0.ne', zpow_add₀ hb0.ne', zpow_one, zpow_natCast, div_lt_iff₀ hb0]
      norm_cast
    · rw [kappa_getD hl, phi2_one hB (j := j + 1) (by rw [pow_succ]), phi2_zero hB le_rfl]
      simp

/-! ### Which scales see a signal -/

private noncomputable def lift (r : List ℝ) : List ℂ := r.map fun x : ℝ => (x : ℂ)

private theorem lift_getD (r : List ℝ) (p : ℕ) : (lift r).getD p 0 = ((r.getD p 0 : ℝ) : ℂ) := by
  simp only [lift, List.getD_eq_getElem?_getD, List.getElem?_map]
  cases r[p]? <;> simp

private theorem complex_wf (xlim B jMin : ℕ) : (complexKappas xlim B jMin).WF := by
  intro r hr
  obtain ⟨k, hk, rfl⟩ := List.mem_map.1 hr
  rcases mem_kappas hk with rfl | ⟨i, -, rfl⟩ <;> simp [kappa0, kappa, complexKappas]

private theorem complex_adm {B : ℕ} (hB : 2 ≤ B) (xlim jMin : ℕ) (hj : jMin ≤ jMax B xlim) {p : ℕ} (hp : p < xlim) :
    ((complexKappas xlim B jMin).rows.map fun psi => ‖psi.getD p 0‖ ^ 2).sum = 1 := by
  rw [← admissible hB xlim jMin hj hp]
  unfold complexKappas
  rw [List.map_map]
  congr 1
  refine List.map_congr_left fun k _ => ?_
  have := lift_getD k p
  unfold lift at this
  simp only [Function.comp_apply, this, norm_real, Real.norm_eq_abs, sq_abs]

/-- the first rank at which scale `j` does not vanish. -/
private theorem first_rank {B j : ℕ} (hB : 2 ≤ B) : B ^ j < (B ^ j / B + 1) * B ∧ B ^ j / B + 1 < B ^ (j + 1) ∧ ∀ l, B ^ j < l * B → B ^ j / B + 1 ≤ l := by
  refine ⟨?_, ?_, fun l hl => ?_⟩
  · have := Nat.lt_mul_div_succ (B ^ j) (show 0 < B by omega)
    rwa [mul_comm] at this
  · have h1 : B ^ j / B ≤ B ^ j / 2 := Nat.div_le_div_left hB (by norm_num)
    have h2 : 1 ≤ B ^ j := Nat.one_le_pow _ _ (by omega)
    have h3 : B ^ j * 2 ≤ B ^ (j + 1) := by rw [pow_succ]; exact Nat.mul_le_mul_left _ hB
    omega
  · have := (Nat.div_lt_iff_lt_mul (show 0 < B by omega)).2 hl
    omega

private theorem seen_kappa {B xlim j n : ℕ} (hB : 2 ≤ B) (hn : n ≤ xlim) {f : List ℂ} (hf : ∀ p < n, f.getD p 0 ≠ 0) :
    Seen f n (lift (kappa B xlim j)) ↔ B ^ j / B + 1 < n := by
  obtain ⟨h1, h2, h3⟩ := first_rank (j := j) hB
  unfold Seen
  constructor
  · rintro ⟨p, hp, hne⟩
    have hk : (kappa B xlim j).getD p 0 ≠ 0 := fun h0 => hne (by rw [lift_getD, h0]; simp)
    have := h3 p ((kappa_ne_zero hB (by omega)).1 hk).1
    omega
  · intro hlt
    refine ⟨_, hlt, mul_ne_zero ?_ (hf _ hlt)⟩
    rw [lift_getD]
    exact_mod_cast (kappa_ne_zero hB (by omega)).2 ⟨h1, h2⟩

private theorem seen_kappa0 {B xlim j n : ℕ} (hB : 2 ≤ B) (hn : n ≤ xlim) (h0 : 0 < n) {f : List ℂ} (hf : ∀ p < n, f.getD p 0 ≠ 0) :
    Seen f n (lift (kappa0 B xlim j)) := by
  refine ⟨0, h0, mul_ne_zero ?_ (hf _ h0)⟩
  rw [lift_getD]
  exact_mod_cast (kappa0_ne_zero hB (by omega)).2 (Nat.pow_pos (by omega))

/-- the rows split into those that see the signal and those that do not. -/
private theorem split_rows {B xlim jMin n : ℕ} (hB : 2 ≤ B) (hn : n ≤ xlim) (h0 : 0 < n) {f : List ℂ} (hf : ∀ p < n, f.getD p 0 ≠ 0) :
    ∃ s, s ≤ jMax B xlim + 1 - jMin ∧ (∀ i, i < jMax B xlim + 1 - jMin → (i < s ↔ B ^ (jMin + i) / B + 1 < n)) ∧
      (complexKappas xlim B jMin).rows = ((complexKappas xlim B jMin).rows.take (s + 1)) ++ ((complexKappas xlim B jMin).rows.drop (s + 1)) ∧
      (∀ psi ∈ (complexKappas xlim B jMin).rows.take (s + 1), Seen f n psi) ∧ ∀ psi ∈ (complexKappas xlim B jMin).rows.drop (s + 1), ¬ Seen f n psi := by
  classical
  set m := jMax B xlim + 1 - jMin with hm
  have hmono : ∀ i i', i ≤ i' → B ^ (jMin + i') / B + 1 < n → B ^ (jMin + i) / B + 1 < n := by
    intro i i' hi h
    have : B ^ (jMin + i) / B ≤ B ^ (jMin + i') / B := Nat.div_le_div_right (Nat.pow_le_pow_right (by omega) (by omega))
    omega
  obtain ⟨s, hs, hiff⟩ : ∃ s, s ≤ m ∧ ∀ i, i < m → (i < s ↔ B ^ (jMin + i) / B + 1 < n) := by
    by_cases h : ∃ i, i < m ∧ ¬ B ^ (jMin + i) / B + 1 < n
    · refine ⟨Nat.find h, (Nat.find_spec h).1.le, fun i hi => ⟨fun hlt => ?_, fun hsee => ?_⟩⟩
      · by_contra hn'
        exact Nat.find_min h hlt ⟨hi, hn'⟩
      · by_contra hn'
        exact (Nat.find_spec h).2 (hmono _ i (not_lt.1 hn') hsee)
    · push Not at h
      exact ⟨m, le_rfl, fun i hi => ⟨fun _ => h i hi, fun _ => hi⟩⟩
  have hrows : (complexKappas xlim B jMin).rows = lift (kappa0 B xlim jMin) :: (List.range m).map fun i => lift (kappa B xlim (jMin + i)) := by
    simp only [complexKappas, createKappas, wavelets, List.map_cons, List.map_map]
    rfl
  refine ⟨s, hs, hiff, (List.take_append_drop _ _).symm, ?_, ?_⟩
  · intro psi hpsi
    rw [hrows, List.take_succ_cons, ← List.map_take, List.take_range, List.mem_cons, List.mem_map] at hpsi
    rcases hpsi with rfl | ⟨i, hi, rfl⟩
    · exact seen_kappa0 hB hn h0 hf
    · rw [List.mem_range] at hi
      exact (seen_kappa hB hn hf).2 ((hiff i (by omega)).1 (by omega))
  · intro psi hpsi hsee
    rw [hrows, List.drop_succ_cons, ← List.map_drop, List.mem_map] at hpsi
    obtain ⟨i, hi, rfl⟩ := hpsi
    obtain ⟨k, hk, hki⟩ := List.getElem_of_mem hi
    rw [List.length_drop, List.length_range] at hk
    rw [List.getElem_drop, List.getElem_range] at hki
    have := (hiff i (by omega)).2 ((seen_kappa hB hn hf).1 hsee)
    omega

/-- C94. A signal with no zero among its first `N` Slepian coefficients: its wavelet coefficients have one row for the scaling function and one for each of the scales
`j_min, …` up to the last that reaches a rank below `N`, in order, so that the row labelled `j` is that of scale `j`; and synthesis gives the signal back. -/
theorem C94_slepian_transform (B xlim jMin N : ℕ) (hB : 2 ≤ B) (hj : jMin ≤ jMax B xlim) (hN : 0 < N) (hx : N ≤ xlim) (f : List ℂ) (hl : N ≤ f.length)
    (hf : ∀ p < N, f.getD p 0 ≠ 0) :
    ∃ w, Wavelets.slepianForward f (complexKappas xlim B jMin) N = .ok w ∧ Wavelets.slepianInverse w (complexKappas xlim B jMin) N = .ok (f.take N) ∧
      (∀ i < w.rows.length, ∃ k row, (createKappas xlim B jMin)[i]? = some k ∧ w.rows[i]? = some row ∧ row.length = N ∧
        ∀ p < N, row.getD p 0 = k.getD p 0 * (starRingEnd ℂ) (f.getD p 0)) ∧
      1 ≤ w.rows.length ∧ ∀ j, jMin ≤ j → j ≤ jMax B xlim → (j - jMin + 1 < w.rows.length ↔ ∃ p < N, (B : ℝ) ^ ((j : ℤ) - 1) < p) := by
  classical
  obtain ⟨s, hs, hiff, hsplit, hA, hD⟩ := split_rows (jMin := jMin) hB hx hN hf
  obtain ⟨w, hw1, hw2⟩ := C27_round_trip_partial f _ (complex_wf xlim B jMin) N hl hx (fun p hp => complex_adm hB xlim jMin hj (by omega)) _ _ hsplit hA hD
  have hw3 := slepianForward_eq f _ (complex_wf xlim B jMin) N hl hx
  have hkept : ((complexKappas xlim B jMin).rows.filter fun psi => decide (Seen f N psi)) = (complexKappas xlim B jMin).rows.take (s + 1) := by
    conv_lhs => rw [hsplit]
    rw [List.filter_append, List.filter_eq_self.2 (by simpa using hA), List.filter_eq_nil_iff.2 (by simpa using hD), List.append_nil]
  rw [hkept, hw1] at hw3
  obtain rfl := Except.ok.inj hw3
  have hrl : (complexKappas xlim B jMin).rows.length = jMax B xlim + 1 - jMin + 1 := by
    unfold complexKappas
    rw [List.length_map, kappas_length]
  refine ⟨_, hw1, hw2, ?_, ?_, ?_⟩
  · intro i hi
    simp only [List.length_map, List.length_take] at hi
    have hi' : i < (createKappas xlim B jMin).length := by rw [kappas_length]; omega
    refine ⟨_, waveletRow f N (lift (createKappas xlim B jMin)[i]), List.getElem?_eq_getElem hi', ?_, by simp [waveletRow], fun p hp => ?_⟩
    · simp only [List.getElem?_map, List.getElem?_take]
      rw [if_pos (by omega)]
      simp only [complexKappas, List.getElem?_map, List.getElem?_eq_getElem hi', Option.map_some]
      rfl
    · unfold waveletRow
      rw [getD_map_range _ _ _ hp, lift_getD]
  · simp [hrl]
  · intro j h1 h2
    have hb0 : (0 : ℝ) < B := by positivity
    have h3 := hiff (j - jMin) (by omega)
    rw [show jMin + (j - jMin) = j by omega] at h3
    simp only [List.length_map, List.length_take, hrl]
    have h4 : j - jMin + 1 < min (s + 1) (jMax B xlim + 1 - jMin + 1) ↔ j - jMin < s := by omega
    rw [h4, h3]
    obtain ⟨g1, g2, g3⟩ := first_rank (j := j) hB
    have hcast : ∀ p : ℕ, (B : ℝ) ^ ((j : ℤ) - 1) < p ↔ B ^ j < p * B := by
      intro p
      rw [zpow_sub₀ hb0.ne', zpow_one, zpow_natCast, div_lt_iff₀ hb0]
      norm_cast
    constructor
    · exact fun h => ⟨_, h, (hcast _).2 g1⟩
    · rintro ⟨p, hp, hlt⟩
      have := g3 p ((hcast p).1 hlt)
      omega

private theorem mapM_length {α β : Type} (g : α → Except Err β) : ∀ (xs : List α) (ys : List β), xs.mapM g = .ok ys → ys.length = xs.length := by
  intro xs
  induction xs with
  | nil => intro ys h; cases h; rfl
  | cons x xs ih =>
    intro ys h
    rw [List.mapM_cons] at h
    cases hx : g x with
    | error e => simp [hx, bind, Except.bind] at h
    | ok y =>
      cases hxs : xs.mapM g with
      | error e => simp [hx, hxs, bind, Except.bind] at h
      | ok zs =>
        simp only [hx, hxs, bind, Except.bind, pure, Except.pure, Except.ok.injEq] at h
        subst h
        simp [ih zs hxs]

/-- C94. On the whole sphere the wavelet transform of any coefficients is inverted exactly. -/
theorem C94_axisymmetric_transform (B L jMin : ℕ) (hB : 2 ≤ B) (hj : jMin ≤ jMax B L) (flm : List ℂ) (hf : flm.length = L ^ 2) :
    ∃ wavelets w, createAxisym L (createKappas L B jMin) = .ok wavelets ∧ axisymForward L flm wavelets = .ok w ∧ w.length = jMax B L - jMin + 2 ∧
      axisymInverse L w wavelets = .ok flm := by
  obtain ⟨-, hlen, hrow, -, hadm, -⟩ := C94_tiling B L jMin hB hj
  obtain ⟨ws, w, out, h1, h2, h3, -, -, h5⟩ := C26_axisymmetric_round_trip L (createKappas L B jMin) (fun k hk => (hrow k hk).ge) flm hf
  obtain rfl := h5 hadm
  refine ⟨ws, w, h1, h2, ?_, h3⟩
  rw [mapM_length _ _ _ h2, mapM_length _ _ _ h1, hlen]

/-- C94. Asking for scale `j` of a signal with no zero among its first `N` coefficients: accepted for `0 ≤ j ≤ J - j_min` only; then the coefficients are those of the wavelet
that is 1 at rank `B^(j + j_min)` when it reaches a rank below `N`, and `IndexError` otherwise. -/
theorem C94_selected_scale (B xlim jMin N : ℕ) (hB : 2 ≤ B) (hj : jMin ≤ jMax B xlim) (hN : 0 < N) (hx : N ≤ xlim) (f : List ℂ) (hl : N ≤ f.length)
    (hf : ∀ p < N, f.getD p 0 ≠ 0) (j : ℤ) :
    let select := (checkJ (jMax B xlim) jMin (some j)).bind (selectCoefficients f (complexKappas xlim B jMin) N)
    (¬ (0 ≤ j ∧ j + jMin ≤ jMax B xlim) → select = .error .valueError) ∧
    (0 ≤ j ∧ j + jMin ≤ jMax B xlim → (¬ (∃ p < N, (B : ℝ) ^ (j + jMin - 1) < p) → select = .error .indexError) ∧
      ((∃ p < N, (B : ℝ) ^ (j + jMin - 1) < p) → ∃ (row : List ℂ) (k : ℕ → ℝ), select = .ok row ∧ row.length = N ∧
        (∀ p < N, row.getD p 0 = ((k p : ℝ) : ℂ) * (starRingEnd ℂ) (f.getD p 0)) ∧
        (∀ p < N, k p ≠ 0 ↔ (B : ℝ) ^ (j + jMin - 1) < p ∧ (p : ℝ) < (B : ℝ) ^ (j + jMin + 1)) ∧ ∀ p < N, (p : ℝ) = (B : ℝ) ^ (j + jMin) → k p = 1)) := by
  intro select
  constructor
  · intro h
    simp only [select, checkJ]
    by_cases h0 : j < 0
    · rw [if_pos h0]; rfl
    · rw [if_neg h0, if_pos (by omega)]; rfl
  · rintro ⟨h0, h1⟩
    obtain ⟨i, rfl⟩ := Int.eq_ofNat_of_zero_le h0
    obtain ⟨w, hw, -, hrows, hpos, hcount⟩ := C94_slepian_transform B xlim jMin N hB hj hN hx f hl hf
    have hsel : select = item w.rows (i + 1) := by
      simp only [select, checkJ]
      rw [if_neg (by omega), if_neg (by omega)]
      simp only [Except.bind, selectCoefficients, hw, bind, jth, Int.toNat_natCast]
    have hc := hcount (jMin + i) (by omega) (by omega)
    rw [show jMin + i - jMin + 1 = i + 1 by omega] at hc
    have he : ((jMin + i : ℕ) : ℤ) = (i : ℤ) + jMin := by push_cast; ring
    rw [he] at hc
    refine ⟨fun hno => ?_, fun hyes => ?_⟩
    · rw [hsel, item_of_ge _ _ (by by_contra hlt; exact hno (hc.1 (by omega)))]
    · have hlt := hc.2 hyes
      obtain ⟨k, row, hk, hr, hrl, hv⟩ := hrows (i + 1) hlt
      obtain ⟨-, -, -, -, -, -, hsc⟩ := C94_tiling B xlim jMin hB hj
      obtain ⟨k', hk', hs, hone⟩ := hsc (jMin + i) (by omega) (by omega)
      rw [show jMin + i - jMin + 1 = i + 1 by omega, hk] at hk'
      obtain rfl := Option.some.inj hk'
      rw [he] at hs
      refine ⟨row, fun p => k.getD p 0, ?_, hrl, hv, fun p hp => hs p (by omega), fun p hp hpe => ?_⟩
      · rw [hsel, item_of_lt _ _ hlt]
        rw [List.getElem?_eq_getElem hlt] at hr
        rw [Option.some.inj hr]
      · have hpB : p = B ^ (jMin + i) := by
          rw [← he, zpow_natCast] at hpe
          exact_mod_cast hpe
        dsimp only
        rw [hpB]
        exact hone (by omega)

/-- C27, violated with the wavelets of S2LET: a signal whose coefficients vanish below `B^j_min` but not there is not recovered: the reconstruction vanishes at `B^j_min`. -/
theorem C27_s2let_violation (B xlim jMin N : ℕ) (hB : 2 ≤ B) (hj : jMin ≤ jMax B xlim) (hN : B ^ jMin < N) (hx : N ≤ xlim) (f : List ℂ) (hl : N ≤ f.length)
    (hz : ∀ p < B ^ jMin, f.getD p 0 = 0) (hne : f.getD (B ^ jMin) 0 ≠ 0) :
    ∃ w out, Wavelets.slepianForward f (complexKappas xlim B jMin) N = .ok w ∧ Wavelets.slepianInverse w (complexKappas xlim B jMin) N = .ok out ∧
      out.getD (B ^ jMin) 0 = 0 ∧ out ≠ f.take N := by
  classical
  obtain ⟨w, out, h1, h2, hlo, hv⟩ := C27_round_trip_formula f _ (complex_wf xlim B jMin) N hl hx
  set P := B ^ jMin with hP
  have hrows : (complexKappas xlim B jMin).rows = lift (kappa0 B xlim jMin) ::
      (List.range (jMax B xlim + 1 - jMin)).map fun i => lift (kappa B xlim (jMin + i)) := by
    simp only [complexKappas, createKappas, wavelets, List.map_cons, List.map_map]
    rfl
  obtain ⟨m, hm⟩ : ∃ m, jMax B xlim + 1 - jMin = m + 1 := ⟨jMax B xlim - jMin, by omega⟩
  have hun : ¬ Seen f N (lift (kappa0 B xlim jMin)) := by
    rintro ⟨p, hp, hs⟩
    by_cases hpP : p < P
    · exact hs (by rw [hz p hpP, mul_zero])
    · have : (kappa0 B xlim jMin).getD p 0 = 0 := by
        by_contra hk
        exact hpP ((kappa0_ne_zero hB (by omega)).1 hk)
      exact hs (by rw [lift_getD, this]; simp)
  have hsee : Seen f N (lift (kappa B xlim jMin)) := by
    refine ⟨P, hN, mul_ne_zero ?_ hne⟩
    rw [lift_getD]
    have h3 : 1 ≤ P := Nat.one_le_pow _ _ (by omega)
    exact_mod_cast (kappa_ne_zero hB (by omega)).2 ⟨by rw [← hP]; nlinarith, by rw [pow_succ, ← hP]; nlinarith⟩
  have hzero : ∀ i, (lift (kappa B xlim (jMin + (i + 1)))).getD P 0 = 0 := by
    intro i
    rw [lift_getD]
    have : (kappa B xlim (jMin + (i + 1))).getD P 0 = 0 := by
      by_contra hk
      have := ((kappa_ne_zero hB (by omega)).1 hk).1
      rw [hP, ← pow_succ] at this
      exact absurd this (not_lt.2 (Nat.pow_le_pow_right (by omega) (by omega)))
    rw [this]; rfl
  have h0 : (lift (kappa0 B xlim jMin)).getD P 0 = 0 := by
    rw [lift_getD]
    have : (kappa0 B xlim jMin).getD P 0 = 0 := by
      by_contra hk
      exact absurd ((kappa0_ne_zero hB (by omega)).1 hk) (lt_irrefl _)
    rw [this]; rfl
  have hout : out.getD P 0 = 0 := by
    rw [hv P hN, hrows, hm, List.range_succ_eq_map, List.map_cons, List.filter_cons, if_neg (by simpa using hun), List.filter_cons,
      if_pos (by simpa using hsee), List.zipWith_cons_cons, h0, zero_mul, List.sum_cons, zero_add]
    have : ∀ (a b : List (List ℂ)), (∀ x ∈ b, x.getD P 0 = 0) →
        (List.zipWith (fun (a b : List ℂ) => a.getD P 0 * (starRingEnd ℂ) (b.getD P 0)) a b).sum = 0 := by
      intro a b hb
      apply List.sum_eq_zero
      intro y hy
      obtain ⟨i, hi, rfl⟩ := List.getElem_of_mem hy
      rw [List.getElem_zipWith, hb _ (List.getElem_mem _), map_zero, mul_zero]
    rw [this, mul_zero]
    intro x hx'
    obtain ⟨i, hi, rfl⟩ := List.mem_map.1 (List.mem_of_mem_filter hx')
    obtain ⟨i', -, rfl⟩ := List.mem_map.1 hi
    exact hzero i'
  refine ⟨w, out, h1, h2, hout, fun he => hne ?_⟩
  have : (f.take N).getD P 0 = f.getD P 0 := by simp [List.getD_eq_getElem?_getD, List.getElem?_take, hN]
  rw [← this, ← he]
  exact hout

/-- a signal that vanishes below `B^j_min` but not there: the first row kept is that of scale `j_min`. -/
theorem shifted_row (B xlim jMin N : ℕ) (hB : 2 ≤ B) (hj : jMin ≤ jMax B xlim) (hN : B ^ jMin < N) (hx : N ≤ xlim) (f : List ℂ) (hl : N ≤ f.length)
    (hz : ∀ p < B ^ jMin, f.getD p 0 = 0) (hne : f.getD (B ^ jMin) 0 ≠ 0) :
    ∃ (w : Array2 ℂ) (k : List ℝ) (row : List ℂ), Wavelets.slepianForward f (complexKappas xlim B jMin) N = .ok w ∧ (createKappas xlim B jMin)[1]? = some k ∧ w.rows[0]? = some row ∧
      row.length = N ∧ ∀ p < N, row.getD p 0 = k.getD p 0 * (starRingEnd ℂ) (f.getD p 0) := by
  classical
  have hw := slepianForward_eq f _ (complex_wf xlim B jMin) N hl hx
  have hrows : (complexKappas xlim B jMin).rows = lift (kappa0 B xlim jMin) ::
      (List.range (jMax B xlim + 1 - jMin)).map fun i => lift (kappa B xlim (jMin + i)) := by
    simp only [complexKappas, createKappas, wavelets, List.map_cons, List.map_map]
    rfl
  obtain ⟨m, hm⟩ : ∃ m, jMax B xlim + 1 - jMin = m + 1 := ⟨jMax B xlim - jMin, by omega⟩
  have hun : ¬ Seen f N (lift (kappa0 B xlim jMin)) := by
    rintro ⟨p, hp, hs⟩
    by_cases hpP : p < B ^ jMin
    · exact hs (by rw [hz p hpP, mul_zero])
    · have : (kappa0 B xlim jMin).getD p 0 = 0 := by
        by_contra hk
        exact hpP ((kappa0_ne_zero hB (by omega)).1 hk)
      exact hs (by rw [lift_getD, this]; simp)
  have hsee : Seen f N (lift (kappa B xlim jMin)) := by
    refine ⟨B ^ jMin, hN, mul_ne_zero ?_ hne⟩
    rw [lift_getD]
    have h3 : 1 ≤ B ^ jMin := Nat.one_le_pow _ _ (by omega)
    exact_mod_cast (kappa_ne_zero hB (by omega)).2 ⟨by nlinarith, by rw [pow_succ]; nlinarith⟩
  refine ⟨_, kappa B xlim jMin, waveletRow f N (lift (kappa B xlim jMin)), hw, row_succ (by omega), ?_, by simp [waveletRow], fun p hp => ?_⟩
  · rw [hrows, hm, List.range_succ_eq_map, List.map_cons, List.filter_cons, if_neg (by simpa using hun), List.filter_cons, if_pos (by simpa using hsee)]
    rfl
  · unfold waveletRow
    rw [getD_map_range _ _ _ hp, lift_getD]

/-- base 3 and smallest scale 2 (the defaults) on a line of 16384 ranks with 91 in the region: the hypotheses are met. -/
example : ∃ w, Wavelets.slepianForward (List.replicate 91 1) (complexKappas 16384 3 2) (91 : ℕ) = .ok w ∧
    Wavelets.slepianInverse w (complexKappas 16384 3 2) (91 : ℕ) = .ok (List.replicate 91 1) := by
  have hJ : 2 ≤ jMax 3 16384 := by
    unfold jMax
    exact Nat.succ_le_of_lt ((Nat.lt_clog_iff_pow_lt (by norm_num)).2 (by norm_num))
  obtain ⟨w, h1, h2, -⟩ := C94_slepian_transform 3 16384 2 91 (by norm_num) hJ (by norm_num) (by norm_num) (List.replicate 91 1) (by simp)
    (fun p hp => by rw [List.getD_eq_getElem?_getD, List.getElem?_replicate, if_pos hp]; exact one_ne_zero)
  exact ⟨w, h1, by simpa using h2⟩

/-- base 2 from scale 0, two ranks: the signal `[0, 1]` is lost. -/
example : ∃ w out, Wavelets.slepianForward [0, 1] (complexKappas 2 2 0) (2 : ℕ) = .ok w ∧
    Wavelets.slepianInverse w (complexKappas 2 2 0) (2 : ℕ) = .ok out ∧ out ≠ [0, 1] := by
  obtain ⟨w, out, h1, h2, -, h3⟩ := C27_s2let_violation 2 2 0 2 le_rfl (Nat.zero_le _) (by norm_num) le_rfl [0, 1] le_rfl
    (fun p hp => by obtain rfl : p = 0 := by simpa using hp
                    rfl) one_ne_zero
  exact ⟨w, out, h1, h2, h3⟩

/-- the same wavelets on the sphere. -/
example (flm : List ℂ) (hf : flm.length = 4 ^ 2) : ∃ wavelets w, createAxisym 4 (createKappas 4 2 1) = .ok wavelets ∧ axisymForward 4 flm wavelets = .ok w ∧
    axisymInverse 4 w wavelets = .ok flm := by
  obtain ⟨ws, w, h1, h2, -, h3⟩ := C94_axisymmetric_transform 2 4 1 le_rfl (Nat.succ_le_of_lt ((Nat.lt_clog_iff_pow_lt (by norm_num)).2 (by norm_num))) flm hf
  exact ⟨ws, w, h1, h2, h3⟩

end Sleplet.Props
