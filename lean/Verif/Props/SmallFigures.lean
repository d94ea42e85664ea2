import Mathlib.Tactic.Linarith
import Mathlib.Tactic.FieldSimp
import Mathlib.Tactic.Ring
import Mathlib.Tactic.IntervalCases
import Verif.Model.SmallFigures
import Verif.Lemmas.Writes
import Verif.Props.Plot

/-! C101: the figure of the region of a mesh.  C102: the figure of Ricker wavelets. -/
namespace Sleplet.Props

open Plot SmallFigures

/-- C101. The figure of the region gives every face with its three corners in the region the value 1, the top of the colour bar, and every other face the value that is
not drawn. -/
theorem C101_region (faces : List (ℕ × ℕ × ℕ)) (region : List Bool) (h0 : region ≠ []) :
    regionFigure faces region = .ok (some (faces.map fun t =>
      if region[t.1]? = some true ∧ region[t.2.1]? = some true ∧ region[t.2.2]? = some true then 1 else meshUnseen, 0, 1)) := by
  classical
  set f : List ℝ := region.map fun b => if b then 1 else 0 with hfd
  have hne : f ≠ [] := by simpa [hfd] using h0
  obtain ⟨mn, hmn⟩ : ∃ m, amin f = .ok m := by
    cases hc : f with
    | nil => exact absurd hc hne
    | cons a as => exact ⟨_, rfl⟩
  obtain ⟨mx, hmx⟩ : ∃ m, amax f = .ok m := by
    cases hc : f with
    | nil => exact absurd hc hne
    | cons a as => exact ⟨_, rfl⟩
  set In : ℕ × ℕ × ℕ → Prop := fun t => region[t.1]? = some true ∧ region[t.2.1]? = some true ∧ region[t.2.2]? = some true with hIn
  have hv : ∀ v, f.getD v 0 = if region[v]? = some true then 1 else 0 := by
    intro v
    rw [List.getD_eq_getElem?_getD, hfd, List.getElem?_map]
    rcases region[v]? with _ | _ | _ <;> simp
  set avg : ℕ × ℕ × ℕ → ℝ := averageOntoFace fun v => f.getD v 0 with havg
  have hav1 : ∀ t, In t → avg t = 1 := by
    rintro t ⟨h1, h2, h3⟩
    simp only [havg, averageOntoFace, hv, h1, h2, h3, if_true]
    norm_num
  have havb : ∀ t, 0 ≤ avg t ∧ avg t ≤ 1 := by
    intro t
    simp only [havg, averageOntoFace, hv]
    have : ∀ v : ℕ, (0 : ℝ) ≤ (if region[v]? = some true then 1 else 0) ∧ (if region[v]? = some true then (1 : ℝ) else 0) ≤ 1 := by
      intro v; split <;> norm_num
    have a := this t.1
    have b := this t.2.1
    have c := this t.2.2
    constructor <;> linarith [a.1, a.2, b.1, b.2, c.1, c.2]
  -- the normalised values
  obtain ⟨g, hg, hg1⟩ : ∃ g : ℕ × ℕ × ℕ → ℝ, normaliseFunction (faces.map avg) true = .ok ((faces.map g).map some) ∧ ∀ t ∈ faces, In t → g t = 1 := by
    obtain ⟨-, n1, n2⟩ := C42_normalise (faces.map avg)
    by_cases hz : ∀ x ∈ faces.map avg, x = 0
    · refine ⟨fun _ => 1 / 2, by rw [n1 hz]; simp [List.map_map, Function.comp_def], fun t ht hi => ?_⟩
      have := hz _ (List.mem_map_of_mem ht)
      rw [hav1 t hi] at this
      norm_num at this
    · push Not at hz
      have hnef : faces.map avg ≠ [] := by
        obtain ⟨x, hx, -⟩ := hz
        exact List.ne_nil_of_mem hx
      obtain ⟨M, hM⟩ : ∃ m, amax (faces.map avg) = .ok m := by
        cases hc : faces.map avg with
        | nil => exact absurd hc hnef
        | cons a as => exact ⟨_, rfl⟩
      obtain ⟨m, hm⟩ : ∃ m, amin (faces.map avg) = .ok m := by
        cases hc : faces.map avg with
        | nil => exact absurd hc hnef
        | cons a as => exact ⟨_, rfl⟩
      obtain ⟨M1, M2⟩ := amax_spec hM
      obtain ⟨m1, m2⟩ := amin_spec hm
      have hM1 : M ≤ 1 := by
        obtain ⟨t, -, rfl⟩ := List.mem_map.1 M1
        exact (havb t).2
      have hMp : 0 < M := by
        obtain ⟨x, hx, hx0⟩ := hz
        have := M2 x hx
        obtain ⟨t, -, rfl⟩ := List.mem_map.1 hx
        exact lt_of_lt_of_le (lt_of_le_of_ne (havb t).1 (Ne.symm hx0)) this
      have hMe : ∀ t ∈ faces, In t → M = 1 := fun t ht hi => le_antisymm hM1 (by rw [← hav1 t hi]; exact M2 _ (List.mem_map_of_mem ht))
      obtain ⟨b1, b2⟩ := n2 m M m1 M1 fun x hx => ⟨m2 x hx, M2 x hx⟩
      by_cases hc : ∃ x ∈ faces.map avg, 1 / 10 ^ 8 + 1 / 10 ^ 5 * |M| < |x - M|
      · obtain ⟨c1, c2, -⟩ := b1 hc
        refine ⟨fun t => (avg t - m) / (M - m), by rw [c1]; simp [Function.comp_def], fun t ht hi => ?_⟩
        dsimp only
        rw [hav1 t hi, hMe t ht hi]
        have := hMe t ht hi
        exact div_self (by linarith)
      · push Not at hc
        refine ⟨fun t => avg t / M, by rw [b2 hc hz]; simp [hMp.ne', Function.comp_def], fun t ht hi => ?_⟩
        dsimp only
        rw [hav1 t hi, hMe t ht hi, div_one]
  have hconv : convertRegionToFaces region faces = faces.map fun t => if In t then 1 else 0 := by
    simp only [convertRegionToFaces]
    refine List.map_congr_left fun t _ => ?_
    have hin : ∀ v, ((List.range region.length).filter fun v => region.getD v false).contains v = decide (region[v]? = some true) := by
      intro v
      rw [Bool.eq_iff_iff]
      simp only [List.contains_iff_mem, List.mem_filter, List.mem_range, decide_eq_true_eq, List.getD_eq_getElem?_getD]
      constructor
      · rintro ⟨h1, h2⟩
        rw [List.getElem?_eq_getElem h1] at h2 ⊢
        simpa using h2
      · intro h
        exact ⟨(List.getElem?_eq_some_iff.1 h).1, by simp [h]⟩
    simp only [hin, hIn, Bool.and_eq_true, decide_eq_true_eq, and_assoc]
  unfold regionFigure executeMesh
  simp only [← hfd, hmn, hmx, ← havg, hg, bind, Except.bind, pure, Except.pure]
  rw [mapM_id_map_some]
  simp only [if_true, setOutsideRegionMesh, hconv]
  rw [NumPy.broadcast_of_length_eq _ _ _ (by simp), List.zipWith_map, List.zipWith_self]
  simp only [Except.ok.injEq, Option.some.injEq, Prod.mk.injEq, and_true]
  refine List.map_congr_left fun t ht => ?_
  by_cases hi : In t
  · rw [if_pos hi, if_pos hi, if_pos (by norm_num), hg1 t ht hi]
  · rw [if_neg hi, if_neg hi, if_neg (by simp)]

/-- two faces, one of them inside. -/
example : regionFigure [(0, 1, 2), (1, 2, 3)] [true, true, true, false] = .ok (some ([1, meshUnseen], 0, 1)) := by
  rw [C101_region _ _ (by simp)]
  simp

/-- C101. Without vertices there is no figure. -/
theorem C101_empty (faces : List (ℕ × ℕ × ℕ)) : regionFigure faces [] = .error .valueError := rfl

/-! ### Ricker wavelets -/

private theorem count (x : ℝ) (hx : 1 ≤ x) : (⌈x - 1 / 2⌉.toNat = ⌊x⌋.toNat ↔ x - ⌊x⌋ ≤ 1 / 2) ∧ (1 / 2 < x - ⌊x⌋ → ⌈x - 1 / 2⌉.toNat = ⌊x⌋.toNat + 1) := by
  have h1 : 1 ≤ ⌊x⌋ := Int.le_floor.2 (by exact_mod_cast hx)
  have h2 := Int.floor_le x
  have h3 := Int.lt_floor_add_one x
  by_cases h : x - ⌊x⌋ ≤ 1 / 2
  · have : ⌈x - 1 / 2⌉ = ⌊x⌋ := by
      rw [Int.ceil_eq_iff]
      constructor <;> linarith
    rw [this]
    exact ⟨⟨fun _ => h, fun _ => rfl⟩, fun h' => absurd h (not_le.2 h')⟩
  · push Not at h
    have : ⌈x - 1 / 2⌉ = ⌊x⌋ + 1 := by
      rw [Int.ceil_eq_iff]
      push_cast
      constructor <;> linarith
    rw [this]
    have e : (⌊x⌋ + 1).toNat = ⌊x⌋.toNat + 1 := by omega
    rw [e]
    exact ⟨⟨fun h' => by omega, fun h' => by linarith⟩, fun _ => rfl⟩

private theorem ricker_length (length dt f : ℝ) (hd : 0 < dt) : (ricker length dt f).length = ⌈length / dt - 1 / 2⌉.toNat := by
  have : ((length - dt) / 2 - -length / 2) / dt = length / dt - 1 / 2 := by field_simp; ring
  simp [ricker, arange, this]

private theorem ricker_get (length dt f : ℝ) (hd : 0 < dt) (k : ℕ) (hk : k < ⌈length / dt - 1 / 2⌉.toNat) :
    (ricker length dt f)[k]? = some ((1 - 2 * (Real.pi * f * (k * dt - length / 2)) ^ 2) * Real.exp (-(Real.pi * f * (k * dt - length / 2)) ^ 2)) := by
  have : ((length - dt) / 2 - -length / 2) / dt = length / dt - 1 / 2 := by field_simp; ring
  simp only [ricker, arange, this, List.map_map, List.getElem?_map, List.getElem?_range hk, Option.map_some, Function.comp_apply, Option.some.injEq]
  ring_nf

private theorem flatten_get {α : Type} (n : ℕ) (bs : List (List α)) (hb : ∀ b ∈ bs, b.length = n) (c k : ℕ) (hk : k < n) :
    bs.flatten[n * c + k]? = (bs[c]?).bind fun b => b[k]? := by
  induction bs generalizing c with
  | nil => simp
  | cons b bs ih =>
    have hl := hb b (by simp)
    rw [List.flatten_cons]
    cases c with
    | zero => rw [List.getElem?_append_left (by omega)]; simp
    | succ c =>
      rw [List.getElem?_append_right (by rw [hl, Nat.mul_succ]; omega), hl]
      rw [show n * (c + 1) + k - n = n * c + k by rw [Nat.mul_succ]; omega, ih (fun b' h => hb b' (by simp [h]))]
      simp

private theorem flatten_len {α : Type} (n : ℕ) (bs : List (List α)) (hb : ∀ b ∈ bs, b.length = n) : bs.flatten.length = n * bs.length := by
  induction bs with
  | nil => simp
  | cons b bs ih =>
    rw [List.flatten_cons, List.length_append, hb b (by simp), ih fun b' h => hb b' (by simp [h]), List.length_cons, Nat.mul_succ, Nat.add_comm]

/-- C102. When the length is a whole number of steps and up to half a step, the figure shows the wavelets of the frequencies one after the other, each sampled at the times
`k dt - length/2`. -/
theorem C102_samples (length dt : ℝ) (fs : List ℝ) (hd : 0 < dt) (n : ℕ) (hn : 1 ≤ n) (h1 : n * dt ≤ length) (h2 : length ≤ (n + 1 / 2) * dt) :
    ∃ ys, rickerFigure length dt fs = .ok ys ∧ ys.length = n * fs.length ∧ ∀ c f, fs[c]? = some f → ∀ k < n, ys[n * c + k]? =
      some ((1 - 2 * (Real.pi * f * (k * dt - length / 2)) ^ 2) * Real.exp (-(Real.pi * f * (k * dt - length / 2)) ^ 2)) := by
  have q1 : (n : ℝ) ≤ length / dt := by rwa [le_div_iff₀ hd]
  have q2 : length / dt ≤ n + 1 / 2 := by rwa [div_le_iff₀ hd]
  have hfl : ⌊length / dt⌋ = n := by
    rw [Int.floor_eq_iff]
    constructor
    · exact_mod_cast q1
    · push_cast; linarith
  have hx1 : (1 : ℝ) ≤ length / dt := le_trans (by exact_mod_cast hn) q1
  have hc := (count (length / dt) hx1).1.2 (by rw [hfl]; push_cast; linarith)
  have hnn : ⌊length / dt⌋.toNat = n := by rw [hfl]; simp
  rw [hnn] at hc
  have hm : fs.mapM (fun f => assignSlice ⌊length / dt⌋.toNat (ricker length dt f)) = .ok (fs.map fun f => ricker length dt f) := by
    refine mapM_eq_ok _ _ _ fun f _ => ?_
    unfold assignSlice
    rw [if_pos (by rw [ricker_length _ _ _ hd, hc, hnn])]
  have hlen : ∀ b ∈ fs.map (fun f => ricker length dt f), b.length = n := by
    intro b hb
    obtain ⟨f, -, rfl⟩ := List.mem_map.1 hb
    rw [ricker_length _ _ _ hd, hc]
  refine ⟨(fs.map fun f => ricker length dt f).flatten, by simp only [rickerFigure, hm, bind, Except.bind, pure, Except.pure], ?_, ?_⟩
  · rw [flatten_len n _ hlen, List.length_map]
  · intro c f hf k hk
    rw [flatten_get n _ hlen c k hk, List.getElem?_map, hf]
    exact ricker_get _ _ _ hd k (by omega)

/-- C102. Otherwise the blocks have one entry too many and there is no figure. -/
theorem C102_mismatch (length dt : ℝ) (fs : List ℝ) (hd : 0 < dt) (n : ℕ) (hn : 1 ≤ n) (h1 : (n + 1 / 2) * dt < length) (h2 : length < (n + 1) * dt) (hf : fs ≠ []) :
    rickerFigure length dt fs = .error .valueError := by
  have q1 : (n : ℝ) + 1 / 2 < length / dt := by rwa [lt_div_iff₀ hd]
  have q2 : length / dt < n + 1 := by rwa [div_lt_iff₀ hd]
  have hfl : ⌊length / dt⌋ = n := by
    rw [Int.floor_eq_iff]
    constructor
    · push_cast; linarith
    · push_cast; linarith
  have hx1 : (1 : ℝ) ≤ length / dt := (show (1 : ℝ) ≤ n by exact_mod_cast hn).trans (by linarith)
  have hc := (count (length / dt) hx1).2 (by rw [hfl]; push_cast; linarith)
  have hnn : ⌊length / dt⌋.toNat = n := by rw [hfl]; simp
  rw [hnn] at hc
  cases fs with
  | nil => exact absurd rfl hf
  | cons f fs =>
    have hl := ricker_length length dt f hd
    rw [hc] at hl
    have ha : assignSlice n (ricker length dt f) = .error .valueError := by
      unfold assignSlice
      rw [if_neg (by omega)]
      rcases hr : ricker length dt f with _ | ⟨a, _ | ⟨b, l⟩⟩
      · rfl
      · rw [hr] at hl; simp at hl; omega
      · rfl
    simp only [rickerFigure, hnn, List.mapM_cons, ha, bind, Except.bind]

private theorem profile (u : ℝ) (hu : 0 ≤ u) : -(2 * Real.exp (-(3 / 2))) ≤ (1 - 2 * u) * Real.exp (-u) ∧ (1 - 2 * u) * Real.exp (-u) ≤ 1 := by
  have hp := Real.exp_pos (-u)
  constructor
  · -- (2u - 1) ≤ 2 exp (u - 3/2)
    have h := Real.add_one_le_exp (u - 3 / 2)
    have e : Real.exp (-(3 / 2)) = Real.exp (u - 3 / 2) * Real.exp (-u) := by rw [← Real.exp_add]; congr 1; ring
    rw [e]
    nlinarith
  · have h1 : Real.exp (-u) ≤ 1 := Real.exp_le_one_iff.2 (by linarith)
    nlinarith

/-- C102. For a window of `2h` steps, all time steps and all frequencies: the ordinates lie between `-2 e^(-3/2)` and 1; the wavelet of every frequency `f` reaches 1 in its middle, is symmetric
about it, and is negative exactly at the times `t` with `2 (π f t)^2 > 1`. -/
theorem C102_shape (dt : ℝ) (hdt : 0 < dt) (h : ℕ) (hh : 1 ≤ h) (fs : List ℝ) :
    ∃ ys, rickerFigure (2 * h * dt) dt fs = .ok ys ∧ ys.length = 2 * h * fs.length ∧ (∀ y ∈ ys, -(2 * Real.exp (-(3 / 2))) ≤ y ∧ y ≤ 1) ∧
      ∀ c f, fs[c]? = some f → ys[2 * h * c + h]? = some 1 ∧
        (∀ d : ℕ, 1 ≤ d → d < h → ys[2 * h * c + h - d]? = ys[2 * h * c + h + d]?) ∧
        ∀ d : ℕ, d < h → ∃ y, ys[2 * h * c + h + d]? = some y ∧ (y < 0 ↔ 1 < 2 * (Real.pi * f * (d * dt)) ^ 2) := by
  obtain ⟨ys, h1, h2, h3⟩ := C102_samples (2 * h * dt) dt fs hdt (2 * h) (by omega) (by push_cast; exact le_rfl)
    (by push_cast; nlinarith)
  have hpos : 0 < 2 * h := by omega
  refine ⟨ys, h1, h2, ?_, fun c f hf => ⟨?_, fun d hd1 hd => ?_, fun d hd => ?_⟩⟩
  · intro y hy
    obtain ⟨i, hi, rfl⟩ := List.mem_iff_getElem.1 hy
    have hi' : i / (2 * h) < fs.length := by
      rw [Nat.div_lt_iff_lt_mul hpos, Nat.mul_comm, ← h2]
      exact hi
    have := h3 (i / (2 * h)) _ (List.getElem?_eq_getElem hi') (i % (2 * h)) (Nat.mod_lt _ hpos)
    rw [Nat.div_add_mod, List.getElem?_eq_getElem hi, Option.some.injEq] at this
    rw [this]
    exact profile _ (sq_nonneg _)
  · rw [h3 c f hf h (by omega), show (h : ℝ) * dt - 2 * h * dt / 2 = 0 by ring]
    norm_num
  · rw [show 2 * h * c + h - d = 2 * h * c + (h - d) by omega, add_assoc, h3 c f hf (h - d) (by omega), h3 c f hf (h + d) (by omega)]
    rw [Nat.cast_sub hd.le, Nat.cast_add]
    congr 2 <;> ring_nf
  · refine ⟨_, by rw [add_assoc, h3 c f hf (h + d) (by omega)], ?_⟩
    have e : (((h + d : ℕ) : ℝ) * dt - 2 * h * dt / 2) = d * dt := by push_cast; ring
    rw [e]
    have hp := Real.exp_pos (-(Real.pi * f * (d * dt)) ^ 2)
    constructor
    · intro h
      by_contra hc'
      push Not at hc'
      exact absurd h (not_lt.2 (mul_nonneg (by linarith) hp.le))
    · intro h
      exact mul_neg_of_neg_of_pos (by linarith) hp

/-- two frequencies in windows of four steps. -/
example : ∃ ys, rickerFigure (2 * (2 : ℕ) * 3) 3 [1, 7] = .ok ys ∧ ys.length = 8 ∧ ys[6]? = some 1 := by
  obtain ⟨ys, h1, h2, -, h3⟩ := C102_shape 3 (by norm_num) 2 (by norm_num) [1, 7]
  exact ⟨ys, h1, h2, (h3 1 7 rfl).1⟩

/-- C102. The figure with the constants of the program: 1536 ordinates, all between `-2 e^(-3/2)` and 1; each of the three wavelets reaches 1 in its middle, is symmetric
about it, and has the frequency that was asked for: it is negative exactly where `2 (π f t)^2 > 1`. -/
theorem C102_figure : ∃ ys, rickerFigure (512 / 1000) (1 / 1000) [5, 10, 15] = .ok ys ∧ ys.length = 1536 ∧
    (∀ y ∈ ys, -(2 * Real.exp (-(3 / 2))) ≤ y ∧ y ≤ 1) ∧
    ∀ c : ℕ, c < 3 → ys[512 * c + 256]? = some 1 ∧ (∀ d : ℕ, 1 ≤ d → d < 256 → ys[512 * c + 256 - d]? = ys[512 * c + 256 + d]?) ∧
      ∀ d : ℕ, d < 256 → ∃ y, ys[512 * c + 256 + d]? = some y ∧ (y < 0 ↔ 1 < 2 * (Real.pi * (5 * (c + 1)) * (d / 1000)) ^ 2) := by
  obtain ⟨ys, h1, h2, h3⟩ := C102_samples (512 / 1000) (1 / 1000) [5, 10, 15] (by norm_num) 512 (by norm_num) (by norm_num) (by norm_num)
  have hget : ∀ c : ℕ, c < 3 → ([5, 10, 15] : List ℝ)[c]? = some (5 * ((c : ℝ) + 1)) := by
    intro c hc
    interval_cases c <;> norm_num
  refine ⟨ys, h1, by simpa using h2, ?_, fun c hc => ⟨?_, fun d hd1 hd => ?_, fun d hd => ?_⟩⟩
  · intro y hy
    obtain ⟨i, hi, rfl⟩ := List.mem_iff_getElem.1 hy
    have hi' : i < 1536 := by rw [h2] at hi; simpa using hi
    have := h3 (i / 512) _ (hget (i / 512) (by omega)) (i % 512) (Nat.mod_lt _ (by norm_num))
    rw [Nat.div_add_mod, List.getElem?_eq_getElem hi, Option.some.injEq] at this
    rw [this]
    exact profile _ (sq_nonneg _)
  · rw [h3 c _ (hget c hc) 256 (by norm_num)]
    norm_num
  · rw [show 512 * c + 256 - d = 512 * c + (256 - d) by omega, add_assoc, h3 c _ (hget c hc) (256 - d) (by omega), h3 c _ (hget c hc) (256 + d) (by omega)]
    rw [Nat.cast_sub (by omega)]
    push_cast
    congr 2 <;> ring_nf
  · refine ⟨_, by rw [add_assoc, h3 c _ (hget c hc) (256 + d) (by omega)], ?_⟩
    have e : (((256 + d : ℕ) : ℝ) * (1 / 1000) - 512 / 1000 / 2) = d / 1000 := by push_cast; ring
    rw [e]
    have hp := Real.exp_pos (-(Real.pi * (5 * ((c : ℝ) + 1)) * ((d : ℝ) / 1000)) ^ 2)
    constructor
    · intro h
      by_contra hc'
      push Not at hc'
      exact absurd h (not_lt.2 (mul_nonneg (by linarith) hp.le))
    · intro h
      exact mul_neg_of_neg_of_pos (by linarith) hp

/-- a length of one step and three quarters gives no figure. -/
example : rickerFigure (7 / 4) 1 [5] = .error .valueError :=
  C102_mismatch _ _ _ (by norm_num) 1 le_rfl (by norm_num) (by norm_num) (by simp)

end Sleplet.Props
