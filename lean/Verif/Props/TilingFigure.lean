import Verif.Lemmas.TilingFigure
import Verif.Lemmas.Writes
import Verif.Props.EigenvalueFigure
import Verif.Props.Tiling

/-! C100: the figures of wavelet generating functions show the tiling. -/
namespace Sleplet.Props

open Sleplet.TilingFigure Sleplet.Tiling

/-- A curve draws a generating function: its abscissae are the hundredths from 0 to the last degree, it passes through the values at all degrees, and
between two degrees it stays between their values. -/
def Draws (xlim : ℕ) (k : List ℝ) (c : List (ℝ × ℝ)) : Prop :=
  c.map Prod.fst = (List.range (100 * (xlim - 1) + 1)).map (fun i : ℕ => (i : ℝ) / 100) ∧
  (∀ l < xlim, c[100 * l]? = some ((l : ℝ), k.getD l 0)) ∧
  ∀ q ∈ c, ∀ l : ℕ, l + 1 < xlim → (l : ℝ) ≤ q.1 → q.1 ≤ l + 1 → min (k.getD l 0) (k.getD (l + 1) 0) ≤ q.2 ∧ q.2 ≤ max (k.getD l 0) (k.getD (l + 1) 0)

private theorem curve_draws (xlim : ℕ) (h : 2 ≤ xlim) (k : List ℝ) (hk : k.length = xlim) :
    ∃ c, curve (TilingFigure.arange ((xlim : ℝ) - 1 + TilingFigure.step) TilingFigure.step) k = .ok c ∧ Draws xlim k c := by
  obtain ⟨f, h1, h2, h3⟩ := pchip_ok k (by omega)
  refine ⟨_, by simp only [curve, h1, bind, Except.bind, pure, Except.pure]; rfl, ?_, fun l hl => ?_, ?_⟩
  · rw [List.map_map, grid_eq xlim (by omega)]
    exact List.map_id _
  · rw [List.getElem?_map, grid_eq xlim (by omega), List.getElem?_map, List.getElem?_range (by omega)]
    have : ((100 * l : ℕ) : ℝ) / 100 = l := by push_cast; ring
    simp only [Option.map_some, this]
    rw [h2 l (by omega)]
  · intro q hq l hl h4 h5
    obtain ⟨x, -, rfl⟩ := List.mem_map.1 hq
    exact h3 l x (by omega) h4 h5

private theorem draws_mem {xlim : ℕ} (h : 2 ≤ xlim) {k : List ℝ} {c : List (ℝ × ℝ)} (hd : Draws xlim k c) {lo hi : ℝ}
    (hb : ∀ l < xlim, lo ≤ k.getD l 0 ∧ k.getD l 0 ≤ hi) : ∀ q ∈ c, lo ≤ q.2 ∧ q.2 ≤ hi := by
  intro q hq
  have hm : q.1 ∈ c.map Prod.fst := List.mem_map_of_mem hq
  rw [hd.1, List.mem_map] at hm
  obtain ⟨i, hi', he⟩ := hm
  rw [List.mem_range] at hi'
  set l := min (i / 100) (xlim - 2) with hl
  have e1 : 100 * l ≤ i := by omega
  have e2 : i ≤ 100 * (l + 1) := by omega
  have e1' : (100 : ℝ) * l ≤ i := by exact_mod_cast e1
  have e2' : (i : ℝ) ≤ 100 * (l + 1) := by exact_mod_cast e2
  obtain ⟨a, b⟩ := hd.2.2 q hq l (by omega) (by rw [← he]; linarith) (by rw [← he]; linarith)
  obtain ⟨p1, p2⟩ := hb l (by omega)
  obtain ⟨p3, p4⟩ := hb (l + 1) (by omega)
  exact ⟨(le_min p1 p3).trans a, b.trans (max_le p2 p4)⟩

/-- C100. The figure has the scaling function, labelled `Φ`, and one curve for every scale of the tiling from the smallest to the largest, labelled `Ψ` with the number of
the scale.  Every curve passes through the values of its function at all degrees (ranks) and stays within 0 and 1; at every degree the squares of the ordinates add up
to 1; the curve of scale `j` is not zero exactly between `B^(j-1)` and `B^(j+1)` and reaches 1 at `B^j`; the dashed line stands at the Shannon number and says so. -/
theorem C100_curves (xlim B jMin : ℕ) (sub : String) (N : Option ℤ) (hB : 2 ≤ B) (hx : 2 ≤ xlim) (hj : jMin ≤ jMax B xlim) :
    ∃ F, figure xlim B jMin sub N = .ok F ∧ F.curves.length = jMax B xlim - jMin + 2 ∧
      (∃ c k, F.curves[0]? = some ("$\\Phi_" ++ sub ++ "$", c) ∧ Draws xlim k c ∧ ∀ l < xlim, k.getD l 0 ≠ 0 ↔ l < B ^ jMin) ∧
      (∀ j, jMin ≤ j → j ≤ jMax B xlim → ∃ c k, F.curves[j - jMin + 1]? = some ("$\\Psi^{" ++ toString j ++ "}_" ++ sub ++ "$", c) ∧ Draws xlim k c ∧
        (∀ l < xlim, k.getD l 0 ≠ 0 ↔ (B : ℝ) ^ ((j : ℤ) - 1) < l ∧ (l : ℝ) < (B : ℝ) ^ ((j : ℤ) + 1)) ∧ (B ^ j < xlim → k.getD (B ^ j) 0 = 1)) ∧
      (∀ c ∈ F.curves, ∀ q ∈ c.2, 0 ≤ q.2 ∧ q.2 ≤ 1) ∧
      (∀ l < xlim, (F.curves.map fun c => (c.2.map Prod.snd).getD (100 * l) 0 ^ 2).sum = 1) ∧
      F.line = N.map fun n => (n, "N=" ++ toString n) := by
  obtain ⟨-, t1, t2, t3, t4, t5, t6⟩ := C94_tiling B xlim jMin hB hj
  set K := createKappas xlim B jMin with hK
  set xi := TilingFigure.arange ((xlim : ℝ) - 1 + TilingFigure.step) TilingFigure.step with hxi
  choose! C hC hD using fun (k : List ℝ) (hk : k.length = xlim) => curve_draws xlim hx k hk
  rw [← hxi] at hC
  obtain ⟨k0, hk0, h0⟩ := t5
  have hk0m : k0 ∈ K := List.mem_of_getElem? hk0
  have htail : ∀ (i : ℕ), K.tail[i]? = K[i + 1]? := fun i => by simp
  set label : ℕ → String := fun i => "$\\Psi^{" ++ toString (i + jMin) ++ "}_" ++ sub ++ "$" with hlabel
  have hmap : K.tail.zipIdx.mapM (fun kj : List ℝ × ℕ => do
      let c ← curve xi kj.1
      return (label kj.2, c)) = .ok (K.tail.zipIdx.map fun kj => (label kj.2, C kj.1)) := by
    refine mapM_eq_ok _ _ _ fun kj hkj => ?_
    have : kj.1 ∈ K := List.mem_of_mem_tail (List.fst_mem_of_mem_zipIdx hkj)
    rw [hC kj.1 (t2 _ this)]
    rfl
  have hfig : figure xlim B jMin sub N = .ok ⟨("$\\Phi_" ++ sub ++ "$", C k0) :: K.tail.zipIdx.map fun kj => (label kj.2, C kj.1), N.map fun n => (n, "N=" ++ toString n),
      (widen xlim ((List.range (Nat.clog 2 xlim + 1)).map fun k => (2 ^ k, 2 ^ k))).1,
      (widen xlim ((List.range (Nat.clog 2 xlim + 1)).map fun k => (2 ^ k, 2 ^ k))).2, (List.range (Nat.clog 2 xlim + 1)).map fun k => (2 ^ k, 2 ^ k)⟩ := by
    have hi : NumPy.item K 0 = .ok k0 := by simp only [NumPy.item, hk0]
    have h0' := hC k0 (t2 _ hk0m)
    simp only [bind, Except.bind, pure, Except.pure] at hmap
    simp only [figure, ← hK, ← hxi, hi, h0', ticks_ok (show xlim ≠ 0 by omega), bind, Except.bind, pure, Except.pure]
    rw [hmap]
  have hcK : ∀ c ∈ (("$\\Phi_" ++ sub ++ "$", C k0) :: K.tail.zipIdx.map fun kj => (label kj.2, C kj.1)), ∃ k ∈ K, c.2 = C k := by
    intro c hc
    rcases List.mem_cons.1 hc with rfl | hc
    · exact ⟨k0, hk0m, rfl⟩
    · obtain ⟨kj, hkj, rfl⟩ := List.mem_map.1 hc
      exact ⟨kj.1, List.mem_of_mem_tail (List.fst_mem_of_mem_zipIdx hkj), rfl⟩
  refine ⟨_, hfig, by simp [t1], ⟨C k0, k0, rfl, hD _ (t2 _ hk0m), h0⟩, fun j h1 h2 => ?_, fun c hc => ?_, fun l hl => ?_, rfl⟩
  · obtain ⟨k, a1, a2, a3⟩ := t6 j h1 h2
    refine ⟨C k, k, ?_, hD _ (t2 _ (List.mem_of_getElem? a1)), a2, a3⟩
    rw [List.getElem?_cons_succ, List.getElem?_map, List.getElem?_zipIdx, htail, a1]
    simp only [Option.map_some, hlabel, Nat.zero_add]
    rw [show j - jMin + jMin = j by omega]
  · obtain ⟨k, hk, e⟩ := hcK c hc
    rw [e]
    exact draws_mem hx (hD k (t2 k hk)) fun l hl => t3 k hk l hl
  · rw [← t4 l hl]
    have hord : ∀ k ∈ K, ((C k).map Prod.snd).getD (100 * l) 0 = k.getD l 0 := by
      intro k hk
      rw [List.getD_eq_getElem?_getD, List.getElem?_map, (hD k (t2 k hk)).2.1 l hl]
      rfl
    have hKs : K = k0 :: K.tail := by
      cases hKe : K with
      | nil => rw [hKe] at hk0; simp at hk0
      | cons a as =>
        rw [hKe] at hk0
        simp only [List.getElem?_cons_zero, Option.some.injEq] at hk0
        rw [hk0]; rfl
    have hz : K.tail.zipIdx.map (fun kj : List ℝ × ℕ => (((C kj.1).map Prod.snd).getD (100 * l) 0) ^ 2) = K.tail.map fun k => k.getD l 0 ^ 2 := by
      have : (K.tail.zipIdx.map Prod.fst).map (fun k => ((C k).map Prod.snd).getD (100 * l) 0 ^ 2) = K.tail.map fun k => k.getD l 0 ^ 2 := by
        rw [List.zipIdx_map_fst]
        exact List.map_congr_left fun k hk => by rw [hord k (List.mem_of_mem_tail hk)]
      rwa [List.map_map] at this
    dsimp only
    rw [List.map_cons, List.map_map, List.sum_cons, hord k0 hk0m]
    conv_rhs => rw [hKs, List.map_cons, List.sum_cons]
    congr 2

/-- C100. Values on a straight line are joined by that line, up to both ends and beyond them. -/
theorem C100_straight (n : ℕ) (hn : 2 ≤ n) (a b : ℝ) :
    ∃ f, pchip (List.ofFn fun k : Fin n => a + b * (k : ℕ)) = .ok f ∧ ∀ x, f x = a + b * x := by
  set ys := List.ofFn fun k : Fin n => a + b * (k : ℕ) with hys
  have hlen : ys.length = n := by simp [hys]
  have hget : ∀ k < n, ys.getD k 0 = a + b * k := by
    intro k hk
    rw [hys, List.getD_eq_getElem?_getD, List.getElem?_ofFn]
    simp [hk]
  have hslope : ∀ k, k + 1 < n → slope ys k = b := by
    intro k hk
    rw [TilingFigure.slope, hget k (by omega), hget (k + 1) hk]
    push_cast
    ring
  have hedge : edge b b = b := by
    have h : (3 * b - b) / 2 = b := by ring
    simp [edge, h]
  have hinner : TilingFigure.inner b b = b := by
    rcases eq_or_ne b 0 with h | h
    · simp [TilingFigure.inner, h]
    · simp only [TilingFigure.inner, ne_eq, not_true_eq_false, h, or_self, if_false]
      field_simp
      ring
  have hderiv : ∀ k < n, TilingFigure.deriv ys k = b := by
    intro k hk
    unfold TilingFigure.deriv
    rw [hlen]
    split
    · exact hslope 0 (by omega)
    · split
      · rw [hslope 0 (by omega), hslope 1 (by omega), hedge]
      · split
        · rw [hslope _ (by omega), hslope _ (by omega), hedge]
        · rw [hslope _ (by omega), hslope _ (by omega), hinner]
  refine ⟨_, by rw [pchip, if_neg (by omega)], fun x => ?_⟩
  dsimp only
  have hk : min ⌊x⌋.toNat (ys.length - 2) + 1 < n := by omega
  rw [hget _ (by omega), hget _ hk, hderiv _ (by omega), hderiv _ hk, hermite]
  push_cast
  ring

/-- five values, the last piece and a point beyond it. -/
example : ∃ f, pchip (List.ofFn fun k : Fin 5 => 3 + 2 * ((k : ℕ) : ℝ)) = .ok f ∧ f (7 / 2) = 10 ∧ f 5 = 13 := by
  obtain ⟨f, h, hf⟩ := C100_straight 5 (by norm_num) 3 2
  exact ⟨f, h, by rw [hf]; norm_num, by rw [hf]; norm_num⟩

/-- C100. With less than two degrees there is no figure. -/
theorem C100_too_small (xlim B jMin : ℕ) (sub : String) (N : Option ℤ) (hx : xlim < 2) : figure xlim B jMin sub N = .error .valueError := by
  have hi : NumPy.item (createKappas xlim B jMin) 0 = .ok (kappa0 B xlim jMin) := rfl
  have hp : pchip (kappa0 B xlim jMin) = .error .valueError := pchip_short _ (by simpa [kappa0] using hx)
  simp only [figure, hi, curve, hp, bind, Except.bind]

/-- C100. The horizontal axis begins at 1 and ends at the number of degrees or the first power of two that reaches it: at the number of degrees exactly when that is
a power of two.  Missing from the full property (and false, next theorem): that it always ends there. -/
theorem C100_axis_partial (xlim B jMin : ℕ) (sub : String) (N : Option ℤ) (hB : 2 ≤ B) (hx : 2 ≤ xlim) (hj : jMin ≤ jMax B xlim) :
    ∃ F, figure xlim B jMin sub N = .ok F ∧ F.left = 1 ∧ (xlim : ℝ) ≤ F.right ∧ F.right < 2 * xlim ∧ (F.right = xlim ↔ ∃ k, xlim = 2 ^ k) ∧
      (∃ k, F.right = 2 ^ k) ∧ ∀ t, t ∈ F.ticks ↔ t.1 = t.2 ∧ ∃ k, t.2 = 2 ^ k ∧ t.2 < 2 * xlim := by
  have hx0 : xlim ≠ 0 := by omega
  obtain ⟨F, hF, -⟩ := C100_curves xlim B jMin sub N hB hx hj
  have hcl : 2 ^ Nat.clog 2 xlim < 2 * xlim := (pow_lt_double_iff hx0).2 (by omega)
  have hle : xlim ≤ 2 ^ Nat.clog 2 xlim := Nat.le_pow_clog (by norm_num) _
  have hw : widen xlim ((List.range (Nat.clog 2 xlim + 1)).map fun k => (2 ^ k, 2 ^ k)) = (1, ((2 ^ Nat.clog 2 xlim : ℕ) : ℝ)) := by
    rw [widen_eq (xlim : ℝ) _ (2 ^ Nat.clog 2 xlim)]
    · rw [max_eq_right (by exact_mod_cast hle)]
    · exact ⟨(2 ^ Nat.clog 2 xlim, 2 ^ Nat.clog 2 xlim), List.mem_map.2 ⟨_, List.mem_range.2 (Nat.lt_succ_self _), rfl⟩, rfl⟩
    · intro t ht
      obtain ⟨k, hk, rfl⟩ := List.mem_map.1 ht
      exact ⟨Nat.one_le_two_pow, Nat.pow_le_pow_right (by norm_num) (by rw [List.mem_range] at hk; omega)⟩
  have hr : F.left = 1 ∧ F.right = ((2 ^ Nat.clog 2 xlim : ℕ) : ℝ) ∧ F.ticks = (List.range (Nat.clog 2 xlim + 1)).map fun k => (2 ^ k, 2 ^ k) := by
    have h := hF
    unfold figure at h
    simp only [ticks_ok hx0, hw, bind, Except.bind, pure, Except.pure] at h
    split at h
    · cases h
    · split at h
      · cases h
      · split at h
        · cases h
        · cases h
          exact ⟨rfl, rfl, rfl⟩
  obtain ⟨r1, r2, r3⟩ := hr
  refine ⟨F, hF, r1, ?_, ?_, ?_, ⟨_, by rw [r2]; push_cast; rfl⟩, ?_⟩
  · rw [r2]; exact_mod_cast hle
  · rw [r2]; exact_mod_cast hcl
  · rw [r2]
    constructor
    · intro h
      exact ⟨Nat.clog 2 xlim, by exact_mod_cast h.symm⟩
    · rintro ⟨k, rfl⟩
      rw [Nat.clog_pow 2 k (by norm_num)]
  · rintro ⟨a, b⟩
    rw [r3, List.mem_map]
    simp only [List.mem_range, Prod.mk.injEq]
    constructor
    · rintro ⟨k, h1, rfl, rfl⟩
      exact ⟨rfl, k, rfl, (pow_lt_double_iff hx0).2 h1⟩
    · rintro ⟨rfl, k, rfl, h⟩
      exact ⟨k, (pow_lt_double_iff hx0).1 h, rfl, rfl⟩

/-- C100, negative part.  A mesh with twelve hundred basis functions: the axis asked for ends at 1200, the figure's at 2048. -/
theorem C100_axis_violation : ∃ F, figure 1200 3 2 "p" (some 37) = .ok F ∧ F.right = 2048 := by
  obtain ⟨F, h1, -, h2, h3, -, ⟨k, hk⟩, -⟩ := C100_axis_partial 1200 3 2 "p" (some 37) (by norm_num) (by norm_num)
    (by unfold jMax; exact (Nat.lt_clog_iff_pow_lt (by norm_num)).2 (show 3 ^ 1 < _ by norm_num))
  refine ⟨F, h1, ?_⟩
  rw [hk] at h2 h3 ⊢
  have a : 1200 ≤ 2 ^ k := by exact_mod_cast h2
  have b : 2 ^ k < 2400 := by
    have : (2 : ℝ) ^ k < 2400 := by norm_num at h3 ⊢; exact h3
    exact_mod_cast this
  have c : k = 11 := by
    have h10 : 10 < k := by
      by_contra hc
      have := Nat.pow_le_pow_right (show 0 < 2 by norm_num) (show k ≤ 10 by omega)
      omega
    have h12 : k < 12 := by
      by_contra hc
      have := Nat.pow_le_pow_right (show 0 < 2 by norm_num) (show 12 ≤ k by omega)
      omega
    omega
  rw [c]; norm_num

example : 2 ≤ 128 ∧ 2 ≤ jMax 3 128 ∧ ∃ F, figure 128 3 2 "{\\ell0}" none = .ok F ∧ F.right = 128 := by
  have h : 2 ≤ jMax 3 128 := by unfold jMax; exact (Nat.lt_clog_iff_pow_lt (by norm_num)).2 (show 3 ^ 1 < _ by norm_num)
  refine ⟨by norm_num, h, ?_⟩
  obtain ⟨F, h1, -, -, -, h4, -⟩ := C100_axis_partial 128 3 2 "{\\ell0}" none (by norm_num) (by norm_num) h
  exact ⟨F, h1, by have := h4.2 ⟨7, by norm_num⟩; exact_mod_cast this⟩

end Sleplet.Props
