import Mathlib.Tactic.Linarith
import Mathlib.Tactic.Ring
import Mathlib.Tactic.Positivity
import Mathlib.Tactic.FieldSimp
import Mathlib.Algebra.Order.Floor.Ring
import Mathlib.Data.Sign.Basic
import Verif.Model.TilingFigure

namespace Sleplet.TilingFigure

/-- a derivative that keeps the cubic monotone next to slope `a`. -/
def Mild (a d : ℝ) : Prop := (0 ≤ a → 0 ≤ d ∧ d ≤ 3 * a) ∧ (a ≤ 0 → 3 * a ≤ d ∧ d ≤ 0)

theorem mild_zero (a : ℝ) : Mild a 0 := ⟨fun h => ⟨le_rfl, by linarith⟩, fun h => ⟨by linarith, le_rfl⟩⟩

theorem mild_self (a : ℝ) : Mild a a := ⟨fun h => ⟨h, by linarith⟩, fun h => ⟨by linarith, h⟩⟩

theorem inner_mild (a b : ℝ) : Mild a (inner a b) ∧ Mild b (inner a b) := by
  unfold inner
  split_ifs with h
  · exact ⟨mild_zero a, mild_zero b⟩
  · push Not at h
    obtain ⟨hs, ha, hb⟩ := h
    rcases lt_or_gt_of_ne ha with ha | ha
    · have hb' : b < 0 := by
        rw [sign_neg ha] at hs
        exact sign_eq_neg_one_iff.1 hs.symm
      have hab : a + b < 0 := by linarith
      have e : 2 * a * b / (a + b) = -(2 * (-a) * (-b) / ((-a) + (-b))) := by
        have : a + b ≠ 0 := hab.ne
        have : -a + -b ≠ 0 := by linarith
        field_simp
        ring
      have p1 : 0 ≤ 2 * (-a) * (-b) / ((-a) + (-b)) := div_nonneg (by nlinarith) (by linarith)
      have p2 : 2 * (-a) * (-b) / ((-a) + (-b)) ≤ 3 * (-a) := by rw [div_le_iff₀ (by linarith)]; nlinarith
      have p3 : 2 * (-a) * (-b) / ((-a) + (-b)) ≤ 3 * (-b) := by rw [div_le_iff₀ (by linarith)]; nlinarith
      rw [e]
      exact ⟨⟨fun h => by linarith, fun _ => ⟨by linarith, by linarith⟩⟩, fun h => by linarith, fun _ => ⟨by linarith, by linarith⟩⟩
    · have hb' : 0 < b := by
        rw [sign_pos ha] at hs
        exact sign_eq_one_iff.1 hs.symm
      have p1 : 0 ≤ 2 * a * b / (a + b) := by positivity
      have p2 : 2 * a * b / (a + b) ≤ 3 * a := by rw [div_le_iff₀ (by linarith)]; nlinarith
      have p3 : 2 * a * b / (a + b) ≤ 3 * b := by rw [div_le_iff₀ (by linarith)]; nlinarith
      exact ⟨⟨fun _ => ⟨p1, p2⟩, fun h => by linarith⟩, fun _ => ⟨p1, p3⟩, fun h => by linarith⟩

theorem edge_mild (a b : ℝ) : Mild a (edge a b) := by
  unfold edge
  dsimp only
  split_ifs with h1 h2
  · exact mild_zero a
  · exact ⟨fun h => ⟨by linarith, le_rfl⟩, fun h => ⟨le_rfl, by linarith⟩⟩
  · push Not at h1 h2
    set d := (3 * a - b) / 2 with hd
    rcases lt_trichotomy a 0 with ha | ha | ha
    · rw [sign_neg ha] at h1
      have hd0 : d < 0 := sign_eq_neg_one_iff.1 h1
      refine ⟨fun h => by linarith, fun _ => ⟨?_, hd0.le⟩⟩
      by_cases hs : SignType.sign a = SignType.sign b
      · rw [sign_neg ha] at hs
        have : b < 0 := sign_eq_neg_one_iff.1 hs.symm
        rw [hd]; linarith
      · have := h2 hs
        rw [abs_of_neg hd0, abs_of_neg ha] at this
        linarith
    · rw [ha, sign_zero] at h1
      have : d = 0 := sign_eq_zero_iff.1 h1
      rw [this]
      exact mild_zero a
    · rw [sign_pos ha] at h1
      have hd0 : 0 < d := sign_eq_one_iff.1 h1
      refine ⟨fun _ => ⟨hd0.le, ?_⟩, fun h => by linarith⟩
      by_cases hs : SignType.sign a = SignType.sign b
      · rw [sign_pos ha] at hs
        have : 0 < b := sign_eq_one_iff.1 hs.symm
        rw [hd]; linarith
      · have := h2 hs
        rw [abs_of_pos hd0, abs_of_pos ha] at this
        linarith

theorem deriv_mild (ys : List ℝ) (k : ℕ) (h : k + 1 < ys.length) : Mild (slope ys k) (deriv ys k) ∧ Mild (slope ys k) (deriv ys (k + 1)) := by
  unfold deriv
  by_cases h2 : ys.length = 2
  · obtain rfl : k = 0 := by omega
    rw [if_pos h2]
    simp only [if_pos h2]
    exact ⟨mild_self _, mild_self _⟩
  · simp only [if_neg h2]
    constructor
    · split_ifs with h3
      · subst h3; exact edge_mild _ _
      · exfalso; omega
      · exact (inner_mild _ _).2
    · rw [if_neg (by omega)]
      split_ifs with h3
      · exact edge_mild _ _
      · exact (inner_mild _ _).1

theorem hermite_between (a b c d s : ℝ) (h0 : 0 ≤ s) (h1 : s ≤ 1) (hc : Mild (b - a) c) (hd : Mild (b - a) d) :
    min a b ≤ hermite a b c d s ∧ hermite a b c d s ≤ max a b := by
  have e1 : hermite a b c d s - a = s ^ 3 * (b - a) + s * (1 - s) ^ 2 * c + s ^ 2 * (1 - s) * (3 * (b - a) - d) := by unfold hermite; ring
  have e2 : b - hermite a b c d s = (1 - s) ^ 3 * (b - a) + s * (1 - s) ^ 2 * (3 * (b - a) - c) + s ^ 2 * (1 - s) * d := by unfold hermite; ring
  have q1 : 0 ≤ s * (1 - s) ^ 2 := by positivity
  have q2 : 0 ≤ s ^ 2 * (1 - s) := mul_nonneg (by positivity) (by linarith)
  have q3 : 0 ≤ s ^ 3 := by positivity
  have q4 : 0 ≤ (1 - s) ^ 3 := pow_nonneg (by linarith) 3
  rcases le_total a b with hab | hab
  · rw [min_eq_left hab, max_eq_right hab]
    obtain ⟨c1, c2⟩ := hc.1 (by linarith)
    obtain ⟨d1, d2⟩ := hd.1 (by linarith)
    have t1 := mul_nonneg q3 (sub_nonneg.2 hab)
    have t2 := mul_nonneg q1 c1
    have t3 := mul_nonneg q2 (sub_nonneg.2 d2)
    have t4 := mul_nonneg q4 (sub_nonneg.2 hab)
    have t5 := mul_nonneg q1 (sub_nonneg.2 c2)
    have t6 := mul_nonneg q2 d1
    constructor <;> linarith
  · rw [min_eq_right hab, max_eq_left hab]
    obtain ⟨c1, c2⟩ := hc.2 (by linarith)
    obtain ⟨d1, d2⟩ := hd.2 (by linarith)
    have t1 := mul_nonneg q3 (sub_nonneg.2 hab)
    have t2 := mul_nonneg q1 (neg_nonneg.2 c2)
    have t3 := mul_nonneg q2 (sub_nonneg.2 d1)
    have t4 := mul_nonneg q4 (sub_nonneg.2 hab)
    have t5 := mul_nonneg q1 (sub_nonneg.2 c1)
    have t6 := mul_nonneg q2 (neg_nonneg.2 d2)
    constructor <;> nlinarith

/-- the interpolation passes through the values and stays between neighbours. -/
theorem pchip_ok (ys : List ℝ) (h : 2 ≤ ys.length) : ∃ f, pchip ys = .ok f ∧ (∀ k < ys.length, f (k : ℝ) = ys.getD k 0) ∧
    ∀ (k : ℕ) (x : ℝ), k + 1 < ys.length → (k : ℝ) ≤ x → x ≤ (k : ℝ) + 1 →
      min (ys.getD k 0) (ys.getD (k + 1) 0) ≤ f x ∧ f x ≤ max (ys.getD k 0) (ys.getD (k + 1) 0) := by
  set f : ℝ → ℝ := fun x =>
    let k := min ⌊x⌋.toNat (ys.length - 2)
    hermite (ys.getD k 0) (ys.getD (k + 1) 0) (deriv ys k) (deriv ys (k + 1)) (x - k) with hf
  have nodes : ∀ k < ys.length, f (k : ℝ) = ys.getD k 0 := by
    intro k hk
    simp only [hf]
    have hfl : ⌊(k : ℝ)⌋.toNat = k := by simp
    rw [hfl]
    rcases Nat.lt_or_ge (k + 1) ys.length with h1 | h1
    · rw [Nat.min_eq_left (by omega)]
      simp [hermite]
    · rw [Nat.min_eq_right (by omega), show ys.length - 2 + 1 = k by omega]
      have : (k : ℝ) - ((ys.length - 2 : ℕ) : ℝ) = 1 := by
        have : (k : ℝ) = ((ys.length - 2 : ℕ) : ℝ) + 1 := by exact_mod_cast (by omega : k = ys.length - 2 + 1)
        linarith
      rw [this]
      simp only [hermite]
      ring
  refine ⟨f, by rw [pchip, if_neg (by omega)], nodes, fun k x hk h1 h2 => ?_⟩
  rcases h2.lt_or_eq with h2 | h2
  · have hfl : ⌊x⌋.toNat = k := by
      have : ⌊x⌋ = (k : ℤ) := Int.floor_eq_iff.2 ⟨by exact_mod_cast h1, by exact_mod_cast h2⟩
      rw [this]; simp
    simp only [hf, hfl]
    rw [Nat.min_eq_left (by omega)]
    obtain ⟨m1, m2⟩ := deriv_mild ys k hk
    exact hermite_between _ _ _ _ _ (by linarith) (by linarith) m1 m2
  · have := nodes (k + 1) hk
    push_cast at this
    rw [h2, this]
    exact ⟨min_le_right _ _, le_max_right _ _⟩

theorem pchip_short (ys : List ℝ) (h : ys.length < 2) : pchip ys = .error .valueError := if_pos h

/-- the abscissae. -/
theorem grid_eq (xlim : ℕ) (h : 1 ≤ xlim) : arange ((xlim : ℝ) - 1 + step) step = (List.range (100 * (xlim - 1) + 1)).map fun k : ℕ => (k : ℝ) / 100 := by
  unfold arange step
  have : (((xlim : ℝ) - 1 + 1 / 100) / (1 / 100)) = ((100 * (xlim - 1) + 1 : ℕ) : ℝ) := by
    push_cast [Nat.cast_sub h]
    ring
  rw [this, Int.ceil_natCast, Int.toNat_natCast]
  refine List.map_congr_left fun k _ => ?_
  ring

/-- the axis after the ticks. -/
theorem widen_eq (xlim : ℝ) (ticks : List (ℕ × ℕ)) (M : ℕ) (hM : ∃ t ∈ ticks, t.1 = M) (hle : ∀ t ∈ ticks, 1 ≤ t.1 ∧ t.1 ≤ M) :
    widen xlim ticks = (1, max xlim M) := by
  unfold widen
  have key : ∀ (ts : List (ℕ × ℕ)) (r : ℝ), (∀ t ∈ ts, 1 ≤ t.1 ∧ t.1 ≤ M) →
      ∃ r', ts.foldl (fun (lr : ℝ × ℝ) (t : ℕ × ℕ) => (min lr.1 (t.1 : ℝ), max lr.2 (t.1 : ℝ))) (1, r) = (1, r') ∧ r ≤ r' ∧ r' ≤ max r M ∧ ∀ t ∈ ts, (t.1 : ℝ) ≤ r' := by
    intro ts
    induction ts with
    | nil => intro r _; exact ⟨r, rfl, le_rfl, le_max_left _ _, by simp⟩
    | cons t ts ih =>
      intro r h
      obtain ⟨a1, a2⟩ := h t (by simp)
      obtain ⟨r', b1, b2, b3, b4⟩ := ih (max r t.1) fun s hs => h s (by simp [hs])
      have a1' : (1 : ℝ) ≤ t.1 := by exact_mod_cast a1
      have a2' : (t.1 : ℝ) ≤ M := by exact_mod_cast a2
      refine ⟨r', ?_, (le_max_left _ _).trans b2, b3.trans ?_, ?_⟩
      · rw [List.foldl_cons]
        dsimp only
        rw [min_eq_left a1', b1]
      · rw [max_assoc, max_eq_right a2']
      · intro s hs
        rcases List.mem_cons.1 hs with rfl | hs
        · exact (le_max_right _ _).trans b2
        · exact b4 s hs
  obtain ⟨r', h1, h2, h3, h4⟩ := key ticks xlim hle
  obtain ⟨t, ht, rfl⟩ := hM
  rw [h1, le_antisymm h3 (max_le h2 (h4 t ht))]

end Sleplet.TilingFigure
