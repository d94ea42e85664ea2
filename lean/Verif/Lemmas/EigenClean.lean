import Mathlib.Data.List.GetD
import Mathlib.Data.List.Perm.Basic
import Mathlib.Algebra.BigOperators.Group.List.Basic
import Mathlib.Tactic.Ring
import Mathlib.Tactic.Linarith
import Mathlib.Tactic.FinCases
import Mathlib.Tactic.LinearCombination
import Verif.Model.EigenClean
import Verif.Spec.Eigen
import Verif.Lemmas.HarmonicIndex
import Verif.Props.HarmonicIndex

namespace Sleplet.Eigen

open Complex

theorem signOf_sq (z : ℂ) : signOf z * signOf z = 1 := by
  unfold signOf; split <;> norm_num

theorem conj_signOf (z : ℂ) : (starRingEnd ℂ) (signOf z) = signOf z := by
  unfold signOf; split <;> simp

theorem signOf_unit (z : ℂ) : signOf z * (starRingEnd ℂ) (signOf z) = 1 := by
  rw [conj_signOf, signOf_sq]

theorem not_npLtZero_mul_signOf (z : ℂ) : ¬ npLtZero (z * signOf z) := by
  unfold signOf
  by_cases h : npLtZero z
  · rw [if_pos h]
    unfold npLtZero at *
    simp only [mul_neg, mul_one, neg_re, neg_im]
    rcases h with h | ⟨h1, h2⟩
    · rintro (h' | ⟨h', -⟩) <;> linarith
    · rintro (h' | ⟨-, h'⟩) <;> linarith
  · rw [if_neg h, mul_one]; exact h

/-! ### scatter -/

/-- `scatter` without the error cases. -/
noncomputable def sc : List Bool → List ℂ → List ℂ
  | [], _ => []
  | true :: b, v :: vs => v :: sc b vs
  | true :: b, [] => 0 :: sc b []
  | false :: b, vs => 0 :: sc b vs

theorem scatter_eq (b : List Bool) (vs : List ℂ) (h : b.count true = vs.length) : scatter b vs = .ok (sc b vs) := by
  induction b generalizing vs with
  | nil =>
    cases vs with
    | nil => rfl
    | cons v vs => simp at h
  | cons a b ih =>
    cases a with
    | true =>
      cases vs with
      | nil => simp at h
      | cons v vs =>
        simp at h
        simp [scatter, sc, ih vs h, bind, Except.bind, pure, Except.pure]
    | false =>
      simp at h
      simp [scatter, sc, ih vs h, bind, Except.bind, pure, Except.pure]

theorem sc_length (b : List Bool) (vs : List ℂ) : (sc b vs).length = b.length := by
  induction b generalizing vs with
  | nil => simp [sc]
  | cons a b ih =>
    cases a <;> cases vs <;> simp [sc, ih]

theorem sc_append (a b : List Bool) (va vb : List ℂ) (h : a.count true = va.length) :
    sc (a ++ b) (va ++ vb) = sc a va ++ sc b vb := by
  induction a generalizing va with
  | nil =>
    have : va = [] := by cases va with
      | nil => rfl
      | cons => simp at h
    simp [sc, this]
  | cons x a ih =>
    cases x with
    | true =>
      cases va with
      | nil => simp at h
      | cons v va => simp at h; simp [sc, ih va h]
    | false => simp at h; simp [sc, ih va h]

theorem sc_flatten (mask : List Bool) (cols : List (List ℂ)) (h : ∀ c ∈ cols, mask.count true = c.length) :
    sc (List.replicate cols.length mask).flatten cols.flatten = (cols.map (sc mask)).flatten := by
  induction cols with
  | nil => simp [sc]
  | cons c cs ih =>
    simp only [List.length_cons, List.replicate_succ, List.flatten_cons, List.map_cons]
    rw [sc_append _ _ _ _ (h c (by simp)), ih fun c hc => h c (by simp [hc])]

theorem sc_getD (b : List Bool) (vs : List ℂ) (i : ℕ) :
    (sc b vs).getD i 0 = if b.getD i false then vs.getD ((b.take i).count true) 0 else 0 := by
  induction b generalizing vs i with
  | nil => simp [sc]
  | cons x b ih =>
    cases i with
    | zero => cases x <;> cases vs <;> simp [sc]
    | succ i =>
      cases x with
      | false => simp only [sc, List.getD_cons_succ, ih, List.take_succ_cons]; simp
      | true =>
        cases vs with
        | nil => simp only [sc, List.getD_cons_succ, ih, List.take_succ_cons]; simp
        | cons v vs => simp only [sc, List.getD_cons_succ, ih, List.take_succ_cons]; simp

theorem flatten_drop_take {α : Type} (rows : List (List α)) (w : ℕ) (h : ∀ r ∈ rows, r.length = w) (p : ℕ)
    (hp : p < rows.length) : (rows.flatten.drop (p * w)).take w = rows[p] := by
  induction rows generalizing p with
  | nil => simp at hp
  | cons r rs ih =>
    have hr : r.length = w := h r (by simp)
    cases p with
    | zero =>
      simp only [List.flatten_cons, Nat.zero_mul, List.drop_zero, List.getElem_cons_zero, ← hr, List.take_left]
    | succ p =>
      simp only [List.flatten_cons, List.getElem_cons_succ]
      have : (p + 1) * w = r.length + p * w := by rw [hr]; ring
      rw [this, List.drop_append, List.drop_eq_nil_of_le (by omega)]
      simp only [List.nil_append, Nat.add_sub_cancel_left]
      exact ih (fun r hr => h r (by simp [hr])) p (by simpa using hp)

/-! ### orders -/

theorem emm_take (L : ℕ) (n : ℕ) (hn : n ≤ 2 * L) :
    (createEmmVector L).take (n ^ 2) = (List.range n).flatMap arangeEmm := by
  have hmain : (createEmmVector L).take (n ^ 2) = (List.range (n ^ 2)).map fun i => (ind2elm i).2 := by
    apply List.ext_getElem?
    intro i
    rcases lt_or_ge i (n ^ 2) with hi | hi
    · rw [List.getElem?_take, if_pos hi, List.getElem?_map, List.getElem?_range hi]
      have := (Props.C21_emm_vector L).2 (ind2elm i).1 (ind2elm i).2
        (lt_of_lt_of_le (ind2elm_fst_lt hi) hn) (ind2elm_abs_le i)
      rw [elm2ind_ind2elm] at this
      rw [this]; rfl
    · rw [List.getElem?_take, if_neg (by omega)]
      simp [hi]
  rw [hmain]
  clear hmain hn
  induction n with
  | zero => simp
  | succ n ih =>
    have e : (n + 1) ^ 2 = n ^ 2 + (2 * n + 1) := by ring
    rw [e, List.range_add, List.map_append, ih, List.range_succ (n := n), List.flatMap_append]
    congr 1
    simp only [List.flatMap_cons, List.flatMap_nil, List.append_nil, arangeEmm, List.map_map]
    apply List.map_congr_left
    intro t ht
    have ht : t < 2 * n + 1 := by simpa using ht
    simp only [Function.comp]
    have hb : |(t : ℤ) - (n : ℤ)| ≤ n := by rw [abs_le]; omega
    have : n ^ 2 + t = elm2ind n ((t : ℤ) - n) := by
      zify
      rw [elm2ind_cast hb]
      ring
    rw [this, ind2elm_elm2ind hb]

theorem count_arangeEmm (n : ℕ) (m : ℤ) : (arangeEmm n).count m = if m.natAbs ≤ n then 1 else 0 := by
  have hnd : (arangeEmm n).Nodup := by
    unfold arangeEmm
    refine List.Nodup.map ?_ List.nodup_range
    intro a b h
    simp only at h
    omega
  rw [hnd.count]
  have : m ∈ arangeEmm n ↔ m.natAbs ≤ n := by
    unfold arangeEmm
    simp only [List.mem_map, List.mem_range]
    constructor
    · rintro ⟨t, ht, rfl⟩; omega
    · intro h; exact ⟨(m + n).toNat, by omega, by omega⟩
  simp [this]

theorem count_emm_take (L n : ℕ) (hn : n ≤ 2 * L) (m : ℤ) :
    ((createEmmVector L).take (n ^ 2)).count m = n - m.natAbs := by
  rw [emm_take L n hn]
  clear hn
  induction n with
  | zero => simp
  | succ n ih =>
    rw [List.range_succ, List.flatMap_append, List.count_append, ih]
    simp only [List.flatMap_cons, List.flatMap_nil, List.append_nil, count_arangeEmm]
    split <;> omega

/-- number of entries equal to `m` before the position of `(l, m)`. -/
theorem count_emm_before (L l : ℕ) (m : ℤ) (hl : l < L) (hm : m.natAbs ≤ l) :
    ((createEmmVector L).take (elm2ind l m)).count m = l - m.natAbs := by
  have hm' : |m| ≤ (l : ℤ) := by rw [abs_le]; omega
  have hlt : elm2ind l m < (l + 1) ^ 2 := (elm2ind_lt_sq hm' (l + 1)).2 (by omega)
  have hle : l ^ 2 ≤ elm2ind l m := by
    have := elm2ind_cast hm'
    zify
    rw [this]
    rw [abs_le] at hm'
    nlinarith [hm'.1]
  have hlen := (Props.C21_emm_vector L).1
  have h1 := count_emm_take L l (by omega) m
  have h2 := count_emm_take L (l + 1) (by omega) m
  have hget := (Props.C21_emm_vector L).2 l m (by omega) hm'
  -- split take (l+1)^2 at the position
  have hs : (createEmmVector L).take ((l + 1) ^ 2) = (createEmmVector L).take (elm2ind l m) ++
      (m :: ((createEmmVector L).drop (elm2ind l m + 1)).take ((l + 1) ^ 2 - elm2ind l m - 1)) := by
    have hlt2 : elm2ind l m < (createEmmVector L).length := by
      rw [hlen]; exact (elm2ind_lt_sq hm' _).2 (by omega)
    have hd : (createEmmVector L).drop (elm2ind l m) = m :: (createEmmVector L).drop (elm2ind l m + 1) := by
      rw [List.drop_eq_getElem_cons hlt2]
      rw [List.getElem?_eq_getElem hlt2] at hget
      congr 1
      exact Option.some_inj.1 hget
    obtain ⟨k, hk⟩ : ∃ k, (l + 1) ^ 2 = elm2ind l m + (k + 1) := ⟨(l + 1) ^ 2 - elm2ind l m - 1, by omega⟩
    rw [hk, List.take_add, hd, List.take_succ_cons]
    congr 3
    omega
  have hc := congrArg (List.count m) hs
  rw [h2, List.count_append, List.count_cons_self] at hc
  have hs2 : ((createEmmVector L).take (l ^ 2)).Sublist ((createEmmVector L).take (elm2ind l m)) := by
    rw [← Nat.min_eq_left hle, ← List.take_take]
    exact List.take_sublist _ _
  have hc2 := hs2.count_le m
  rw [h1] at hc2
  omega

/-- boolean mask of order `m`. -/
def orderMask (L : ℕ) (m : ℤ) : List Bool := ((createEmmVector L).take (L ^ 2)).map fun e => decide (e = m)

theorem count_map_decide (xs : List ℤ) (m : ℤ) : (xs.map fun e => decide (e = m)).count true = xs.count m := by
  induction xs with
  | nil => rfl
  | cons x xs ih =>
    simp only [List.map_cons, List.count_cons, ih]
    by_cases h : x = m <;> simp [h]

theorem orderMask_length (L : ℕ) (m : ℤ) : (orderMask L m).length = L ^ 2 := by
  unfold orderMask
  rw [List.length_map, List.length_take, (Props.C21_emm_vector L).1]
  have : L ^ 2 ≤ (2 * L) ^ 2 := Nat.pow_le_pow_left (by omega) 2
  omega

theorem orderMask_count (L : ℕ) (m : ℤ) : (orderMask L m).count true = L - m.natAbs := by
  unfold orderMask
  rw [count_map_decide, count_emm_take L L (by omega)]

theorem orderMask_getD (L l : ℕ) (m' m : ℤ) (hl : l < L) (hm' : |m'| ≤ (l : ℤ)) :
    (orderMask L m).getD (elm2ind l m') false = decide (m' = m) := by
  unfold orderMask
  have hi := (elm2ind_lt_sq hm' L).2 hl
  rw [List.getD_eq_getElem?_getD, List.getElem?_map, List.getElem?_take, if_pos hi,
    (Props.C21_emm_vector L).2 l m' (by omega) hm']
  rfl

theorem orderMask_before (L l : ℕ) (m : ℤ) (hl : l < L) (hm : m.natAbs ≤ l) :
    ((orderMask L m).take (elm2ind l m)).count true = l - m.natAbs := by
  have hm' : |m| ≤ (l : ℤ) := by rw [abs_le]; omega
  have hi := (elm2ind_lt_sq hm' L).2 hl
  unfold orderMask
  rw [← List.map_take, List.take_take, min_eq_left hi.le, count_map_decide, count_emm_before L l m hl hm]

/-- column `k` of the solver's eigenvectors as complex numbers. -/
noncomputable def colOf (n : ℕ) (gl : ℕ → ℕ → ℝ) (k : ℕ) : List ℂ := (List.range n).map fun r => (gl r k : ℂ)

/-- the unit factor applied to row `k` of order `m`. -/
noncomputable def unitOf (L : ℕ) (m : ℤ) (gl : ℕ → ℕ → ℝ) (k : ℕ) : ℂ :=
  signOf ((sc (orderMask L m) (colOf (L - m.natAbs) gl k)).headD 0) * if m < 0 then I else 1

theorem unitOf_unit (L : ℕ) (m : ℤ) (gl : ℕ → ℕ → ℝ) (k : ℕ) :
    unitOf L m gl k * (starRingEnd ℂ) (unitOf L m gl k) = 1 := by
  unfold unitOf
  rw [map_mul]
  have := signOf_unit ((sc (orderMask L m) (colOf (L - m.natAbs) gl k)).headD 0)
  split
  · rw [conj_I]
    linear_combination this - (signOf ((sc (orderMask L m) (colOf (L - m.natAbs) gl k)).headD 0) * (starRingEnd ℂ) (signOf ((sc (orderMask L m) (colOf (L - m.natAbs) gl k)).headD 0))) * I_sq
  · simpa using this

/-- the final row. -/
noncomputable def rowOf (L : ℕ) (m : ℤ) (gl : ℕ → ℕ → ℝ) (k : ℕ) : List ℂ :=
  (sc (orderMask L m) (colOf (L - m.natAbs) gl k)).map (· * unitOf L m gl k)

theorem rowOf_length (L : ℕ) (m : ℤ) (gl : ℕ → ℕ → ℝ) (k : ℕ) : (rowOf L m gl k).length = L ^ 2 := by
  simp [rowOf, sc_length, orderMask_length]

theorem rowOf_getD (L : ℕ) (m : ℤ) (gl : ℕ → ℕ → ℝ) (k : ℕ) (i : ℕ) :
    (rowOf L m gl k).getD i 0 = (sc (orderMask L m) (colOf (L - m.natAbs) gl k)).getD i 0 * unitOf L m gl k := by
  unfold rowOf
  generalize sc _ _ = xs
  simp only [List.getD_eq_getElem?_getD, List.getElem?_map]
  cases xs[i]? <;> simp

theorem rowOf_on (L : ℕ) (m : ℤ) (gl : ℕ → ℕ → ℝ) (k l : ℕ) (hl : l < L) (hm : m.natAbs ≤ l) :
    (rowOf L m gl k).getD (elm2ind l m) 0 = gl (l - m.natAbs) k * unitOf L m gl k := by
  have hm' : |m| ≤ (l : ℤ) := by rw [abs_le]; omega
  rw [rowOf_getD, sc_getD, orderMask_getD L l m m hl hm', orderMask_before L l m hl hm]
  have : l - m.natAbs < L - m.natAbs := by omega
  simp [colOf, List.getD_eq_getElem?_getD, List.getElem?_map, List.getElem?_range this]

theorem rowOf_off (L : ℕ) (m m' : ℤ) (gl : ℕ → ℕ → ℝ) (k l : ℕ) (hl : l < L) (hm' : |m'| ≤ (l : ℤ)) (hne : m' ≠ m) :
    (rowOf L m gl k).getD (elm2ind l m') 0 = 0 := by
  rw [rowOf_getD, sc_getD, orderMask_getD L l m' m hl hm']
  simp [hne]

theorem polarClean_eq (L : ℕ) (m : ℤ) (w : List ℝ) (gl : ℕ → ℕ → ℝ) (idx : List ℕ)
    (hw : w.length = L - m.natAbs) (hidx : idx.Perm (List.range w.length)) :
    polarClean L m (createEmmVector L) w gl idx =
      .ok (idx.reverse.map (fun k => w.getD k 0), idx.reverse.map (rowOf L m gl)) := by
  have hlen : idx.reverse.length = L - m.natAbs := by rw [List.length_reverse, hidx.length_eq, List.length_range, hw]
  unfold polarClean
  simp only
  have hvals : (idx.reverse.flatMap fun k => (List.range (L - m.natAbs)).map fun r => (gl r k : ℂ)) =
      (idx.reverse.map (colOf (L - m.natAbs) gl)).flatten := by
    rw [List.flatMap_def]; rfl
  have hcnt : ∀ c ∈ idx.reverse.map (colOf (L - m.natAbs) gl), (orderMask L m).count true = c.length := by
    intro c hc
    obtain ⟨k, -, rfl⟩ := List.mem_map.1 hc
    simp [orderMask_count, colOf]
  have hsc : scatter (List.replicate (L - m.natAbs) (orderMask L m)).flatten
      (idx.reverse.map (colOf (L - m.natAbs) gl)).flatten =
      .ok ((idx.reverse.map fun k => sc (orderMask L m) (colOf (L - m.natAbs) gl k)).flatten) := by
    have hl2 : L - m.natAbs = (idx.reverse.map (colOf (L - m.natAbs) gl)).length := by rw [List.length_map, hlen]
    rw [scatter_eq]
    · congr 1
      conv_lhs => rw [hl2]
      have := sc_flatten (orderMask L m) (idx.reverse.map (colOf (L - m.natAbs) gl)) hcnt
      rw [List.length_map] at this
      rw [← hl2, ← hlen]
      rw [← hlen] at this
      rw [this, List.map_map]
      rfl
    · rw [List.count_flatten, List.length_flatten, List.map_replicate, orderMask_count, List.map_map]
      have : (idx.reverse.map (List.length ∘ colOf (L - m.natAbs) gl)) = List.replicate (L - m.natAbs) (L - m.natAbs) := by
        rw [List.eq_replicate_iff]
        refine ⟨by rw [List.length_map, hlen], ?_⟩
        intro b hb
        obtain ⟨k, -, rfl⟩ := List.mem_map.1 hb
        simp [colOf]
      rw [this]
  rw [hvals]
  change (do
    let flat ← scatter (List.replicate (L - m.natAbs) (orderMask L m)).flatten
      (idx.reverse.map (colOf (L - m.natAbs) gl)).flatten
    _) = _
  rw [hsc]
  simp only [bind, Except.bind, pure, Except.pure]
  congr 2
  have hrows : ((List.range (L - m.natAbs)).map fun p =>
      (((idx.reverse.map fun k => sc (orderMask L m) (colOf (L - m.natAbs) gl k)).flatten).drop (p * L ^ 2)).take (L ^ 2)) =
      idx.reverse.map fun k => sc (orderMask L m) (colOf (L - m.natAbs) gl k) := by
    apply List.ext_getElem
    · simp only [List.length_map, List.length_range, hlen]
    · intro p h1 h2
      rw [List.getElem_map, List.getElem_range]
      apply flatten_drop_take
      intro r hr
      obtain ⟨k, -, rfl⟩ := List.mem_map.1 hr
      rw [sc_length, orderMask_length]
  rw [hrows]
  by_cases hm : m < 0
  · simp only [hm, if_true, List.map_map]
    apply List.map_congr_left
    intro k _
    simp only [Function.comp, signFixRow, rowOf, unitOf, hm, if_true, List.map_map]
    apply List.map_congr_left
    intro a _
    simp only [Function.comp, mul_assoc]
  · simp only [hm, if_false, List.map_map]
    apply List.map_congr_left
    intro k _
    simp only [Function.comp, signFixRow, rowOf, unitOf, hm, if_false, mul_one]

/-! ### merging the orders -/

/-- all (order, solver column) pairs in the order the code concatenates them. -/
def keys (idx : ℤ → List ℕ) (ms : List ℤ) : List (ℤ × ℕ) := ms.flatMap fun m => (idx m).reverse.map fun k => (m, k)

theorem accumulate_eq (L : ℕ) (sol : ℤ → OrderSolution) (idx : ℤ → List ℕ) (ms : List ℤ)
    (h : ∀ m ∈ ms, (sol m).1.length = L - m.natAbs ∧ (idx m).Perm (List.range (sol m).1.length)) :
    accumulate L sol idx ms = .ok ((keys idx ms).map (fun q => (sol q.1).1.getD q.2 0),
      (keys idx ms).map (fun q => rowOf L q.1 (sol q.1).2 q.2), (keys idx ms).map Prod.fst) := by
  induction ms with
  | nil => rfl
  | cons m ms ih =>
    have h0 := h m (by simp)
    unfold accumulate
    rw [ih fun m hm => h m (by simp [hm])]
    unfold solveOrder
    rw [polarClean_eq L m _ _ _ h0.1 h0.2]
    simp only [bind, Except.bind, pure, Except.pure, keys, List.flatMap_cons, List.map_append, List.map_map]
    congr 3
    congr 1
    rw [eq_comm, List.eq_replicate_iff]
    constructor
    · simp
    · intro b hb
      obtain ⟨k, -, rfl⟩ := List.mem_map.1 hb
      rfl

theorem map_getD_map {α β : Type} (xs : List α) (f : α → β) (idx : List ℕ) (h : ∀ k ∈ idx, k < xs.length) (d : α) (e : β) :
    (idx.map fun k => (xs.map f).getD k e) = (idx.map fun k => xs.getD k d).map f := by
  rw [List.map_map]
  apply List.map_congr_left
  intro k hk
  have := h k hk
  simp [List.getD_eq_getElem?_getD, this]

theorem map_getD_range {α : Type} (xs : List α) (d : α) : ((List.range xs.length).map fun k => xs.getD k d) = xs := by
  apply List.ext_getElem
  · simp
  · intro i h1 h2
    simp [List.getD_eq_getElem?_getD, List.getElem?_eq_getElem h2]

theorem solveAll_eq (L : ℕ) (sol : ℤ → OrderSolution) (idx : ℤ → List ℕ) (idxAll : List ℕ)
    (h : ∀ m ∈ ordersRange L, (sol m).1.length = L - m.natAbs ∧ (idx m).Perm (List.range (sol m).1.length))
    (hall : idxAll.Perm (List.range (keys idx (ordersRange L)).length)) :
    ∃ ks : List (ℤ × ℕ), ks.Perm (keys idx (ordersRange L)) ∧
      ks = (idxAll.reverse.map fun k => (keys idx (ordersRange L)).getD k (0, 0)) ∧
      solveAll L sol idx idxAll = .ok (ks.map (fun q => (sol q.1).1.getD q.2 0),
        ks.map (fun q => rowOf L q.1 (sol q.1).2 q.2), ks.map Prod.fst) := by
  refine ⟨_, ?_, rfl, ?_⟩
  · have h1 : (idxAll.reverse.map fun k => (keys idx (ordersRange L)).getD k (0, 0)).Perm
        ((List.range (keys idx (ordersRange L)).length).map fun k => (keys idx (ordersRange L)).getD k (0, 0)) :=
      ((List.reverse_perm idxAll).trans hall).map _
    rwa [map_getD_range] at h1
  · unfold solveAll
    rw [accumulate_eq L sol idx _ h]
    simp only [bind, Except.bind, pure, Except.pure, sortAll]
    have hlt : ∀ k ∈ idxAll.reverse, k < (keys idx (ordersRange L)).length := by
      intro k hk
      have := hall.subset (List.mem_reverse.1 hk)
      simpa using this
    congr 2
    · exact map_getD_map _ _ _ hlt _ _
    · congr 1
      · exact map_getD_map _ _ _ hlt _ _
      · exact map_getD_map _ _ _ hlt _ _

end Sleplet.Eigen
