import Mathlib.Analysis.Complex.Basic
import Verif.Lemmas.Writes
import Verif.Model.Wavelets

namespace Sleplet.Wavelets

open Complex NumPy Noise

theorem forwardRow_ok (L : ℕ) (flm psi : List ℂ) (hf : flm.length = L ^ 2) (hp : psi.length = L ^ 2) :
    ∃ w, forwardRow L flm psi = .ok w ∧ w.length = L ^ 2 ∧
      ∀ (l : ℕ) (m : ℤ), l < L → |m| ≤ l → w.getD (elm2ind l m) 0 =
        (Real.sqrt (4 * Real.pi / (2 * (l : ℝ) + 1)) : ℂ) * (starRingEnd ℂ) (psi.getD (elm2ind l 0) 0) *
          flm.getD (elm2ind l m) 0 := by
  have hsq : ∀ {ell}, ell < L → (ell + 1) ^ 2 ≤ L ^ 2 := fun h => Nat.pow_le_pow_left (by omega) 2
  obtain ⟨b, hb, hl, hv⟩ := writes_degrees
    (fun l m => (Real.sqrt (4 * Real.pi / (2 * (l : ℝ) + 1)) : ℂ) * (starRingEnd ℂ) (psi.getD (elm2ind l 0) 0) *
          flm.getD (elm2ind l m) 0) (fun _ _ => True) (L ^ 2)
    (fun w ell => do
      let x ← item psi (elm2ind ell 0)
      let wav0 := (Real.sqrt (4 * Real.pi / (2 * (ell : ℝ) + 1)) : ℂ) * (starRingEnd ℂ) x
      (arangeEmm ell).foldlM (fun w m => do
        let f ← item flm (elm2ind ell m)
        setItem w (elm2ind ell m) (wav0 * f)) w) L
    (by
      intro ell a h1 h2
      obtain ⟨b, hb, hl, hv⟩ := writes_orders (fun m =>
          (Real.sqrt (4 * Real.pi / (2 * (ell : ℝ) + 1)) : ℂ) * (starRingEnd ℂ) (psi.getD (elm2ind ell 0) 0) *
          flm.getD (elm2ind ell m) 0) ell (L ^ 2) (hsq h1)
        (fun w m => do
          let f ← item flm (elm2ind ell m)
          setItem w (elm2ind ell m)
            ((Real.sqrt (4 * Real.pi / (2 * (ell : ℝ) + 1)) : ℂ) * (starRingEnd ℂ) (psi.getD (elm2ind ell 0) 0) * f))
        (by
          intro b m hb hm
          have hlt : elm2ind ell m < L ^ 2 := elm2ind_lt_of_sq hm (hsq h1)
          simp only [item_getD (show elm2ind ell m < flm.length by rw [hf]; exact hlt), bind, Except.bind]
          rw [setItem_of_lt _ _ _ (by rw [hb]; exact hlt)])
        (arangeEmm ell) a h2 (fun m hm => mem_arangeEmm.1 hm)
      refine ⟨b, ?_, hl, fun l m h => ?_⟩
      · have hlt : elm2ind ell 0 < L ^ 2 := elm2ind_lt_of_sq (by simp) (hsq h1)
        simp only [item_getD (show elm2ind ell 0 < psi.length by rw [hp]; exact hlt), bind, Except.bind]
        exact hb
      · rw [hv l m h]
        by_cases hl' : l = ell
        · subst hl'
          simp [mem_arangeEmm, h]
        · simp [hl'])
    (List.replicate psi.length 0) (by simp [hp])
  refine ⟨b, hb, hl, fun l m h1 h2 => ?_⟩
  rw [hv l m h2, if_pos ⟨h1, trivial⟩]

theorem axisymRow_ok (L : ℕ) (kappa : List ℝ) (hk : L ≤ kappa.length) :
    ∃ w, axisymRow L kappa = .ok w ∧ w.length = L ^ 2 ∧
      ∀ (l : ℕ) (m : ℤ), l < L → |m| ≤ l → w.getD (elm2ind l m) 0 =
        if m = 0 then (Real.sqrt ((2 * (l : ℝ) + 1) / (4 * Real.pi)) : ℂ) * (kappa.getD l 0 : ℂ) else 0 := by
  obtain ⟨b, hb, hl, hv⟩ := writes_degrees
    (fun l _ => (Real.sqrt ((2 * (l : ℝ) + 1) / (4 * Real.pi)) : ℂ) * (kappa.getD l 0 : ℂ)) (fun _ m => m = 0) (L ^ 2)
    (fun w ell => do
      let k ← item kappa ell
      setItem w (elm2ind ell 0) ((Real.sqrt ((2 * (ell : ℝ) + 1) / (4 * Real.pi)) : ℂ) * (k : ℂ))) L
    (by
      intro ell a h1 h2
      have hlt : elm2ind ell 0 < a.length := by
        rw [h2]; exact elm2ind_lt_of_sq (by simp) (Nat.pow_le_pow_left (by omega) 2)
      have hk' : ell < kappa.length := by omega
      refine ⟨a.set (elm2ind ell 0) ((Real.sqrt ((2 * (ell : ℝ) + 1) / (4 * Real.pi)) : ℂ) * (kappa.getD ell 0 : ℂ)),
        ?_, by simpa using h2, ?_⟩
      · simp only [item_of_lt _ _ hk', bind, Except.bind]
        rw [setItem_of_lt _ _ _ hlt]
        simp [List.getD_eq_getElem?_getD, hk']
      · intro l m h
        rw [getD_set]
        simp only [hlt, and_true, elm2ind_inj (show |(0 : ℤ)| ≤ ell by simp) h]
        by_cases hc : l = ell ∧ m = 0
        · rw [if_pos hc, if_pos ⟨hc.1.symm, hc.2.symm⟩]
        · rw [if_neg hc, if_neg (fun h => hc ⟨h.1.symm, h.2.symm⟩)])
    (List.replicate (L ^ 2) 0) (by simp)
  refine ⟨b, hb, hl, fun l m h1 h2 => ?_⟩
  rw [hv l m h2]
  simp only [h1, true_and]
  split_ifs
  · rfl
  · simp only [List.getD_eq_getElem?_getD, List.getElem?_replicate]
    split_ifs <;> rfl

theorem axisymInverse_ok (L : ℕ) (wc wavelets : List (List ℂ)) (hlen : wc.length = wavelets.length)
    (hc : ∀ r ∈ wc, r.length = L ^ 2) (hw : ∀ r ∈ wavelets, r.length = L ^ 2) :
    ∃ flm, axisymInverse L wc wavelets = .ok flm ∧ flm.length = L ^ 2 ∧
      ∀ (l : ℕ) (m : ℤ), l < L → |m| ≤ l → flm.getD (elm2ind l m) 0 =
        (List.zipWith (fun c x => c.getD (elm2ind l m) 0 *
          ((Real.sqrt (4 * Real.pi / (2 * (l : ℝ) + 1)) : ℂ) * x.getD (elm2ind l 0) 0)) wc wavelets).sum := by
  have hsq : ∀ {ell}, ell < L → (ell + 1) ^ 2 ≤ L ^ 2 := fun h => Nat.pow_le_pow_left (by omega) 2
  obtain ⟨b, hb, hl, hv⟩ := writes_degrees
    (fun l m => (List.zipWith (fun c x => c.getD (elm2ind l m) 0 *
          ((Real.sqrt (4 * Real.pi / (2 * (l : ℝ) + 1)) : ℂ) * x.getD (elm2ind l 0) 0)) wc wavelets).sum)
    (fun _ _ => True) (L ^ 2)
    (fun flm ell => do
      let col ← wavelets.mapM fun r => item r (elm2ind ell 0)
      let wav0 := col.map fun x => (Real.sqrt (4 * Real.pi / (2 * (ell : ℝ) + 1)) : ℂ) * x
      (arangeEmm ell).foldlM (fun flm m => do
        let c ← wc.mapM fun r => item r (elm2ind ell m)
        let p ← broadcast (· * ·) c wav0
        setItem flm (elm2ind ell m) p.sum) flm) L
    (by
      intro ell a h1 h2
      obtain ⟨b, hb, hl, hv⟩ := writes_orders (fun m =>
          (List.zipWith (fun c x => c.getD (elm2ind ell m) 0 *
          ((Real.sqrt (4 * Real.pi / (2 * (ell : ℝ) + 1)) : ℂ) * x.getD (elm2ind ell 0) 0)) wc wavelets).sum)
        ell (L ^ 2) (hsq h1)
        (fun flm m => do
          let c ← wc.mapM fun r => item r (elm2ind ell m)
          let p ← broadcast (· * ·) c ((wavelets.map fun r => r.getD (elm2ind ell 0) 0).map fun x =>
            (Real.sqrt (4 * Real.pi / (2 * (ell : ℝ) + 1)) : ℂ) * x)
          setItem flm (elm2ind ell m) p.sum)
        (by
          intro b m hb hm
          have hlt : elm2ind ell m < L ^ 2 := elm2ind_lt_of_sq hm (hsq h1)
          simp only [mapM_eq_ok (fun r => item r (elm2ind ell m)) (fun r => r.getD (elm2ind ell m) 0) wc
            (fun r hr => item_getD (by rw [hc r hr]; exact hlt)), bind, Except.bind]
          rw [broadcast_of_length_eq _ _ _ (by simp [hlen])]
          simp only
          rw [setItem_of_lt _ _ _ (by rw [hb]; exact hlt)]
          congr 3
          rw [List.map_map, List.zipWith_map]
          rfl)
        (arangeEmm ell) a h2 (fun m hm => mem_arangeEmm.1 hm)
      refine ⟨b, ?_, hl, fun l m h => ?_⟩
      · have hlt : elm2ind ell 0 < L ^ 2 := elm2ind_lt_of_sq (by simp) (hsq h1)
        simp only [mapM_eq_ok (fun r => item r (elm2ind ell 0)) (fun r => r.getD (elm2ind ell 0) 0) wavelets
            (fun r hr => item_getD (by rw [hw r hr]; exact hlt)), bind, Except.bind]
        exact hb
      · rw [hv l m h]
        by_cases hl' : l = ell
        · subst hl'
          simp [mem_arangeEmm, h]
        · simp [hl'])
    (List.replicate (L ^ 2) 0) (by simp)
  refine ⟨b, hb, hl, fun l m h1 h2 => ?_⟩
  rw [hv l m h2, if_pos ⟨h1, trivial⟩]

end Sleplet.Wavelets

namespace Sleplet.Wavelets

open Complex NumPy

/-- how many entries `[:n]` keeps. -/
def cut (len : ℕ) : Option ℤ → ℕ
  | none => len
  | some n => if 0 ≤ n then n.toNat else len - n.natAbs

theorem upTo_eq {α : Type} (a : List α) (n : Option ℤ) : upTo a n = a.take (cut a.length n) := by
  match n with
  | none => simp [upTo, cut]
  | some n => simp only [upTo, cut]; split_ifs <;> rfl

theorem upTo_nat {α : Type} (a : List α) (n : ℕ) : upTo a (some (n : ℤ)) = a.take n := by
  simp [upTo]

/-- coefficientwise `f · conj g`. -/
noncomputable def prod (f g : List ℂ) : List ℂ := List.zipWith (fun x y => x * (starRingEnd ℂ) y) f g

theorem sift_eq (f g : List ℂ) (s : Option ℤ) (h : f.length = g.length) : sift f g s = .ok (upTo (prod f g) s) := by
  unfold sift prod
  rw [upTo_eq, upTo_eq, upTo_eq, broadcast_of_length_eq _ _ _ (by simp [h])]
  rw [List.length_map, List.length_zipWith, h, Nat.min_self, List.take_zipWith, List.map_take.symm, List.zipWith_map_right]

theorem broadcast_singleton {α β γ : Type} (op : α → β → γ) (a : List α) (y : β) :
    broadcast op a [y] = .ok (a.map fun x => op x y) := by
  unfold broadcast
  match a with
  | [] => simp
  | [x] => simp
  | x :: x' :: a => simp

theorem mapM_id_ok {α : Type} (xs : List α) : (xs.map fun x => (Except.ok x : Except Err α)).mapM id = .ok xs := by
  induction xs with
  | nil => rfl
  | cons x xs ih =>
    rw [List.map_cons, List.mapM_cons, ih]
    rfl

theorem sift2_vector (wavelets : Array2 ℂ) (hw : wavelets.WF) (fp : List ℂ) (n : ℕ) (hc : n ≤ wavelets.cols)
    (hf : n ≤ fp.length) :
    sift2 wavelets (newaxis fp) (some (n : ℤ)) =
      .ok ⟨n, wavelets.rows.map fun r => prod (r.take n) (fp.take n)⟩ := by
  have key : ∀ rows : List (List ℂ), (∀ r ∈ rows, r.length = wavelets.cols) →
      (rows.map fun r => broadcast (fun x y : ℂ => x * y) (r.take n) ((fp.map (starRingEnd ℂ)).take n)).mapM id =
        (.ok (rows.map fun r => prod (r.take n) (fp.take n)) : Except Err (List (List ℂ))) := by
    intro rows hr
    rw [← mapM_id_ok, List.map_map]
    congr 1
    apply List.map_congr_left
    intro r h
    rw [broadcast_of_length_eq _ _ _ (by simp [hr r h]; omega)]
    simp only [Function.comp_apply, prod]
    rw [← List.map_take, List.zipWith_map_right]
  unfold sift2 newaxis broadcast2 Array2.colsUpTo
  simp only [upTo_nat, List.map_cons, List.map_nil, List.length_take, List.length_range, Nat.min_eq_left hc,
    Nat.min_eq_left hf]
  simp only [dim, if_true, bind, Except.bind, broadcast_singleton]
  rw [List.map_map]
  have := key wavelets.rows hw
  simp only [Function.comp_def]
  rw [this]
  rfl

theorem sift2_rows (a b : Array2 ℂ) (ha : a.WF) (hb : b.WF) (n : ℕ) (hc : n ≤ a.cols) (hd : b.cols = n)
    (hr : a.rows.length = b.rows.length) :
    sift2 a b (some (n : ℤ)) = .ok ⟨n, List.zipWith (fun r s => prod (r.take n) s) a.rows b.rows⟩ := by
  unfold sift2 broadcast2 Array2.colsUpTo
  simp only [upTo_nat, List.length_take, List.length_range, Nat.min_eq_left hc, hd, Nat.min_self]
  simp only [dim, if_true, bind, Except.bind]
  rw [broadcast_of_length_eq _ _ _ (by simpa using hr)]
  simp only
  have key : ∀ (x y : List (List ℂ)), (∀ r ∈ x, r.length = a.cols) → (∀ r ∈ y, r.length = n) →
      (List.zipWith (fun r s : List ℂ => broadcast (fun x y : ℂ => x * y) r s) (x.map fun r => r.take n)
        ((y.map fun r => r.map (starRingEnd ℂ)).map fun r => r.take n)).mapM id =
        (.ok (List.zipWith (fun r s => prod (r.take n) s) x y) : Except Err (List (List ℂ))) := by
    intro x
    induction x with
    | nil => intro y _ _; rfl
    | cons r x ih =>
      intro y hx hy
      match y with
      | [] => rfl
      | s :: y =>
        have hs := hy s (by simp)
        simp only [List.map_cons, List.zipWith_cons_cons, List.mapM_cons]
        rw [ih y (fun r h => hx r (by simp [h])) (fun r h => hy r (by simp [h]))]
        rw [broadcast_of_length_eq _ _ _ (by simp [hx r (by simp), hs]; omega)]
        have : List.zipWith (fun x y : ℂ => x * y) (r.take n) ((s.map (starRingEnd ℂ)).take n) = prod (r.take n) s := by
          unfold prod
          rw [← hs, ← List.map_take, List.take_length, List.zipWith_map_right]
        simp only [id, this, bind, Except.bind, pure, Except.pure]
  rw [key a.rows b.rows ha (fun r h => by rw [hb r h, hd])]
  rfl

end Sleplet.Wavelets
