import Mathlib.Algebra.BigOperators.Group.List.Lemmas
import Mathlib.Tactic.LinearCombination
import Verif.Lemmas.Wavelets

/-!
C25 (sifting convolution), C26 (axisymmetric wavelets), C27 and C28 (Slepian wavelets).
-/
namespace Sleplet.Props

open Complex NumPy Wavelets

/-- C25. The convolution of two vectors of the same length is coefficientwise `f · conj g`; with a Shannon number `N` it is
that of the first `N` coefficients, however long the vectors are. -/
theorem C25_value (f g : List ℂ) (n : ℕ) :
    (f.length = g.length → ∃ h, sift f g none = .ok h ∧ h.length = f.length ∧
      ∀ p < f.length, h.getD p 0 = f.getD p 0 * (starRingEnd ℂ) (g.getD p 0)) ∧
    (n ≤ f.length → n ≤ g.length → ∃ h, sift f g (some n) = .ok h ∧ h.length = n ∧
      ∀ p < n, h.getD p 0 = f.getD p 0 * (starRingEnd ℂ) (g.getD p 0)) := by
  constructor
  · intro h
    refine ⟨_, sift_eq f g none h, by simp [upTo, prod, h], fun p hp => ?_⟩
    have hq : p < g.length := by omega
    simp [upTo, prod, List.getD_eq_getElem?_getD, hp, hq]
  · intro h1 h2
    refine ⟨prod (f.take n) (g.take n), ?_, by simp [prod, h1, h2], fun p hp => ?_⟩
    · unfold sift
      rw [upTo_nat, upTo_nat, broadcast_of_length_eq _ _ _ (by simp; omega), ← List.map_take, List.zipWith_map_right]
      rfl
    · have h3 : p < f.length := by omega
      have h4 : p < g.length := by omega
      simp [prod, List.getD_eq_getElem?_getD, hp, h3, h4]

private theorem ext_zip {a b : List ℂ} (hl : a.length = b.length) (h : ∀ p < a.length, a.getD p 0 = b.getD p 0) : a = b := by
  apply List.ext_getElem hl
  intro i h1 h2
  have := h i h1
  simpa [List.getD_eq_getElem?_getD, h1, h2] using this

private theorem zw_getD {f g : List ℂ} (op : ℂ → ℂ → ℂ) (h : f.length = g.length) {p : ℕ} (hp : p < f.length) :
    (List.zipWith op f g).getD p 0 = op (f.getD p 0) (g.getD p 0) := by
  have hq : p < g.length := by omega
  simp [List.getD_eq_getElem?_getD, hp, hq]

private theorem map_getD {f : List ℂ} (op : ℂ → ℂ) {p : ℕ} (hp : p < f.length) :
    (f.map op).getD p 0 = op (f.getD p 0) := by
  simp [List.getD_eq_getElem?_getD, hp]

/-- C25. Laws for vectors of one length, whatever the Shannon number: additive in each argument, homogeneous (conjugate in
the second), conjugate symmetric, and convolving with all ones changes nothing but the length. -/
theorem C25_laws (f f' g g' : List ℂ) (c : ℂ) (s : Option ℤ) (h1 : f'.length = f.length) (h2 : g.length = f.length)
    (h3 : g'.length = f.length) :
    ∃ fg f'g fg' : List ℂ, sift f g s = .ok fg ∧ sift f' g s = .ok f'g ∧ sift f g' s = .ok fg' ∧
      sift (List.zipWith (· + ·) f f') g s = .ok (List.zipWith (· + ·) fg f'g) ∧
      sift f (List.zipWith (· + ·) g g') s = .ok (List.zipWith (· + ·) fg fg') ∧
      sift (f.map (c * ·)) g s = .ok (fg.map (c * ·)) ∧
      sift f (g.map (c * ·)) s = .ok (fg.map ((starRingEnd ℂ) c * ·)) ∧
      sift g f s = .ok (fg.map (starRingEnd ℂ)) ∧
      sift f (List.replicate f.length 1) s = .ok (upTo f s) := by
  have hp : ∀ a b : List ℂ, a.length = f.length → b.length = f.length → (prod a b).length = f.length := by
    intro a b ha hb
    simp [prod, ha, hb]
  have hv : ∀ a b : List ℂ, a.length = f.length → b.length = f.length → ∀ p < f.length,
      (prod a b).getD p 0 = a.getD p 0 * (starRingEnd ℂ) (b.getD p 0) := by
    intro a b ha hb p hpl
    unfold prod
    rw [zw_getD _ (by rw [ha, hb]) (by rw [ha]; exact hpl)]
  have hz : ∀ a b : List ℂ, a.length = f.length → b.length = f.length → ∀ p < f.length,
      (List.zipWith (· + ·) a b).getD p 0 = a.getD p 0 + b.getD p 0 :=
    fun a b ha hb p hpl => zw_getD _ (by rw [ha, hb]) (by rw [ha]; exact hpl)
  have hm : ∀ (a : List ℂ) (op : ℂ → ℂ), a.length = f.length → ∀ p < f.length, (a.map op).getD p 0 = op (a.getD p 0) :=
    fun a op ha p hpl => map_getD op (by rw [ha]; exact hpl)
  have hzl : ∀ a b : List ℂ, a.length = f.length → b.length = f.length → (List.zipWith (· + ·) a b).length = f.length := by
    intro a b ha hb
    simp [ha, hb]
  have hup : ∀ a b : List ℂ, a.length = f.length → b.length = f.length →
      List.zipWith (· + ·) (upTo a s) (upTo b s) = upTo (List.zipWith (· + ·) a b) s := by
    intro a b ha hb
    rw [upTo_eq, upTo_eq, upTo_eq, ha, hb, hzl a b ha hb, ← List.take_zipWith]
  have hum : ∀ (a : List ℂ) (op : ℂ → ℂ), (upTo a s).map op = upTo (a.map op) s := by
    intro a op
    rw [upTo_eq, upTo_eq, List.length_map, List.map_take]
  refine ⟨_, _, _, sift_eq f g s h2.symm, sift_eq f' g s (by rw [h1, h2]), sift_eq f g' s h3.symm, ?_, ?_, ?_, ?_, ?_, ?_⟩
  · rw [sift_eq _ _ s (by rw [hzl f f' rfl h1, h2]), hup _ _ (hp f g rfl h2) (hp f' g h1 h2)]
    congr 2
    apply ext_zip
    · rw [hp _ g (hzl f f' rfl h1) h2, hzl _ _ (hp f g rfl h2) (hp f' g h1 h2)]
    · rw [hp _ g (hzl f f' rfl h1) h2]
      intro p hpl
      rw [hv _ g (hzl f f' rfl h1) h2 p hpl, hz _ _ (hp f g rfl h2) (hp f' g h1 h2) p hpl, hz f f' rfl h1 p hpl,
        hv f g rfl h2 p hpl, hv f' g h1 h2 p hpl]
      ring
  · rw [sift_eq _ _ s (by rw [hzl g g' h2 h3]), hup _ _ (hp f g rfl h2) (hp f g' rfl h3)]
    congr 2
    apply ext_zip
    · rw [hp f _ rfl (hzl g g' h2 h3), hzl _ _ (hp f g rfl h2) (hp f g' rfl h3)]
    · rw [hp f _ rfl (hzl g g' h2 h3)]
      intro p hpl
      rw [hv f _ rfl (hzl g g' h2 h3) p hpl, hz _ _ (hp f g rfl h2) (hp f g' rfl h3) p hpl, hz g g' h2 h3 p hpl,
        hv f g rfl h2 p hpl, hv f g' rfl h3 p hpl, map_add]
      ring
  · rw [sift_eq _ _ s (by simp [h2]), hum]
    congr 2
    apply ext_zip
    · rw [hp _ g (by simp) h2, List.length_map, hp f g rfl h2]
    · rw [hp _ g (by simp) h2]
      intro p hpl
      rw [hv _ g (by simp) h2 p hpl, hm f _ rfl p hpl, hm _ _ (hp f g rfl h2) p hpl, hv f g rfl h2 p hpl]
      ring
  · rw [sift_eq _ _ s (by simp [h2]), hum]
    congr 2
    apply ext_zip
    · rw [hp f _ rfl (by simpa using h2), List.length_map, hp f g rfl h2]
    · rw [hp f _ rfl (by simpa using h2)]
      intro p hpl
      rw [hv f _ rfl (by simpa using h2) p hpl, hm g _ h2 p hpl, hm _ _ (hp f g rfl h2) p hpl, hv f g rfl h2 p hpl, map_mul]
      ring
  · rw [sift_eq _ _ s h2, hum]
    congr 2
    apply ext_zip
    · rw [hp g f h2 rfl, List.length_map, hp f g rfl h2]
    · rw [hp g f h2 rfl]
      intro p hpl
      rw [hv g f h2 rfl p hpl, hm _ _ (hp f g rfl h2) p hpl, hv f g rfl h2 p hpl, map_mul, starRingEnd_self_apply]
      ring
  · rw [sift_eq _ _ s (by simp)]
    congr 2
    apply ext_zip
    · rw [hp f _ rfl (by simp)]
    · rw [hp f _ rfl (by simp)]
      intro p hpl
      rw [hv f _ rfl (by simp) p hpl]
      simp [List.getD_eq_getElem?_getD, hpl]

/-- without a Shannon number, vectors of different lengths (neither being 1) are rejected. -/
theorem C25_mismatch (f g : List ℂ) (h : f.length ≠ g.length) (hf : f.length ≠ 1) (hg : g.length ≠ 1) :
    sift f g none = .error .valueError := by
  unfold sift
  exact broadcast_error _ _ _ (by simpa [upTo] using h) (by simpa [upTo] using hf) (by simpa [upTo] using hg)

/-- `(1, i) * (2, i) = (2, i · (-i)) = (2, 1)`. -/
example : sift [1, I] [2, I] none = .ok [2, 1] := by
  rw [sift_eq [1, I] [2, I] none (by simp)]
  simp [upTo, prod, Complex.conj_ofNat]

/-- C26. Analysis followed by synthesis with axisymmetric wavelets multiplies the coefficients of degree `l` by
`Σ_j κ_j(l)²`; with the admissibility condition it is the identity. -/
theorem C26_axisymmetric_round_trip (L : ℕ) (kappas : List (List ℝ)) (hk : ∀ k ∈ kappas, L ≤ k.length) (flm : List ℂ)
    (hf : flm.length = L ^ 2) :
    ∃ wavelets w out, createAxisym L kappas = .ok wavelets ∧ axisymForward L flm wavelets = .ok w ∧
      axisymInverse L w wavelets = .ok out ∧ out.length = L ^ 2 ∧
      (∀ (l : ℕ) (m : ℤ), l < L → |m| ≤ l → out.getD (elm2ind l m) 0 =
        ((kappas.map fun k => k.getD l 0 ^ 2).sum : ℝ) * flm.getD (elm2ind l m) 0) ∧
      ((∀ l < L, (kappas.map fun k => k.getD l 0 ^ 2).sum = 1) → out = flm) := by
  classical
  have hA : ∀ k ∈ kappas, ∃ w, axisymRow L k = .ok w ∧ w.length = L ^ 2 ∧
      ∀ (l : ℕ) (m : ℤ), l < L → |m| ≤ l → w.getD (elm2ind l m) 0 =
        if m = 0 then (Real.sqrt ((2 * (l : ℝ) + 1) / (4 * Real.pi)) : ℂ) * (k.getD l 0 : ℂ) else 0 :=
    fun k h => axisymRow_ok L k (hk k h)
  let A : List ℝ → List ℂ := fun k => if h : k ∈ kappas then (hA k h).choose else []
  have hAs : ∀ k ∈ kappas, axisymRow L k = .ok (A k) ∧ (A k).length = L ^ 2 ∧
      ∀ (l : ℕ) (m : ℤ), l < L → |m| ≤ l → (A k).getD (elm2ind l m) 0 =
        if m = 0 then (Real.sqrt ((2 * (l : ℝ) + 1) / (4 * Real.pi)) : ℂ) * (k.getD l 0 : ℂ) else 0 := by
    intro k h
    simp only [A, dif_pos h]
    exact (hA k h).choose_spec
  have hW : ∀ psi : List ℂ, psi.length = L ^ 2 → ∃ w, forwardRow L flm psi = .ok w ∧ w.length = L ^ 2 ∧
      ∀ (l : ℕ) (m : ℤ), l < L → |m| ≤ l → w.getD (elm2ind l m) 0 =
        (Real.sqrt (4 * Real.pi / (2 * (l : ℝ) + 1)) : ℂ) * (starRingEnd ℂ) (psi.getD (elm2ind l 0) 0) *
          flm.getD (elm2ind l m) 0 := fun psi h => forwardRow_ok L flm psi hf h
  let W : List ℂ → List ℂ := fun psi => if h : psi.length = L ^ 2 then (hW psi h).choose else []
  have hWs : ∀ psi : List ℂ, psi.length = L ^ 2 → forwardRow L flm psi = .ok (W psi) ∧ (W psi).length = L ^ 2 ∧
      ∀ (l : ℕ) (m : ℤ), l < L → |m| ≤ l → (W psi).getD (elm2ind l m) 0 =
        (Real.sqrt (4 * Real.pi / (2 * (l : ℝ) + 1)) : ℂ) * (starRingEnd ℂ) (psi.getD (elm2ind l 0) 0) *
          flm.getD (elm2ind l m) 0 := by
    intro psi h
    simp only [W, dif_pos h]
    exact (hW psi h).choose_spec
  have hlen : ∀ r ∈ kappas.map A, r.length = L ^ 2 := by
    intro r hr
    obtain ⟨k, hk, rfl⟩ := List.mem_map.1 hr
    exact (hAs k hk).2.1
  obtain ⟨out, ho, hol, hov⟩ := axisymInverse_ok L ((kappas.map A).map W) (kappas.map A) (by simp)
    (by
      intro r hr
      obtain ⟨psi, hpsi, rfl⟩ := List.mem_map.1 hr
      exact (hWs psi (hlen psi hpsi)).2.1) hlen
  have hval : ∀ (l : ℕ) (m : ℤ), l < L → |m| ≤ l → out.getD (elm2ind l m) 0 =
        ((kappas.map fun k => k.getD l 0 ^ 2).sum : ℝ) * flm.getD (elm2ind l m) 0 := by
    intro l m h1 h2
    rw [hov l m h1 h2, List.zipWith_map_left, List.zipWith_self, List.map_map]
    have : kappas.map ((fun a => (W a).getD (elm2ind l m) 0 *
          ((Real.sqrt (4 * Real.pi / (2 * (l : ℝ) + 1)) : ℂ) * a.getD (elm2ind l 0) 0)) ∘ A) =
        kappas.map fun k => ((k.getD l 0 ^ 2 : ℝ) : ℂ) * flm.getD (elm2ind l m) 0 := by
      apply List.map_congr_left
      intro k hk
      simp only [Function.comp_apply]
      rw [(hWs _ (hAs k hk).2.1).2.2 l m h1 h2, (hAs k hk).2.2 l 0 h1 (by simp), if_pos rfl]
      simp only [map_mul, conj_ofReal]
      have hs : ((Real.sqrt (4 * Real.pi / (2 * (l : ℝ) + 1)) : ℂ)) * (Real.sqrt ((2 * (l : ℝ) + 1) / (4 * Real.pi)) : ℂ) = 1 := by
        rw [← ofReal_mul, ← Real.sqrt_mul (by positivity)]
        have : 4 * Real.pi / (2 * (l : ℝ) + 1) * ((2 * (l : ℝ) + 1) / (4 * Real.pi)) = 1 := by
          have := Real.pi_ne_zero
          have : (2 * (l : ℝ) + 1) ≠ 0 := by positivity
          field_simp
        rw [this]
        simp
      push_cast
      linear_combination (((Real.sqrt (4 * Real.pi / (2 * (l : ℝ) + 1)) : ℂ)) *
        (Real.sqrt ((2 * (l : ℝ) + 1) / (4 * Real.pi)) : ℂ) + 1) * (k.getD l 0 : ℂ) ^ 2 * flm.getD (elm2ind l m) 0 * hs
    rw [this]
    generalize kappas = ks
    induction ks with
    | nil => simp
    | cons k ks ih =>
      simp only [List.map_cons, List.sum_cons]
      rw [ih]
      push_cast
      ring
  refine ⟨kappas.map A, (kappas.map A).map W, out, ?_, ?_, ho, hol, hval, ?_⟩
  · exact mapM_eq_ok _ _ _ fun k hk => (hAs k hk).1
  · exact mapM_eq_ok _ _ _ fun psi hpsi => (hWs psi (hlen psi hpsi)).1
  · intro hadm
    apply ext_of_pairs hol hf
    intro l m h1 h2
    rw [hval l m h1 h2, hadm l h1]
    simp

/-- two generating functions for bandlimit 2 that tile the degrees. -/
example : (∀ k ∈ ([[1, 0], [0, 1]] : List (List ℝ)), 2 ≤ k.length) ∧
    ∀ l < 2, (([[1, 0], [0, 1]] : List (List ℝ)).map fun k => k.getD l 0 ^ 2).sum = 1 := by
  refine ⟨by simp, fun l hl => ?_⟩
  match l, hl with
  | 0, _ => simp
  | 1, _ => simp

end Sleplet.Props
