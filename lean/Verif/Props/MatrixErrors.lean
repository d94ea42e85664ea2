import Verif.Lemmas.Perturbation
import Verif.Props.KeptEigenvalues
import Verif.Props.RelatedRegions

/-!
C139: errors in the entries of the concentration matrix, such as those of rounding or of integration, and what the results are worth
then.  `D'` is the matrix handed to the solver, `D` the exact one.
-/
namespace Sleplet.Props

open Complex Sleplet.Spec Sleplet.Gaunt Sleplet.RealMat Sleplet.Eigen Sleplet.LatLon

private theorem sphere_errors {L n : ℕ} (hn : n = L ^ 2) {R : (ℝ → ℝ → ℂ) → ℝ} {D D' S S' : Fin n → Fin n → ℂ} {e e' : Fin n → ℝ}
    (h : BestConcentrated (bandlimited L) sphereInner R (fun p => synthesis L (List.ofFn (S p))) e)
    (h1 : (∀ p r, ∑ c, (starRingEnd ℂ) (D r c) * S p c = e p * S p r) ∧ OrthonormalRows S)
    (h1' : (∀ p r, ∑ c, (starRingEnd ℂ) (D' r c) * S' p c = e' p * S' p r) ∧ OrthonormalRows S') (he' : Antitone e')
    (ε : ℝ) (hε : ∀ r c, ‖D' r c - D r c‖ ≤ ε) :
    (∀ p q, sphereInner (synthesis L (List.ofFn (S' p))) (synthesis L (List.ofFn (S' q))) = if p = q then 1 else 0) ∧
    (∀ p, |e' p - e p| ≤ L ^ 2 * ε) ∧ (∀ p, |R (synthesis L (List.ofFn (S' p))) - e' p| ≤ L ^ 2 * ε) ∧
    (∀ (N : ℕ) (g : ℝ), N ≤ n → (∀ p q : Fin n, p.val < N → N ≤ q.val → g ≤ e p - e q) →
      g * ∑ q : Fin n with q.val < N, ∑ p : Fin n with N ≤ p.val,
        ‖sphereInner (synthesis L (List.ofFn (S' q))) (synthesis L (List.ofFn (S p)))‖ ^ 2 ≤ 2 * N * (L ^ 2 * ε)) ∧
    (∀ (N : ℕ) (g : ℝ), N ≤ n → L ^ 2 * ε ≤ g → (∀ p q : Fin n, p.val < N → N ≤ q.val → g ≤ e p - e q) →
      (g - L ^ 2 * ε) ^ 2 * ∑ q : Fin n with q.val < N, ∑ p : Fin n with N ≤ p.val,
        ‖sphereInner (synthesis L (List.ofFn (S' q))) (synthesis L (List.ofFn (S p)))‖ ^ 2 ≤ N * (L ^ 2 * ε) ^ 2) ∧
    ∀ (k : Fin n) (g : ℝ), L ^ 2 * ε ≤ g → (∀ p, p ≠ k → g ≤ |e p - e k|) →
      (g - L ^ 2 * ε) ^ 2 * (1 - ‖sphereInner (synthesis L (List.ofFn (S' k))) (synthesis L (List.ofFn (S k)))‖ ^ 2) ≤ (L ^ 2 * ε) ^ 2 ∧
      ∀ f ∈ bandlimited L, (g - L ^ 2 * ε) ^ 2 *
        (‖sphereInner f (synthesis L (List.ofFn (S' k)))‖ - ‖sphereInner f (synthesis L (List.ofFn (S k)))‖) ^ 2 ≤
          2 * (L ^ 2 * ε) ^ 2 * (sphereInner f f).re := by
  subst hn
  have hy : ∀ a : Fin (L ^ 2) → ℂ, ∑ i, a i • harm i = comb a := by
    intro a
    funext th ph
    simp only [Finset.sum_apply, Pi.smul_apply, smul_eq_mul, comb]
  have hs : ∀ a : Fin (L ^ 2) → ℂ, synthesis L (List.ofFn a) = ∑ i, a i • harm i := by
    intro a
    rw [hy]
    funext th ph
    rw [synthesis_eq, comb]
    refine Finset.sum_congr rfl fun i _ => ?_
    simp only [List.getD_eq_getElem?_getD, List.getElem?_ofFn, i.2, dif_pos, Option.getD_some]
  simp only [hs] at h ⊢
  have := matrix_errors (fun i : Fin (L ^ 2) => harm i) (fun f => by rw [mem_bandlimited_iff]; simp only [hy])
    (fun a b => by rw [hy, hy, inner_comb]) (linearOn_bandlimited L) D D' S S' h h1.1 h1.2 h1'.1 h1'.2 he' ε hε
  push_cast at this
  exact this

/-- the matrices of the orders as blocks of one matrix. -/
private noncomputable def block (D : ℤ → ℕ → ℕ → ℝ) (r c : ℕ) : ℂ :=
  if (ind2elm r).2 = (ind2elm c).2 then
    (D (ind2elm r).2 ((ind2elm r).1 - (ind2elm r).2.natAbs) ((ind2elm c).1 - (ind2elm r).2.natAbs) : ℂ) else 0

private theorem block_eigen (L : ℕ) (D : ℤ → ℕ → ℕ → ℝ) (sol : ℤ → OrderSolution)
    (hsol : ∀ m : ℤ, m.natAbs < L → IsEighOrder (L - m.natAbs) (D m) (sol m))
    (e : List ℝ) (v : List (List ℂ)) (o : List ℤ) (h : SolvesAll L sol (.ok (e, v, o))) :
    e.length = L ^ 2 ∧ (Antitone fun p : Fin (L ^ 2) => e.getD p 0) ∧
    (∀ p r : Fin (L ^ 2), ∑ c : Fin (L ^ 2), (starRingEnd ℂ) (block D r c) * (v.getD p []).getD c 0 = (e.getD p 0 : ℂ) * (v.getD p []).getD r 0) ∧
    OrthonormalRows fun p c : Fin (L ^ 2) => (v.getD p []).getD c 0 := by
  obtain ⟨e', v', o', hr, he, -, -, hdec, -, -, hrow, horth⟩ := polar_all_orders L D sol hsol _ h
  injection hr with hr
  simp only [Prod.mk.injEq] at hr
  obtain ⟨rfl, rfl, rfl⟩ := hr
  refine ⟨he, fun p q hpq => ?_, fun p rr => ?_, fun p q => ?_⟩
  · rcases eq_or_lt_of_le hpq with rfl | hlt
    · exact le_rfl
    · have hp : (p : ℕ) < e.length := by rw [he]; exact p.2
      have hq : (q : ℕ) < e.length := by rw [he]; exact q.2
      have := List.pairwise_iff_getElem.1 hdec p q hp hq hlt
      simpa [List.getD_eq_getElem?_getD, hp, hq] using this
  · obtain ⟨-, hμ, hz, hev⟩ := hrow p p.2
    set μ := o.getD p 0 with hμdef
    have hrl := ind2elm_fst_lt (L := L) rr.2
    have hrb := ind2elm_abs_le (rr : ℕ)
    have hcl : ∀ c : Fin (L ^ 2), (ind2elm c).1 < L := fun c => ind2elm_fst_lt c.2
    have hSz : ∀ c : Fin (L ^ 2), (ind2elm c).2 ≠ μ → (v.getD p []).getD c 0 = 0 := by
      intro c hc
      have := hz (ind2elm c).1 (ind2elm c).2 (hcl c) (ind2elm_abs_le _) hc
      rwa [elm2ind_ind2elm] at this
    by_cases hro : (ind2elm rr).2 = μ
    · set k := (ind2elm rr).1 - μ.natAbs with hk
      have hkl : (ind2elm rr).1 = μ.natAbs + k := by
        rw [hro, Int.abs_eq_natAbs] at hrb; omega
      have hrr : (rr : ℕ) = elm2ind (μ.natAbs + k) μ := by rw [← hkl, ← hro, elm2ind_ind2elm]
      have hb : ∀ j, |μ| ≤ ((μ.natAbs + j : ℕ) : ℤ) := by intro j; rw [Int.abs_eq_natAbs]; push_cast; omega
      have h1 := hev k (by omega)
      have hSr : (v.getD p []).getD rr 0 = (v.getD p []).getD (elm2ind (μ.natAbs + k) μ) 0 := by rw [hrr]
      rw [hSr, ← h1]
      symm
      let emb : ℕ → Fin (L ^ 2) := fun j => if hj : elm2ind (μ.natAbs + j) μ < L ^ 2 then ⟨_, hj⟩ else rr
      have hemb : ∀ j < L - μ.natAbs, (emb j : ℕ) = elm2ind (μ.natAbs + j) μ := by
        intro j hj
        have : elm2ind (μ.natAbs + j) μ < L ^ 2 := (elm2ind_lt_sq (hb j) L).2 (by omega)
        simp only [emb, this, dite_true]
      refine Finset.sum_of_injOn emb ?_ (fun j _ => Finset.mem_coe.2 (Finset.mem_univ _)) ?_ ?_
      · intro a ha b hb' hab
        simp only [Finset.coe_range, Set.mem_Iio] at ha hb'
        have h3 : elm2ind (μ.natAbs + a) μ = elm2ind (μ.natAbs + b) μ := by rw [← hemb a ha, ← hemb b hb', hab]
        have h4 := congrArg ind2elm h3
        rw [ind2elm_elm2ind (hb a), ind2elm_elm2ind (hb b)] at h4
        have := (Prod.mk.inj h4).1
        omega
      · intro c _ hc
        by_cases hco : (ind2elm c).2 = μ
        · exfalso
          have hcb := ind2elm_abs_le (c : ℕ)
          rw [hco, Int.abs_eq_natAbs] at hcb
          have := hcl c
          refine hc ⟨(ind2elm c).1 - μ.natAbs, ?_, ?_⟩
          · simp only [Finset.coe_range, Set.mem_Iio]; omega
          · apply Fin.ext
            rw [hemb _ (by omega), show μ.natAbs + ((ind2elm c).1 - μ.natAbs) = (ind2elm c).1 by omega, ← hco, elm2ind_ind2elm]
        · rw [hSz c hco, mul_zero]
      · intro j hj
        rw [Finset.mem_range] at hj
        rw [hemb j hj]
        unfold block
        rw [ind2elm_elm2ind (hb j), hro, if_pos rfl, conj_ofReal, hkl, Nat.add_sub_cancel_left, Nat.add_sub_cancel_left]
    · rw [hSz rr hro, mul_zero]
      refine Finset.sum_eq_zero fun c _ => ?_
      by_cases hco : (ind2elm c).2 = μ
      · unfold block
        rw [if_neg (by rw [hco]; exact hro), map_zero, zero_mul]
      · rw [hSz c hco, mul_zero]
  · have := horth p p.2 q q.2
    rw [← Fin.sum_univ_eq_sum_range (fun i => (v.getD p []).getD i 0 * (starRingEnd ℂ) ((v.getD q []).getD i 0))] at this
    refine this.trans ?_
    simp only [Fin.ext_iff]

/-- C139, polar caps and gaps, with a matrix for every order. -/
theorem C139_polar (L : ℕ) (gap : Bool) (t : ℝ) (ht0 : 0 ≤ t) (htpi : t ≤ Real.pi)
    (plm : List ℝ) (hlen : plm.length = (2 * L) ^ 2) (hplm : ∀ n < 2 * L, plm.getD (elm2ind n 0) 0 = (sphHarm n 0 t 0).re)
    (M : ℤ → ℕ → ℕ → ℝ) (hM : ∀ m : ℤ, m.natAbs < L → ∃ ncpu we, 1 ≤ ncpu ∧ CreatesOrder L gap plm m ncpu we (.ok (M m)))
    (sol : ℤ → OrderSolution) (hsol : ∀ m : ℤ, m.natAbs < L → IsEighOrder (L - m.natAbs) (M m) (sol m))
    (e : List ℝ) (v : List (List ℂ)) (o : List ℤ) (h : SolvesAll L sol (.ok (e, v, o)))
    (M' : ℤ → ℕ → ℕ → ℝ) (ε : ℝ) (hε : ∀ m : ℤ, m.natAbs < L → ∀ i < L - m.natAbs, ∀ j < L - m.natAbs, |M' m i j - M m i j| ≤ ε)
    (sol' : ℤ → OrderSolution) (hsol' : ∀ m : ℤ, m.natAbs < L → IsEighOrder (L - m.natAbs) (M' m) (sol' m))
    (e' : List ℝ) (v' : List (List ℂ)) (o' : List ℤ) (h' : SolvesAll L sol' (.ok (e', v', o'))) :
    let s := fun p : ℕ => synthesis L (v.getD p [])
    let s' := fun p : ℕ => synthesis L (v'.getD p [])
    (∀ p < L ^ 2, ∀ q < L ^ 2, sphereInner (s' p) (s' q) = if p = q then 1 else 0) ∧
    (∀ p < L ^ 2, |e'.getD p 0 - e.getD p 0| ≤ L ^ 2 * ε) ∧
    (∀ p < L ^ 2, |(capIntegral gap t fun th ph => s' p th ph * (starRingEnd ℂ) (s' p th ph)).re - e'.getD p 0| ≤ L ^ 2 * ε) ∧
    (∀ (N : ℕ) (g : ℝ), N ≤ L ^ 2 → (∀ p < N, ∀ q, N ≤ q → q < L ^ 2 → g ≤ e.getD p 0 - e.getD q 0) →
      g * ∑ q ∈ Finset.range N, ∑ p ∈ Finset.Ico N (L ^ 2), ‖sphereInner (s' q) (s p)‖ ^ 2 ≤ 2 * N * (L ^ 2 * ε)) ∧
    (∀ (N : ℕ) (g : ℝ), N ≤ L ^ 2 → L ^ 2 * ε ≤ g → (∀ p < N, ∀ q, N ≤ q → q < L ^ 2 → g ≤ e.getD p 0 - e.getD q 0) →
      (g - L ^ 2 * ε) ^ 2 * ∑ q ∈ Finset.range N, ∑ p ∈ Finset.Ico N (L ^ 2), ‖sphereInner (s' q) (s p)‖ ^ 2 ≤ N * (L ^ 2 * ε) ^ 2) ∧
    ∀ k < L ^ 2, ∀ g : ℝ, L ^ 2 * ε ≤ g → (∀ p < L ^ 2, p ≠ k → g ≤ |e.getD p 0 - e.getD k 0|) →
      (g - L ^ 2 * ε) ^ 2 * (1 - ‖sphereInner (s' k) (s k)‖ ^ 2) ≤ (L ^ 2 * ε) ^ 2 ∧
      ∀ f ∈ bandlimited L, (g - L ^ 2 * ε) ^ 2 * (‖sphereInner f (s' k)‖ - ‖sphereInner f (s k)‖) ^ 2 ≤
        2 * (L ^ 2 * ε) ^ 2 * (sphereInner f f).re := by
  obtain ⟨e₁, v₁, o₁, hr, -, -, b⟩ := C88_polar L gap t ht0 htpi plm hlen hplm M hM sol hsol _ h
  injection hr with hr
  simp only [Prod.mk.injEq] at hr
  obtain ⟨rfl, rfl, rfl⟩ := hr
  obtain ⟨-, -, h1⟩ := block_eigen L M sol hsol e v o h
  obtain ⟨-, ha, h1'⟩ := block_eigen L M' sol' hsol' e' v' o' h'
  have hsyn : ∀ c : List ℂ, synthesis L (List.ofFn fun i : Fin (L ^ 2) => c.getD i 0) = synthesis L c := by
    intro c
    funext th ph
    rw [synthesis_eq, synthesis_eq]
    refine Finset.sum_congr rfl fun i _ => ?_
    simp only [List.getD_eq_getElem?_getD, List.getElem?_ofFn, i.2, dif_pos, Option.getD_some]
  rcases Nat.eq_zero_or_pos L with rfl | hL
  · refine ⟨fun p hp => by simp at hp, fun p hp => by simp at hp, fun p hp => by simp at hp, fun N g hN _ => ?_, fun N g hN _ _ => ?_,
      fun p hp => by simp at hp⟩
    all_goals
      obtain rfl : N = 0 := by simpa using hN
      simp
  have h0 : 0 ≤ ε := (abs_nonneg _).trans (hε 0 (by simpa using hL) 0 (by simpa using hL) 0 (by simpa using hL))
  have hbl : ∀ r c : Fin (L ^ 2), ‖block M' r c - block M r c‖ ≤ ε := by
    intro r c
    unfold block
    have hrl := ind2elm_fst_lt (L := L) r.2
    have hcl := ind2elm_fst_lt (L := L) c.2
    have hrb := ind2elm_abs_le (r : ℕ)
    have hcb := ind2elm_abs_le (c : ℕ)
    rw [Int.abs_eq_natAbs] at hrb hcb
    split
    · next heq =>
      rw [← heq] at hcb
      rw [← ofReal_sub, norm_real, Real.norm_eq_abs]
      exact hε _ (by omega) _ (by omega) _ (by omega)
    · simpa using h0
  have key := sphere_errors (L := L) rfl (S := fun p c : Fin (L ^ 2) => (v.getD p []).getD c 0) (S' := fun p c : Fin (L ^ 2) => (v'.getD p []).getD c 0)
    (e := fun p : Fin (L ^ 2) => e.getD p 0) (e' := fun p : Fin (L ^ 2) => e'.getD p 0) (D := fun r c => block M r c) (D' := fun r c => block M' r c)
    (by simp only [hsyn]; exact b) h1 h1' ha ε hbl
  simp only [hsyn] at key
  obtain ⟨k1, k2, k3, k4, k5, k6⟩ := key
  have hA : ∀ (N : ℕ), N ≤ L ^ 2 → ∀ F : ℕ → ℝ, ∑ q : Fin (L ^ 2) with q.val < N, F q = ∑ q ∈ Finset.range N, F q := by
    intro N hN F
    rw [Finset.sum_filter, Fin.sum_univ_eq_sum_range (fun q => if q < N then F q else 0), ← Finset.sum_filter]
    congr 1
    ext x
    simp only [Finset.mem_filter, Finset.mem_range]
    omega
  have hB : ∀ (N : ℕ) (F : ℕ → ℝ), ∑ q : Fin (L ^ 2) with N ≤ q.val, F q = ∑ q ∈ Finset.Ico N (L ^ 2), F q := by
    intro N F
    rw [Finset.sum_filter, Fin.sum_univ_eq_sum_range (fun q => if N ≤ q then F q else 0), ← Finset.sum_filter]
    congr 1
    ext x
    simp only [Finset.mem_filter, Finset.mem_range, Finset.mem_Ico]
    omega
  have hAB : ∀ (N : ℕ), N ≤ L ^ 2 → ∑ q ∈ Finset.range N, ∑ p ∈ Finset.Ico N (L ^ 2), ‖sphereInner (synthesis L (v'.getD q [])) (synthesis L (v.getD p []))‖ ^ 2 =
      ∑ q : Fin (L ^ 2) with q.val < N, ∑ p : Fin (L ^ 2) with N ≤ p.val, ‖sphereInner (synthesis L (v'.getD q [])) (synthesis L (v.getD p []))‖ ^ 2 := by
    intro N hN
    rw [← hA N hN fun q => ∑ p ∈ Finset.Ico N (L ^ 2), ‖sphereInner (synthesis L (v'.getD q [])) (synthesis L (v.getD p []))‖ ^ 2]
    refine Finset.sum_congr rfl fun q _ => ?_
    exact (hB N fun p => ‖sphereInner (synthesis L (v'.getD q [])) (synthesis L (v.getD p []))‖ ^ 2).symm
  refine ⟨fun p hp q hq => ?_, fun p hp => k2 ⟨p, hp⟩, fun p hp => k3 ⟨p, hp⟩, fun N g hN hgap => ?_, fun N g hN hg hgap => ?_,
    fun k hk g hg hgap => k6 ⟨k, hk⟩ g hg fun p hp => hgap p p.2 fun h => hp (Fin.ext h)⟩
  · have := k1 ⟨p, hp⟩ ⟨q, hq⟩
    simpa only [Fin.mk.injEq] using this
  · dsimp only
    rw [hAB N hN]
    exact k4 N g hN fun p q hp hq => hgap p hp q hq q.2
  · dsimp only
    rw [hAB N hN]
    exact k5 N g hN hg fun p q hp hq => hgap p hp q hq q.2

/-- C139, latitude-longitude regions.  When every entry of the matrix handed to the solver is within `ε` of the exact one: the
functions returned are orthonormal over the sphere, the eigenvalues returned are within `L² ε` of the exact ones and of the parts of the
energy that the functions returned have in the region, and if the first `N` exact eigenvalues are greater than the others by `g`, the
components of the first `N` functions returned outside the span of the first `N` exact functions have at most the energy `2 N L² ε / g`
together, and at most `N (L² ε / (g - L² ε))²`; if an eigenvalue differs from all others by `g`, the function returned differs from the
exact one by at most the part `(L² ε / (g - L² ε))²` of its energy up to a factor, and the moduli of their coefficients of a signal by at
most `√2 L² ε / (g - L² ε)` times the norm of the signal. -/
theorem C139_lat_lon (L : ℕ) (n : ℕ) (hn : n + 1 = L ^ 2) (B : Bounds) (dl : Table) (hdl : IsWigner L dl)
    (hB0 : B.tmin ∈ Set.Icc 0 Real.pi) (hB1 : B.tmax ∈ Set.Icc 0 Real.pi) (we : ℕ → Option Err) (K : Mat) (h : CreatesK L B dl we (.ok K))
    (w : Fin (n + 1) → ℂ) (V : Fin (n + 1) → Fin (n + 1) → ℂ) (hD : IsEigh (fun r c : Fin (n + 1) => K r c) w V)
    (e : Fin (n + 1) → ℝ) (S : Fin (n + 1) → Fin (n + 1) → ℂ) (hS : CleansLatLon w V e S)
    (K' : Fin (n + 1) → Fin (n + 1) → ℂ) (ε : ℝ) (hε : ∀ r c : Fin (n + 1), ‖K' r c - K r c‖ ≤ ε)
    (w' : Fin (n + 1) → ℂ) (V' : Fin (n + 1) → Fin (n + 1) → ℂ) (hD' : IsEigh K' w' V')
    (e' : Fin (n + 1) → ℝ) (S' : Fin (n + 1) → Fin (n + 1) → ℂ) (hS' : CleansLatLon w' V' e' S') :
    let s := fun p => synthesis L (List.ofFn (S p))
    let s' := fun p => synthesis L (List.ofFn (S' p))
    (∀ p q, sphereInner (s' p) (s' q) = if p = q then 1 else 0) ∧ (∀ p, |e' p - e p| ≤ L ^ 2 * ε) ∧
    (∀ p, |(∫ ph in B.pmin..B.pmax, ∫ th in B.tmin..B.tmax, ‖s' p th ph‖ ^ 2 * Real.sin th) - e' p| ≤ L ^ 2 * ε) ∧
    (∀ (N : ℕ) (g : ℝ), N ≤ n + 1 → (∀ p q : Fin (n + 1), p.val < N → N ≤ q.val → g ≤ e p - e q) →
      g * ∑ q : Fin (n + 1) with q.val < N, ∑ p : Fin (n + 1) with N ≤ p.val, ‖sphereInner (s' q) (s p)‖ ^ 2 ≤ 2 * N * (L ^ 2 * ε)) ∧
    (∀ (N : ℕ) (g : ℝ), N ≤ n + 1 → L ^ 2 * ε ≤ g → (∀ p q : Fin (n + 1), p.val < N → N ≤ q.val → g ≤ e p - e q) →
      (g - L ^ 2 * ε) ^ 2 * ∑ q : Fin (n + 1) with q.val < N, ∑ p : Fin (n + 1) with N ≤ p.val, ‖sphereInner (s' q) (s p)‖ ^ 2 ≤
        N * (L ^ 2 * ε) ^ 2) ∧
    ∀ (k : Fin (n + 1)) (g : ℝ), L ^ 2 * ε ≤ g → (∀ p, p ≠ k → g ≤ |e p - e k|) →
      (g - L ^ 2 * ε) ^ 2 * (1 - ‖sphereInner (s' k) (s k)‖ ^ 2) ≤ (L ^ 2 * ε) ^ 2 ∧
      ∀ f ∈ bandlimited L, (g - L ^ 2 * ε) ^ 2 * (‖sphereInner f (s' k)‖ - ‖sphereInner f (s k)‖) ^ 2 ≤
        2 * (L ^ 2 * ε) ^ 2 * (sphereInner f f).re :=
  sphere_errors hn (C88_lat_lon L n hn B dl hdl hB0 hB1 we K h w V hD e S hS) (C18_lat_lon_orthonormal_eigenvectors _ w V hD e S hS)
    (C18_lat_lon_orthonormal_eigenvectors _ w' V' hD' e' S' hS') (C17_lat_lon_sorted_and_paired w' V' e' S' hS').1 ε hε

/-- C139, regions given by a mask. -/
theorem C139_masks (L n : ℕ) (hn : n + 1 = L ^ 2) (m : Integration.Grid (2 * L) → Bool) (P : Arb.Params (Integration.Grid (2 * L)))
    (hP : OnGrid L m P) (ncpu : ℕ) (hpos : 1 ≤ ncpu) (we : ℕ → Option Err) (M : ℕ → ℕ → ℂ) (h : Arb.CreatesD P ncpu we (.ok M))
    (w : Fin (n + 1) → ℂ) (V : Fin (n + 1) → Fin (n + 1) → ℂ) (hD : IsEigh (fun r c : Fin (n + 1) => M r c) w V)
    (e : Fin (n + 1) → ℝ) (S : Fin (n + 1) → Fin (n + 1) → ℂ) (hS : CleansArbitrary w V e S)
    (M' : Fin (n + 1) → Fin (n + 1) → ℂ) (ε : ℝ) (hε : ∀ r c : Fin (n + 1), ‖M' r c - M r c‖ ≤ ε)
    (w' : Fin (n + 1) → ℂ) (V' : Fin (n + 1) → Fin (n + 1) → ℂ) (hD' : IsEigh M' w' V')
    (e' : Fin (n + 1) → ℝ) (S' : Fin (n + 1) → Fin (n + 1) → ℂ) (hS' : CleansArbitrary w' V' e' S') :
    let s := fun p => synthesis L (List.ofFn (S p))
    let s' := fun p => synthesis L (List.ofFn (S' p))
    (∀ p q, sphereInner (s' p) (s' q) = if p = q then 1 else 0) ∧ (∀ p, |e' p - e p| ≤ L ^ 2 * ε) ∧
    (∀ p, |(∑ x with m x, ‖s' p (Integration.theta x) (Integration.phi x)‖ ^ 2 * Integration.weight (2 * L) x) - e' p| ≤ L ^ 2 * ε) ∧
    (∀ (N : ℕ) (g : ℝ), N ≤ n + 1 → (∀ p q : Fin (n + 1), p.val < N → N ≤ q.val → g ≤ e p - e q) →
      g * ∑ q : Fin (n + 1) with q.val < N, ∑ p : Fin (n + 1) with N ≤ p.val, ‖sphereInner (s' q) (s p)‖ ^ 2 ≤ 2 * N * (L ^ 2 * ε)) ∧
    (∀ (N : ℕ) (g : ℝ), N ≤ n + 1 → L ^ 2 * ε ≤ g → (∀ p q : Fin (n + 1), p.val < N → N ≤ q.val → g ≤ e p - e q) →
      (g - L ^ 2 * ε) ^ 2 * ∑ q : Fin (n + 1) with q.val < N, ∑ p : Fin (n + 1) with N ≤ p.val, ‖sphereInner (s' q) (s p)‖ ^ 2 ≤
        N * (L ^ 2 * ε) ^ 2) ∧
    ∀ (k : Fin (n + 1)) (g : ℝ), L ^ 2 * ε ≤ g → (∀ p, p ≠ k → g ≤ |e p - e k|) →
      (g - L ^ 2 * ε) ^ 2 * (1 - ‖sphereInner (s' k) (s k)‖ ^ 2) ≤ (L ^ 2 * ε) ^ 2 ∧
      ∀ f ∈ bandlimited L, (g - L ^ 2 * ε) ^ 2 * (‖sphereInner f (s' k)‖ - ‖sphereInner f (s k)‖) ^ 2 ≤
        2 * (L ^ 2 * ε) ^ 2 * (sphereInner f f).re :=
  sphere_errors hn (C88_arbitrary L n hn m P hP ncpu hpos we M h w V hD e S hS) (C18_arbitrary_orthonormal_eigenvectors _ w V hD e S hS)
    (C18_arbitrary_orthonormal_eigenvectors _ w' V' hD' e' S' hS') (C17_arbitrary_sorted_and_paired w' V' e' S' hS').1 ε hε

/-- C139, meshes, with `K` basis functions. -/
theorem C139_mesh {Vert : Type} [Fintype Vert] {K : ℕ} (ms : MeshT.MeshSlepian Vert) (φ : Fin K → Vert → ℝ) (e : Fin K → ℝ)
    (S : Fin K → Fin K → ℝ) (rows : ℕ) (h : BuiltMesh ms φ e S rows)
    (M' : Fin K → Fin K → ℝ) (ε : ℝ) (hε : ∀ r c, |M' r c - ∑ v with ms.region v = true, φ r v * φ c v| ≤ ε)
    (w' : Fin K → ℝ) (W' : Fin K → Fin K → ℝ) (hD' : IsEighReal M' w' W') (e' : Fin K → ℝ) (S' : Fin K → Fin K → ℝ)
    (hS' : CleansMesh w' W' e' S') :
    let s := fun p v => ∑ i, S p i * φ i v
    let s' := fun p v => ∑ i, S' p i * φ i v
    (∀ p q, ∑ v, s' p v * s' q v = if p = q then 1 else 0) ∧ (∀ p, |e' p - e p| ≤ K * ε) ∧
    (∀ p, |(∑ v with ms.region v = true, s' p v ^ 2) - e' p| ≤ K * ε) ∧
    (∀ (N : ℕ) (g : ℝ), N ≤ K → (∀ p q : Fin K, p.val < N → N ≤ q.val → g ≤ e p - e q) →
      g * ∑ q : Fin K with q.val < N, ∑ p : Fin K with N ≤ p.val, (∑ v, s' q v * s p v) ^ 2 ≤ 2 * N * (K * ε)) ∧
    (∀ (N : ℕ) (g : ℝ), N ≤ K → K * ε ≤ g → (∀ p q : Fin K, p.val < N → N ≤ q.val → g ≤ e p - e q) →
      (g - K * ε) ^ 2 * ∑ q : Fin K with q.val < N, ∑ p : Fin K with N ≤ p.val, (∑ v, s' q v * s p v) ^ 2 ≤ N * (K * ε) ^ 2) ∧
    ∀ (k : Fin K) (g : ℝ), K * ε ≤ g → (∀ p, p ≠ k → g ≤ |e p - e k|) →
      (g - K * ε) ^ 2 * (1 - (∑ v, s' k v * s k v) ^ 2) ≤ (K * ε) ^ 2 ∧
      ∀ c : Fin K → ℝ, let f := fun v => ∑ i, c i * φ i v
        (g - K * ε) ^ 2 * (|∑ v, f v * s' k v| - |∑ v, f v * s k v|) ^ 2 ≤ 2 * (K * ε) ^ 2 * ∑ v, f v ^ 2 := by
  have b := C88_mesh ms φ e S rows h
  obtain ⟨h1, h2⟩ := h.eigen
  obtain ⟨h3, h4⟩ := C18_mesh_orthonormal_eigenvectors M' w' W' hD' e' S' hS'
  have hy : ∀ a : Fin K → ℝ, ∑ i, a i • φ i = fun v => ∑ i, a i * φ i v := by
    intro a
    funext v
    simp only [Finset.sum_apply, Pi.smul_apply, smul_eq_mul]
  have := matrix_errors (𝕜 := ℝ) (V := {f : Vert → ℝ | ∃ c : Fin K → ℝ, f = fun v => ∑ i, c i * φ i v}) (inner := fun f g => ∑ v, f v * g v)
    (R := fun f => ∑ v with ms.region v = true, f v ^ 2) (e := e) (e' := e') φ (fun f => by simp only [hy]; rfl)
    (fun a c => ?_) (linearOn_mesh φ) (fun r c => ∑ v with ms.region v = true, φ r v * φ c v) M' S S' (by simp only [hy]; exact b)
    (fun p r => ?_) (fun p q => by simpa using h2 p q) (fun p r => by simpa using h3 p r) (fun p q => by simpa using h4 p q)
    (C17_mesh_sorted_and_paired w' W' e' S' hS').1 ε hε
  · simp only [hy, Real.norm_eq_abs, sq_abs] at this
    obtain ⟨k1, k2, k3, k4, k5, k6⟩ := this
    refine ⟨k1, k2, k3, k4, k5, fun k g hg hgap => ⟨(k6 k g hg hgap).1, fun c => ?_⟩⟩
    have := (k6 k g hg hgap).2 _ ⟨c, rfl⟩
    simp only [RCLike.re_to_real, ← sq] at this
    exact this
  · simp only [hy, conj_trivial]
    calc ∑ v, (∑ i, a i * φ i v) * ∑ i, c i * φ i v
        = ∑ v, ∑ i, ∑ j, (a i * c j) * (φ i v * φ j v) := by
          refine Finset.sum_congr rfl fun v _ => ?_
          rw [Finset.sum_mul_sum]
          exact Finset.sum_congr rfl fun i _ => Finset.sum_congr rfl fun j _ => by ring
      _ = ∑ i, ∑ j, (a i * c j) * ∑ v, φ i v * φ j v := by
          rw [Finset.sum_comm]
          refine Finset.sum_congr rfl fun i _ => ?_
          rw [Finset.sum_comm]
          exact Finset.sum_congr rfl fun j _ => by rw [Finset.mul_sum]
      _ = _ := by
          have ho := h.orth
          unfold OrthonormalOnVertices at ho
          simp only [ho, mul_ite, mul_one, mul_zero, Finset.sum_ite_eq, Finset.mem_univ, if_true]
  · have := h1 p r
    simp only [conj_trivial, RCLike.ofReal_real_eq_id, id]
    rw [← this]
    refine Finset.sum_congr rfl fun c _ => ?_
    rw [Finset.sum_filter]
    congr 1
    exact Finset.sum_congr rfl fun v _ => by split <;> simp [*]

private theorem shift_eigh {n : ℕ} {D : Fin n → Fin n → ℂ} {w : Fin n → ℂ} {V : Fin n → Fin n → ℂ} (h : IsEigh D w V) (t : ℝ) :
    IsEigh (fun r c => D r c + if r = c then (t : ℂ) else 0) (fun k => w k + t) V := by
  obtain ⟨h1, h2, h3⟩ := h
  refine ⟨fun k => by simp [h1 k], fun k r => ?_, h3⟩
  simp only [add_mul, Finset.sum_add_distrib, h2, ite_mul, zero_mul, Finset.sum_ite_eq, Finset.mem_univ, if_true]

/-- a cap with matrix entries on the diagonals too large by a hundredth. -/
example : ∃ (plm : List ℝ) (M : ℤ → ℕ → ℕ → ℝ) (sol : ℤ → OrderSolution) (e : List ℝ) (v : List (List ℂ)) (o : List ℤ)
    (M' : ℤ → ℕ → ℕ → ℝ) (sol' : ℤ → OrderSolution) (e' : List ℝ) (v' : List (List ℂ)) (o' : List ℤ),
    (∀ m : ℤ, m.natAbs < 3 → ∃ ncpu we, 1 ≤ ncpu ∧ CreatesOrder 3 false plm m ncpu we (.ok (M m))) ∧
    (∀ m : ℤ, m.natAbs < 3 → IsEighOrder (3 - m.natAbs) (M m) (sol m)) ∧ SolvesAll 3 sol (.ok (e, v, o)) ∧
    (∀ m i, M' m i i = M m i i + 1 / 100) ∧ (∀ m : ℤ, m.natAbs < 3 → IsEighOrder (3 - m.natAbs) (M' m) (sol' m)) ∧
    SolvesAll 3 sol' (.ok (e', v', o')) ∧ |e'.getD 0 0 - e.getD 0 0| ≤ 9 / 100 := by
  have hpi := Real.pi_gt_three
  obtain ⟨plm, M, sol, r, a, b, c, d, s⟩ := C50_polar_runs_exist 3 false 1
  obtain ⟨e, v, o, rfl, -⟩ := polar_all_orders 3 M sol d r s
  let M' : ℤ → ℕ → ℕ → ℝ := fun m i j => M m i j + if i = j then 1 / 100 else 0
  let sol' : ℤ → OrderSolution := fun m => ((sol m).1.map (· + 1 / 100), (sol m).2)
  have d' : ∀ m : ℤ, m.natAbs < 3 → IsEighOrder (3 - m.natAbs) (M' m) (sol' m) := by
    intro m hm
    obtain ⟨d1, d2, d3⟩ := d m hm
    refine ⟨by simp [sol', d1], fun k hk r hr => ?_, d3⟩
    have hk' : k < (sol m).1.length := by omega
    have hg : ((sol m).1.map (· + (1 : ℝ) / 100)).getD k 0 = (sol m).1.getD k 0 + 1 / 100 := by
      simp [List.getD_eq_getElem?_getD, hk']
    simp only [M', sol', add_mul, Finset.sum_add_distrib, d2 k hk r hr, ite_mul, zero_mul, Finset.sum_ite_eq, Finset.mem_range, if_pos hr, hg]
  obtain ⟨r', s'⟩ := exists_solvesAll 3 sol'
  obtain ⟨e', v', o', rfl, -⟩ := polar_all_orders 3 M' sol' d' r' s'
  refine ⟨plm, M, sol, e, v, o, M', sol', e', v', o', c, d, s, fun m i => by simp [M'], d', s', ?_⟩
  refine ((C139_polar 3 false 1 (by norm_num) (by linarith) plm a b M c sol d e v o s M' (1 / 100) (fun m _ i _ j _ => ?_) sol' d' e' v' o' s').2.1 0
    (by norm_num)).trans (by norm_num)
  dsimp only [M']
  rw [add_sub_cancel_left]
  split <;> norm_num

/-- a region with matrix entries on the diagonal too large by a hundredth. -/
example : ∃ (n : ℕ) (dl : Table) (we : ℕ → Option Err) (K : Mat) (w : Fin (n + 1) → ℂ) (V : Fin (n + 1) → Fin (n + 1) → ℂ)
    (e : Fin (n + 1) → ℝ) (S : Fin (n + 1) → Fin (n + 1) → ℂ) (K' : Fin (n + 1) → Fin (n + 1) → ℂ) (w' : Fin (n + 1) → ℂ)
    (e' : Fin (n + 1) → ℝ) (S' : Fin (n + 1) → Fin (n + 1) → ℂ), n + 1 = 3 ^ 2 ∧ IsWigner 3 dl ∧ CreatesK 3 ⟨1, 2, 0, 1⟩ dl we (.ok K) ∧
    IsEigh (fun r c : Fin (n + 1) => K r c) w V ∧ CleansLatLon w V e S ∧ (∀ r c : Fin (n + 1), ‖K' r c - K r c‖ ≤ 1 / 100) ∧
    (K' 0 0 ≠ K 0 0) ∧ IsEigh K' w' V ∧ CleansLatLon w' V e' S' ∧ |e' 0 - e 0| ≤ 9 / 100 := by
  have hpi := Real.pi_gt_three
  have h1 : (1 : ℝ) ∈ Set.Icc 0 Real.pi := ⟨by linarith, by linarith⟩
  have h2 : (2 : ℝ) ∈ Set.Icc 0 Real.pi := ⟨by linarith, by linarith⟩
  obtain ⟨-, n, dl, we, K, w, V, e, S, hn, hdl, hK, hD, hS, -⟩ := (C111_runs_exist 3 (by norm_num)).2 ⟨1, 2, 0, 1⟩ h1 h2
  have hD' := shift_eigh hD (1 / 100)
  obtain ⟨σ, hσ, -⟩ := id hS
  have hS' : CleansLatLon (fun k => w k + ((1 / 100 : ℝ) : ℂ)) V (cleanLatLon σ (fun k => w k + ((1 / 100 : ℝ) : ℂ)) V).1
      (cleanLatLon σ (fun k => w k + ((1 / 100 : ℝ) : ℂ)) V).2 := by
    refine ⟨σ, fun i j hij => ?_, rfl⟩
    have := hσ hij
    simp only [Function.comp, add_re, ofReal_re] at this ⊢
    linarith
  have hε : ∀ r c : Fin (n + 1), ‖(K r c + if r = c then (((1 / 100 : ℝ)) : ℂ) else 0) - K r c‖ ≤ 1 / 100 := by
    intro r c
    rw [add_sub_cancel_left]
    split
    · rw [norm_real, Real.norm_eq_abs, abs_of_pos (by norm_num)]
    · rw [norm_zero]; norm_num
  refine ⟨n, dl, we, K, w, V, e, S, _, _, _, _, hn, hdl, hK, hD, hS, hε, ?_, hD', hS', ?_⟩
  · change K 0 0 + (if (0 : Fin (n + 1)) = 0 then ((1 / 100 : ℝ) : ℂ) else 0) ≠ K 0 0
    rw [if_pos rfl, ne_eq, add_eq_left]
    norm_num
  · refine ((C139_lat_lon 3 n hn ⟨1, 2, 0, 1⟩ dl hdl h1 h2 we K hK w V hD e S hS _ (1 / 100) hε _ V hD' _ _ hS').2.1 0).trans (by norm_num)

/-- likewise for a mask. -/
example (m : Integration.Grid (2 * 3) → Bool) : ∃ (n : ℕ) (P : Arb.Params (Integration.Grid (2 * 3))) (we : ℕ → Option Err) (M : ℕ → ℕ → ℂ)
    (w : Fin (n + 1) → ℂ) (V : Fin (n + 1) → Fin (n + 1) → ℂ) (e : Fin (n + 1) → ℝ) (S : Fin (n + 1) → Fin (n + 1) → ℂ)
    (M' : Fin (n + 1) → Fin (n + 1) → ℂ) (w' : Fin (n + 1) → ℂ) (e' : Fin (n + 1) → ℝ) (S' : Fin (n + 1) → Fin (n + 1) → ℂ),
    n + 1 = 3 ^ 2 ∧ OnGrid 3 m P ∧ Arb.CreatesD P 3 we (.ok M) ∧ IsEigh (fun r c : Fin (n + 1) => M r c) w V ∧ CleansArbitrary w V e S ∧
    (∀ r c : Fin (n + 1), ‖M' r c - M r c‖ ≤ 1 / 100) ∧ M' 0 0 ≠ M 0 0 ∧ IsEigh M' w' V ∧ CleansArbitrary w' V e' S' ∧
    |e' 0 - e 0| ≤ 9 / 100 := by
  obtain ⟨n, hn, P, we, M, w, V, e, S, hP, hM, hD, hS⟩ := C50_arbitrary_runs_exist 3 (by norm_num) m
  have hD' := shift_eigh hD (1 / 100)
  obtain ⟨σ, hσ, -⟩ := id hS
  have hS' : CleansArbitrary (fun k => w k + ((1 / 100 : ℝ) : ℂ)) V (cleanArbitrary σ (fun k => w k + ((1 / 100 : ℝ) : ℂ)) V).1
      (cleanArbitrary σ (fun k => w k + ((1 / 100 : ℝ) : ℂ)) V).2 := by
    refine ⟨σ, fun i j hij => ?_, rfl⟩
    have := hσ hij
    simp only [Function.comp, add_re, ofReal_re] at this ⊢
    linarith
  have hε : ∀ r c : Fin (n + 1), ‖(M r c + if r = c then (((1 / 100 : ℝ)) : ℂ) else 0) - M r c‖ ≤ 1 / 100 := by
    intro r c
    rw [add_sub_cancel_left]
    split
    · rw [norm_real, Real.norm_eq_abs, abs_of_pos (by norm_num)]
    · rw [norm_zero]; norm_num
  refine ⟨n, P, we, M, w, V, e, S, _, _, _, _, hn, hP, hM, hD, hS, hε, ?_, hD', hS', ?_⟩
  · change M 0 0 + (if (0 : Fin (n + 1)) = 0 then ((1 / 100 : ℝ) : ℂ) else 0) ≠ M 0 0
    rw [if_pos rfl, ne_eq, add_eq_left]
    norm_num
  · refine ((C139_masks 3 n hn m P hP 3 (by norm_num) we M hM w V hD e S hS _ (1 / 100) hε _ V hD' _ _ hS').2.1 0).trans (by norm_num)

/-- two basis functions on three vertices, with matrix entries on the diagonal too large by a hundredth. -/
example : ∃ (ms : MeshT.MeshSlepian (Fin 3)) (e : Fin 2 → ℝ) (S : Fin 2 → Fin 2 → ℝ) (M' : Fin 2 → Fin 2 → ℝ) (w' : Fin 2 → ℝ)
    (W' : Fin 2 → Fin 2 → ℝ) (e' : Fin 2 → ℝ) (S' : Fin 2 → Fin 2 → ℝ), BuiltMesh ms ![![0, 3 / 5, 4 / 5], ![1, 0, 0]] e S 2 ∧
    M' 0 0 = 9 / 25 + 1 / 100 ∧ IsEighReal M' w' W' ∧ CleansMesh w' W' e' S' ∧ |e' 0 - e 0| ≤ 2 / 100 := by
  have o2 : OrthonormalOnVertices (V := Fin 3) (K := 2) ![![0, 3 / 5, 4 / 5], ![1, 0, 0]] := by
    intro i j
    fin_cases i <;> fin_cases j <;> norm_num [Fin.sum_univ_succ]
  obtain ⟨ms, e, S, r, -, b⟩ := exists_built _ o2 (fun v => v == 1) 1 (by norm_num)
  have hD' : IsEighReal (n := 2) ![![9 / 25 + 1 / 100, 0], ![0, 1 / 100]] ![9 / 25 + 1 / 100, 1 / 100] ![![1, 0], ![0, 1]] := by
    constructor <;> intro k r <;> fin_cases k <;> fin_cases r <;> norm_num [Fin.sum_univ_succ]
  have hS' : CleansMesh (n := 2) ![9 / 25 + 1 / 100, 1 / 100] ![![1, 0], ![0, 1]]
      (cleanMesh (Equiv.swap 0 1) ![9 / 25 + 1 / 100, 1 / 100] ![![1, 0], ![0, 1]]).1
      (cleanMesh (Equiv.swap 0 1) ![9 / 25 + 1 / 100, 1 / 100] ![![1, 0], ![0, 1]]).2 := by
    refine ⟨Equiv.swap 0 1, fun i j hij => ?_, rfl⟩
    fin_cases i <;> fin_cases j <;> first | exact absurd hij (by decide) | norm_num
  refine ⟨ms, e, S, _, _, _, _, _, b, rfl, hD', hS', ?_⟩
  refine ((C139_mesh ms _ e S 2 b _ (1 / 100) (fun p q => ?_) _ _ hD' _ _ hS').2.1 0).trans (by norm_num)
  rw [r]
  fin_cases p <;> fin_cases q <;> norm_num [Finset.sum_filter, Fin.sum_univ_succ]

end Sleplet.Props
