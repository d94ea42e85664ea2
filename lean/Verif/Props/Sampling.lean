import Verif.Lemmas.Sampling
import Verif.Props.ConcentrationGrid
import Verif.Props.SphereScript

/-!
C105 (fields on the sampling grid hold all of a bandlimited function).
-/
namespace Sleplet.Props

open Spec Sleplet.Gaunt

/-- C105. For every bandlimit `L ≥ 1`: functions of bandlimit `L` with the same values at the samples `(tπ/L, pπ/L)`, `t ≤ L`, `p < 2L`, have the
same coefficients. -/
theorem C105_sampling (L : ℕ) (hL : 1 ≤ L) (c d : List ℂ) (hc : c.length = L ^ 2) (hd : d.length = L ^ 2)
    (h : ∀ t ≤ L, ∀ p < 2 * L, synthesis L c (t * Real.pi / L) (p * Real.pi / L) =
      synthesis L d (t * Real.pi / L) (p * Real.pi / L)) : c = d := by
  have hlen : (List.zipWith (fun a b => a - b) c d).length = L ^ 2 := by simp [hc, hd]
  have hget : ∀ i, (List.zipWith (fun a b : ℂ => a - b) c d).getD i 0 = c.getD i 0 - d.getD i 0 := by
    intro i
    rcases Nat.lt_or_ge i (L ^ 2) with hi | hi
    · simp [List.getD_eq_getElem?_getD, List.getElem?_eq_getElem (hc ▸ hi : i < c.length), List.getElem?_eq_getElem (hd ▸ hi : i < d.length),
        List.getElem?_zipWith]
    · rw [List.getD_eq_default _ _ (by omega), List.getD_eq_default _ _ (by omega), List.getD_eq_default _ _ (by omega), sub_zero]
  have hz := Sampling.coeff_zero hL (List.zipWith (fun a b => a - b) c d) (by
    intro t ht p hp
    have := h t ht p hp
    rw [synthesis_eq, synthesis_eq, ← sub_eq_zero, ← Finset.sum_sub_distrib] at this
    rw [synthesis_eq]
    refine Eq.trans (Finset.sum_congr rfl fun i _ => ?_) this
    rw [hget, sub_mul])
  refine List.ext_getElem (hc.trans hd.symm) fun i h1 h2 => ?_
  have := hz i (hc ▸ h1)
  rw [hget, sub_eq_zero, List.getD_eq_getElem?_getD, List.getD_eq_getElem?_getD, List.getElem?_eq_getElem h1,
    List.getElem?_eq_getElem h2] at this
  exact this

/-- the samples at bandlimit `K` of a function with `K²` coefficients. -/
noncomputable def trueInverse (K : ℕ) (c : List ℂ) : List (List ℂ) :=
  Plot.rows fun (t : Fin (K + 1)) (p : Fin (2 * K)) => synthesis K c (t * Real.pi / K) (p * Real.pi / K)

private theorem rows_inj {n m : ℕ} {f g : Fin n → Fin m → ℂ} (h : Plot.rows f = Plot.rows g) : f = g := by
  unfold Plot.rows at h
  have h1 := List.ofFn_injective h
  funext t
  exact List.ofFn_injective (congrFun h1 t)

theorem trueInverse_inj {K : ℕ} (hK : 1 ≤ K) {c d : List ℂ} (hc : c.length = K ^ 2) (hd : d.length = K ^ 2)
    (h : trueInverse K c = trueInverse K d) : c = d := by
  have h1 := rows_inj h
  refine C105_sampling K hK c d hc hd fun t ht p hp => ?_
  exact congrFun (congrFun h1 ⟨t, by omega⟩) ⟨p, hp⟩

/-- C105, fields at a higher resolution `R ≥ L`, for an external inverse transform that gives the samples of the function. -/
theorem C105_boosted (inverse : ℕ → List ℂ → List (List ℂ)) (hinv : ∀ K c, c.length = K ^ 2 → inverse K c = trueInverse K c) (L R : ℕ) (hL : 1 ≤ L)
    (hR : L ≤ R) (c d : List ℂ) (hc : c.length = L ^ 2) (hd : d.length = L ^ 2) (F : List (List ℂ))
    (h1 : invertFlmBoosted inverse c L R = .ok F) (h2 : invertFlmBoosted inverse d L R = .ok F) : c = d := by
  have h0 : L ^ 2 ≤ R ^ 2 := Nat.pow_le_pow_left hR 2
  have hz : (R : ℤ) ^ 2 - (L : ℤ) ^ 2 = ((R ^ 2 - L ^ 2 : ℕ) : ℤ) := by push_cast [h0]; rfl
  simp only [invertFlmBoosted, boostCoefficientResolution, hz, if_neg (show ¬ ((R ^ 2 - L ^ 2 : ℕ) : ℤ) < 0 by omega), bind, Except.bind,
    pure, Except.pure, Int.toNat_natCast, Except.ok.injEq] at h1 h2
  rw [hinv _ _ (by simp [hc]; omega)] at h1
  rw [hinv _ _ (by simp [hd]; omega)] at h2
  have := trueInverse_inj (by omega : 1 ≤ R) (by simp [hc]; omega) (by simp [hd]; omega) (h1.trans h2.symm)
  exact List.append_cancel_right this

/-- C105, Slepian coefficients: on the grid, `slepian_inverse` of a region whose `N` eigenvectors are orthonormal determines the `N`
coefficients. -/
theorem C105_slepian (L : ℕ) (hL : 1 ≤ L) (sl : Transform.Slepian (L ^ 2)) (N : ℕ) (hN : sl.N = N) (E : Fin N → Fin (L ^ 2) → ℂ)
    (hE : ∀ p : Fin N, sl.evecs[(p : ℕ)]? = some (E p)) (ho : OrthonormalRows E)
    (synth : (Fin (L ^ 2) → ℂ) → Fin (L + 1) × Fin (2 * L) → ℂ)
    (hs : ∀ v x, synth v x = synthesis L (List.ofFn v) (x.1 * Real.pi / L) (x.2 * Real.pi / L)) (a b : Fin N → ℂ)
    (F : Fin (L + 1) × Fin (2 * L) → ℂ) (h1 : Transform.slepianInverse sl synth (List.ofFn a) = .ok F)
    (h2 : Transform.slepianInverse sl synth (List.ofFn b) = .ok F) : a = b := by
  rw [Transform.slepianInverse_ok sl synth E hN hE] at h1 h2
  have key : ∀ (a : Fin N → ℂ) (x : Fin (L + 1) × Fin (2 * L)), ∑ p, a p * synth (E p) x =
      synthesis L (List.ofFn fun i => ∑ p, a p * E p i) (x.1 * Real.pi / L) (x.2 * Real.pi / L) := by
    intro a x
    simp only [hs, synthesis_eq, List.getD_eq_getElem?_getD, List.getElem?_ofFn, Fin.is_lt, dite_true, Fin.eta, Option.getD_some]
    simp only [Finset.mul_sum, Finset.sum_mul]
    rw [Finset.sum_comm]
    exact Finset.sum_congr rfl fun i _ => Finset.sum_congr rfl fun p _ => by ring
  have hlists := C105_sampling L hL (List.ofFn fun i => ∑ p, a p * E p i) (List.ofFn fun i => ∑ p, b p * E p i) (by simp) (by simp) (by
    intro t ht p hp
    have ha := key a (⟨t, by omega⟩, ⟨p, hp⟩)
    have hb := key b (⟨t, by omega⟩, ⟨p, hp⟩)
    have e1 := congrFun (Except.ok.inj h1) (⟨t, by omega⟩, ⟨p, hp⟩)
    have e2 := congrFun (Except.ok.inj h2) (⟨t, by omega⟩, ⟨p, hp⟩)
    dsimp only at e1 e2 ha hb
    rw [← ha, ← hb, e1, e2])
  have hfun := List.ofFn_injective hlists
  have hcomb : ∀ (a : Fin N → ℂ) (q : Fin N), ∑ i, (∑ p, a p * E p i) * (starRingEnd ℂ) (E q i) = a q := by
    intro a q
    calc ∑ i, (∑ p, a p * E p i) * (starRingEnd ℂ) (E q i)
        = ∑ i, ∑ p, a p * (E p i * (starRingEnd ℂ) (E q i)) := by
          refine Finset.sum_congr rfl fun i _ => ?_
          rw [Finset.sum_mul]
          exact Finset.sum_congr rfl fun p _ => by ring
      _ = ∑ p, a p * ∑ i, E p i * (starRingEnd ℂ) (E q i) := by
          rw [Finset.sum_comm]
          exact Finset.sum_congr rfl fun p _ => by rw [Finset.mul_sum]
      _ = a q := by simp [ho _ q]
  funext q
  rw [← hcomb a q, ← hcomb b q]
  exact Finset.sum_congr rfl fun i _ => by rw [congrFun hfun i]

private theorem synthesis_single (L : ℕ) (l : ℕ) (m : ℤ) (hl : l < L) (hm : |m| ≤ l) (z : ℂ) (th ph : ℝ) :
    synthesis L ((List.range (L ^ 2)).map fun i => if i = elm2ind l m then z else 0) th ph = z * sphHarm l m th ph := by
  have hlt := (elm2ind_lt_sq hm L).2 hl
  rw [synthesis_eq, Finset.sum_eq_single (⟨elm2ind l m, hlt⟩ : Fin (L ^ 2))]
  · simp [hlt, harm, ind2elm_elm2ind hm]
  · intro j _ hj
    have : (j : ℕ) ≠ elm2ind l m := fun h => hj (Fin.ext h)
    simp [this]
  · simp

/-- C105, the limit: on the samples of bandlimit `L` there are different functions of bandlimit `L + 1` with the same values. -/
theorem C105_sharp (L : ℕ) (hL : 1 ≤ L) : ∃ c d : List ℂ, c.length = (L + 1) ^ 2 ∧ d.length = (L + 1) ^ 2 ∧ c ≠ d ∧
    ∀ t ≤ L, ∀ p < 2 * L, synthesis (L + 1) c (t * Real.pi / L) (p * Real.pi / L) =
      synthesis (L + 1) d (t * Real.pi / L) (p * Real.pi / L) := by
  have hm : |(L : ℤ)| ≤ (L : ℕ) := by simp
  have hm' : |-(L : ℤ)| ≤ (L : ℕ) := by simp
  refine ⟨(List.range ((L + 1) ^ 2)).map fun i => if i = elm2ind L L then (-1) ^ L else 0,
    (List.range ((L + 1) ^ 2)).map fun i => if i = elm2ind L (-(L : ℤ)) then 1 else 0, by simp, by simp, ?_, ?_⟩
  · intro h
    have h1 := (elm2ind_lt_sq hm (L + 1)).2 (by omega)
    have h2 := congrArg (fun x : List ℂ => x.getD (elm2ind L L) 0) h
    have hne : elm2ind L L ≠ elm2ind L (-(L : ℤ)) := by
      have a := elm2ind_cast hm
      have b := elm2ind_cast hm'
      omega
    simp [List.getD_eq_getElem?_getD, List.getElem?_map, List.getElem?_range h1, hne] at h2
  · intro t _ p _
    rw [synthesis_single _ _ _ (by omega) hm, synthesis_single _ _ _ (by omega) hm', sphHarm_eq, sphHarm_eq, thetaPart_neg le_rfl]
    have hL0 : (L : ℂ) ≠ 0 := by exact_mod_cast (by omega : L ≠ 0)
    have e1 : Complex.exp (Complex.I * ((L : ℤ) : ℂ) * ((p * Real.pi / L : ℝ) : ℂ)) = (-1) ^ p := by
      rw [← Complex.exp_pi_mul_I, ← Complex.exp_nat_mul]
      congr 1; push_cast; field_simp
    have e2 : Complex.exp (Complex.I * ((-(L : ℤ) : ℤ) : ℂ) * ((p * Real.pi / L : ℝ) : ℂ)) = (-1) ^ p := by
      rw [show Complex.I * ((-(L : ℤ) : ℤ) : ℂ) * ((p * Real.pi / L : ℝ) : ℂ) = -(Complex.I * ((L : ℤ) : ℂ) * ((p * Real.pi / L : ℝ) : ℂ)) by
        push_cast; ring, Complex.exp_neg, e1]
      rcases Nat.even_or_odd p with h | h <;> simp [h.neg_one_pow]
    rw [e1, e2]
    push_cast
    ring

/-- the scalar harmonics; nothing for other spins. -/
noncomputable def scalarHarmonics (spin : ℤ) (i : ℕ) (θ φ : ℝ) : ℂ := if spin = 0 then harm i θ φ else 0

private theorem expansion_scalar (K : ℕ) (c : List ℂ) (θ φ : ℝ) : expansion (scalarHarmonics 0) K c θ φ = synthesis K c θ φ := by
  rw [synthesis_eq, Fin.sum_univ_eq_sum_range (fun i : ℕ => c.getD i 0 * harm i θ φ)]
  rfl

private theorem expansion_spin {spin : ℤ} (h : spin ≠ 0) (K : ℕ) (c : List ℂ) (θ φ : ℝ) :
    expansion (scalarHarmonics spin) K c θ φ = 0 := by
  simp [expansion, scalarHarmonics, h]

open Classical in
/-- an exact forward transform: the coefficients whose samples are given. -/
noncomputable def trueForward (K : ℕ) (f : List (List ℂ)) : List ℂ :=
  if h : ∃ c : List ℂ, c.length = K ^ 2 ∧ trueInverse K c = f then h.choose else List.replicate (K ^ 2) 0

theorem trueForward_inverse {K : ℕ} (hK : 1 ≤ K) (c : List ℂ) (hc : c.length = K ^ 2) : trueForward K (trueInverse K c) = c := by
  unfold trueForward
  have h : ∃ d : List ℂ, d.length = K ^ 2 ∧ trueInverse K d = trueInverse K c := ⟨c, hc, rfl⟩
  rw [dif_pos h]
  exact trueInverse_inj hK h.choose_spec.1 hc h.choose_spec.2

/-- C105, the transforms: for every bandlimit there are transforms with the properties that the claims on plots assume, whose functions of
spin 0 are the spherical harmonics. -/
theorem C105_transforms (L : ℕ) (hL : 1 ≤ L) : ∃ (e : SphereScript.SphereEnv) (Y : ℤ → ℕ → ℝ → ℝ → ℂ), GoodTransforms e L Y ∧
    ∀ (l : ℕ) (m : ℤ), |m| ≤ l → ∀ θ φ, Y 0 (elm2ind l m) θ φ = sphHarm l m θ φ := by
  refine ⟨{ sampleSphere with
      inverse := fun _ spin K c => if spin = 0 then trueInverse K c else (Plot.rows fun (_ : Fin (K + 1)) (_ : Fin (2 * K)) => 0)
      forward := fun _ spin K f => if spin = 0 then trueForward K f else List.replicate (K ^ 2) 0
      ylm := fun K θ φ => (List.range (K ^ 2)).map fun i => harm i θ φ }, scalarHarmonics, ?_, ?_⟩
  · refine ⟨?_, ?_, ?_, fun _ _ _ _ h => h, fun _ _ _ _ h => h⟩
    · intro reality spin K c _ _ _
      dsimp only
      split
      · rename_i h; subst h
        unfold trueInverse
        congr 1
        funext t p
        exact (expansion_scalar K c _ _).symm
      · rename_i h
        congr 1
        funext t p
        exact (expansion_spin h K c _ _).symm
    · intro reality spin c hc hr
      dsimp only
      by_cases h : spin = 0
      · subst h
        simp only [if_true]
        rw [trueForward_inverse hL c hc]
        exact ⟨hc, fun h => (hr h).1, fun i _ => .inl rfl⟩
      · simp only [if_neg h]
        refine ⟨by simp, fun h' => absurd (hr h').2 h, fun i _ => .inr fun θ φ => by simp [scalarHarmonics, h]⟩
    · intro θ φ
      refine ⟨by simp, fun l m hl hm => ?_⟩
      have h1 : ∀ m : ℤ, |m| ≤ l → ((List.range (L ^ 2)).map fun i => harm i θ φ).getD (elm2ind l m) 0 = sphHarm l m θ φ := by
        intro m hm
        simp [List.getD_eq_getElem?_getD, (elm2ind_lt_sq hm L).2 hl, harm, ind2elm_elm2ind hm]
      dsimp only
      rw [h1 m hm, h1 (-m) (by rwa [abs_neg]), sphHarm_neg hm]
  · intro l m hm θ φ
    simp [scalarHarmonics, harm, ind2elm_elm2ind hm]

/-! ### non-vacuity -/

/-- two different fields of bandlimit 2, and the coefficients that an exact transform finds. -/
example : trueForward 2 (trueInverse 2 [1, 2, 0, Complex.I]) = [1, 2, 0, Complex.I] ∧
    trueInverse 2 [1, 2, 0, Complex.I] ≠ trueInverse 2 [1, 2, 0, 0] :=
  ⟨trueForward_inverse (by norm_num) _ (by simp), fun h => by
    have := trueInverse_inj (by norm_num : 1 ≤ 2) (by simp) (by simp) h
    simp at this⟩

/-- boosted fields. -/
example : ∃ F, invertFlmBoosted trueInverse [1, 2, 0, Complex.I] 2 8 = .ok F := ⟨_, rfl⟩

/-- the hypotheses of `C105_slepian`: one eigenvector `(0, i, 0, 0)`. -/
example : ∃ F : Fin (2 + 1) × Fin (2 * 2) → ℂ, OrthonormalRows (fun (_ : Fin 1) (i : Fin (2 ^ 2)) => if i = 1 then Complex.I else 0) ∧
    Transform.slepianInverse (n := 2 ^ 2) ⟨1, [1], [fun i => if i = 1 then Complex.I else 0]⟩
      (fun v x => synthesis 2 (List.ofFn v) (x.1 * Real.pi / (2 : ℕ)) (x.2 * Real.pi / (2 : ℕ))) (List.ofFn fun _ : Fin 1 => (3 : ℂ)) = .ok F := by
  refine ⟨_, ?_, Transform.slepianInverse_ok _ _ (fun (_ : Fin 1) (i : Fin (2 ^ 2)) => if i = 1 then Complex.I else 0) rfl ?_ _⟩
  · intro p q
    rw [Subsingleton.elim p q, if_pos rfl, Finset.sum_eq_single 1]
    · simp
    · intro j _ hj; simp [hj]
    · simp
  · intro p
    obtain rfl : p = 0 := Subsingleton.elim _ _
    rfl

end Sleplet.Props
