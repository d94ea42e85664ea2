import Verif.Props.CoefficientSizes
import Verif.Props.Tiling

/-!
C116: from a region to the Slepian wavelet coefficients of a signal and back, through workers, solver, cache, transforms and wavelets.
-/
namespace Sleplet.Props

open Complex Sleplet.Spec Sleplet.Gaunt Sleplet.Cache Sleplet.Region Tiling

private theorem combination_eq (L : ℕ) (v : List (List ℂ)) (N : ℕ) (row : List ℂ) (th ph : ℝ) :
    ∑ p ∈ Finset.range N, row.getD p 0 * synthesis L (v.getD p []) th ph =
      comb (fun i : Fin (L ^ 2) => ∑ p : Fin N, row.getD p 0 * (v.getD p []).getD i 0) th ph := by
  rw [Finset.sum_range]
  simp only [Gaunt.synthesis_eq, comb, Finset.mul_sum, Finset.sum_mul]
  rw [Finset.sum_comm]
  exact Finset.sum_congr rfl fun i _ => Finset.sum_congr rfl fun p _ => by ring

/-- the field of Slepian coefficients. -/
noncomputable def slepianField (L : ℕ) (v : List (List ℂ)) (N : ℕ) (row : List ℂ) : ℝ → ℝ → ℂ := fun th ph =>
  ∑ p ∈ Finset.range N, row.getD p 0 * synthesis L (v.getD p []) th ph

private theorem rows_orthonormal {masks : MaskTable} {s : Region.Slepian} {N : ℤ} {w : List ℝ} {v : List (List ℂ)}
    (hu : UsableFor masks s N w v) (p q : ℕ) (hp : p < v.length) (hq : q < v.length) :
    ∑ i : Fin (s.L ^ 2), (v.getD p []).getD i 0 * (starRingEnd ℂ) ((v.getD q []).getD i 0) = if p = q then 1 else 0 := by
  rw [← hu.orthonormal p hp q hq, ← inner_comb]
  congr 1 <;> (funext th ph; exact (Gaunt.synthesis_eq _ _ th ph).symm)

private theorem field_energy {masks : MaskTable} {s : Region.Slepian} {N : ℤ} {w : List ℝ} {v : List (List ℂ)}
    (hu : UsableFor masks s N w v) (row : List ℂ) :
    sphereInner (slepianField s.L v N.toNat row) (slepianField s.L v N.toNat row) =
      ((∑ p ∈ Finset.range N.toNat, ‖row.getD p 0‖ ^ 2 : ℝ) : ℂ) := by
  have h1 : slepianField s.L v N.toNat row =
      comb fun i : Fin (s.L ^ 2) => ∑ p : Fin N.toNat, row.getD p 0 * (v.getD p []).getD i 0 := by
    funext th ph
    exact combination_eq _ _ _ _ _ _
  rw [h1, inner_comb]
  have hr := hu.rows
  calc ∑ i : Fin (s.L ^ 2), (∑ p : Fin N.toNat, row.getD p 0 * (v.getD p []).getD i 0) *
        (starRingEnd ℂ) (∑ p : Fin N.toNat, row.getD p 0 * (v.getD p []).getD i 0)
      = ∑ p : Fin N.toNat, ∑ q : Fin N.toNat, row.getD p 0 * (starRingEnd ℂ) (row.getD q 0) *
          ∑ i : Fin (s.L ^ 2), (v.getD p []).getD i 0 * (starRingEnd ℂ) ((v.getD q []).getD i 0) := by
        simp only [map_sum, map_mul, Finset.sum_mul, Finset.mul_sum]
        conv_rhs => rw [Finset.sum_comm]
        rw [Finset.sum_comm]
        refine Finset.sum_congr rfl fun p _ => ?_
        rw [Finset.sum_comm]
        exact Finset.sum_congr rfl fun q _ => Finset.sum_congr rfl fun i _ => by ring
    _ = ∑ p : Fin N.toNat, row.getD p 0 * (starRingEnd ℂ) (row.getD p 0) := by
        refine Finset.sum_congr rfl fun p _ => ?_
        rw [Finset.sum_eq_single p]
        · rw [rows_orthonormal hu _ _ (by omega) (by omega), if_pos rfl, mul_one]
        · intro q _ hq
          rw [rows_orthonormal hu _ _ (by omega) (by omega), if_neg (fun h => hq (Fin.ext h.symm)), mul_zero]
        · simp
    _ = _ := by
        rw [Finset.sum_range]
        push_cast
        refine Finset.sum_congr rfl fun p _ => ?_
        rw [mul_conj, normSq_eq_norm_sq]
        push_cast
        rfl

private theorem field_values {Pix : Type} (s : Region.Slepian) (N : ℤ) (w : List ℝ) (v : List (List ℂ)) (hr : N.toNat ≤ v.length)
    (point : Pix → ℝ × ℝ) (synth : (Fin (s.L ^ 2) → ℂ) → Pix → ℂ)
    (hY : ∀ c x, synth c x = synthesis s.L (List.ofFn c) (point x).1 (point x).2) (row : List ℂ) (hrow : N.toNat ≤ row.length) :
    Transform.slepianInverse (asObject s.L N w v) synth row =
      .ok fun x => slepianField s.L v N.toNat row (point x).1 (point x).2 := by
  rw [(C115_inverse_partial (asObject s.L N w v) synth (by simpa [asObject] using hr) row).1 hrow]
  congr 1
  funext x
  unfold slepianField
  refine Finset.sum_congr rfl fun p hp => ?_
  rw [Finset.mem_range] at hp
  have hp : p < v.length := lt_of_lt_of_le hp hr
  rw [hY]
  congr 1
  rw [Gaunt.synthesis_eq, Gaunt.synthesis_eq]
  refine Finset.sum_congr rfl fun i _ => ?_
  simp [asObject, hp, List.getD_eq_getElem?_getD]

/-- Slepian wavelet coefficients of any numbers: the transform is inverted exactly if the scales that do not see them come last, every row is a
filter times the conjugates of the numbers, and the squares of all coefficients add up to those of the numbers. -/
theorem wavelet_energies (B xlim jMin N : ℕ) (hB : 2 ≤ B) (hj : jMin ≤ jMax B xlim) (hN : N ≤ xlim) (cs : List ℂ) (hcl : cs.length = N) :
    ∃ wc : NumPy.Array2 ℂ, Wavelets.slepianForward cs (complexKappas xlim B jMin) N = .ok wc ∧
      (Wavelets.slepianInverse wc (complexKappas xlim B jMin) N = .ok cs ↔ UnseenLast cs N (complexKappas xlim B jMin)) ∧
      (∀ row ∈ wc.rows, row.length = N ∧ ∃ k : ℕ → ℝ, ∀ p < N, row.getD p 0 = k p * (starRingEnd ℂ) (cs.getD p 0)) ∧
      (wc.rows.map fun row => ∑ p ∈ Finset.range N, ‖row.getD p 0‖ ^ 2).sum = ∑ p ∈ Finset.range N, ‖cs.getD p 0‖ ^ 2 := by
  obtain ⟨-, -, hlen, -, hone, -⟩ := C94_tiling B xlim jMin hB hj
  have hwf : (complexKappas xlim B jMin).WF := by
    intro row hrow
    obtain ⟨k, hk, rfl⟩ := List.mem_map.1 hrow
    simpa [complexKappas] using hlen k hk
  have hget : ∀ (k : List ℝ) p, (k.map fun x : ℝ => (x : ℂ)).getD p 0 = ((k.getD p 0 : ℝ) : ℂ) := by
    intro k p
    simp only [List.getD_eq_getElem?_getD, List.getElem?_map]
    cases k[p]? <;> simp
  have hadm : ∀ p < N, ((complexKappas xlim B jMin).rows.map fun psi => ‖psi.getD p 0‖ ^ 2).sum = 1 := by
    intro p hp
    rw [← hone p (by omega)]
    simp only [complexKappas, List.map_map]
    congr 1
    refine List.map_congr_left fun k _ => ?_
    simp only [Function.comp_apply]
    rw [hget, Complex.norm_real, Real.norm_eq_abs, sq_abs]
  obtain ⟨wc, a1, a2⟩ := C27_round_trip_iff cs _ hwf N hcl.ge hN hadm
  obtain ⟨wc', b1, b2, b3⟩ := C27_energy cs _ hwf N hcl.ge hN hadm
  rw [a1] at b1
  injection b1 with b1
  subst b1
  rw [List.take_of_length_le hcl.le] at a2
  refine ⟨wc, a1, a2, fun row hr => ?_, b3⟩
  obtain ⟨c1, psi, c2, c3⟩ := b2 row hr
  obtain ⟨k, -, rfl⟩ := List.mem_map.1 c2
  exact ⟨c1, fun p => k.getD p 0, fun p hp => by rw [c3 p hp, hget]⟩

/-- so it is for numbers none of which vanishes. -/
theorem unseenLast_of_ne_zero (B xlim jMin N : ℕ) (hB : 2 ≤ B) (hj : jMin ≤ jMax B xlim) (hN0 : 0 < N) (hN : N ≤ xlim) (cs : List ℂ)
    (hcl : cs.length = N) (hne : ∀ c ∈ cs, c ≠ 0) : UnseenLast cs N (complexKappas xlim B jMin) := by
  have hne' : ∀ p < N, cs.getD p 0 ≠ 0 := by
    intro p hp
    have hp' : p < cs.length := by omega
    rw [List.getD_eq_getElem?_getD, List.getElem?_eq_getElem hp', Option.getD_some]
    exact hne _ (List.getElem_mem hp')
  obtain ⟨wc, a1, a2, -⟩ := C94_slepian_transform B xlim jMin N hB hj hN0 hN cs (by omega) hne'
  obtain ⟨wc', b1, b2, -⟩ := wavelet_energies B xlim jMin N hB hj hN cs hcl
  rw [a1] at b1
  injection b1 with b1
  subst b1
  rw [List.take_of_length_le hcl.le] at a2
  exact b2.1 a2

/-- C116 for the Slepian functions of a construction with a usable result (C112): a signal is taken to its first `N` Slepian
coefficients, on to a field that differs from the signal by a field with at most the part `w_N` of its energy in the region, and to wavelet
coefficients, the energies of whose fields add up to that of the `N` coefficients.  The way back from the wavelet coefficients leads to the `N`
coefficients if and only if no scale that does not see them comes before one that does. -/
theorem C116_wavelets_partial (masks : MaskTable) (s : Region.Slepian) (N : ℤ) (w : List ℝ) (v : List (List ℂ))
    (hu : UsableFor masks s N w v) (hN : N.toNat < s.L ^ 2) (B jMin : ℕ) (hB : 2 ≤ B) (hj : jMin ≤ jMax B (s.L ^ 2))
    {Pix : Type} [Fintype Pix] (point : Pix → ℝ × ℝ) (synth : (Fin (s.L ^ 2) → ℂ) → Pix → ℂ)
    (hY : ∀ c x, synth c x = synthesis s.L (List.ofFn c) (point x).1 (point x).2) (weight : Pix → ℝ) (flm : Fin (s.L ^ 2) → ℂ) :
    ∃ (cs : List ℂ) (wc : NumPy.Array2 ℂ) (g : ℝ → ℝ → ℂ),
      Transform.slepianForward (asObject s.L N w v) synth weight { flm := some flm } none = .ok cs ∧ cs.length = N.toNat ∧
      Wavelets.slepianForward cs (complexKappas (s.L ^ 2) B jMin) N.toNat = .ok wc ∧
      (Wavelets.slepianInverse wc (complexKappas (s.L ^ 2) B jMin) N.toNat = .ok cs ↔
        UnseenLast cs N.toNat (complexKappas (s.L ^ 2) B jMin)) ∧
      Transform.slepianInverse (asObject s.L N w v) synth cs = .ok (fun x => g (point x).1 (point x).2) ∧ g ∈ bandlimited s.L ∧
      energyInRegion masks (synthesis s.L (List.ofFn flm) - g) s ≤
        w.getD N.toNat 0 * (sphereInner (synthesis s.L (List.ofFn flm) - g) (synthesis s.L (List.ofFn flm) - g)).re ∧
      (∀ row ∈ wc.rows, Transform.slepianInverse (asObject s.L N w v) synth row =
        .ok fun x => slepianField s.L v N.toNat row (point x).1 (point x).2) ∧
      (wc.rows.map fun row => (sphereInner (slepianField s.L v N.toNat row) (slepianField s.L v N.toNat row)).re).sum =
        ∑ p ∈ Finset.range N.toNat, ‖cs.getD p 0‖ ^ 2 := by
  obtain ⟨cs, g, hg, h1, h2, h3, h4⟩ := hu.reconstruct point synth hY weight flm
  obtain ⟨wc, a1, a2, a3, a4⟩ := wavelet_energies B (s.L ^ 2) jMin N.toNat hB hj hN.le cs h2
  refine ⟨cs, wc, g, h1, h2, a1, a2, h3, hg, h4, fun row hr => field_values s N w v hu.rows point synth hY _ (a3 row hr).1.ge, ?_⟩
  rw [← a4]
  congr 1
  refine List.map_congr_left fun row _ => ?_
  rw [field_energy hu, ofReal_re]

/-- C116.  So it is for every construction that ends with a result, whatever other constructions run in the same data directory or are killed
at any point, provided that no two of the problems share their files. -/
theorem C116_concurrent_partial (masks : MaskTable) (env : Env) (A : Region.Slepian → Prop) (hA : Separate env A) (st st' : State)
    (h0 : Start env A st) (h : Relation.ReflTransGen (Cache.Step env (fun j => A j.s) fun _ => True) st st') (s : Region.Slepian)
    (hreg : ∃ r, s.createRegion = .ok r) (hsolve : SolutionOf masks s (env.solve s)) (hN0 : 0 ≤ env.shannon s)
    (hN : (env.shannon s).toNat < s.L ^ 2) (res : Result) (hj : ((⟨s, none⟩ : Job), .running (.done (.ok res))) ∈ st'.procs)
    (B jMin : ℕ) (hB : 2 ≤ B) (hjm : jMin ≤ jMax B (s.L ^ 2)) {Pix : Type} [Fintype Pix] (point : Pix → ℝ × ℝ)
    (synth : (Fin (s.L ^ 2) → ℂ) → Pix → ℂ) (hY : ∀ c x, synth c x = synthesis s.L (List.ofFn c) (point x).1 (point x).2)
    (weight : Pix → ℝ) (flm : Fin (s.L ^ 2) → ℂ) :
    ∃ w v cs, res.evals = .evals w ∧ res.evecs = .evecs v ∧
      Transform.slepianForward (asObject s.L (env.shannon s) w v) synth weight { flm := some flm } none = .ok cs ∧
      (UnseenLast cs (env.shannon s).toNat (complexKappas (s.L ^ 2) B jMin) → ∃ (wc : NumPy.Array2 ℂ) (back : List ℂ) (g : ℝ → ℝ → ℂ),
        Wavelets.slepianForward cs (complexKappas (s.L ^ 2) B jMin) (env.shannon s).toNat = .ok wc ∧
        Wavelets.slepianInverse wc (complexKappas (s.L ^ 2) B jMin) (env.shannon s).toNat = .ok back ∧
        Transform.slepianInverse (asObject s.L (env.shannon s) w v) synth back = .ok (fun x => g (point x).1 (point x).2) ∧
        g ∈ bandlimited s.L ∧ energyInRegion masks (synthesis s.L (List.ofFn flm) - g) s ≤
          w.getD (env.shannon s).toNat 0 *
            (sphereInner (synthesis s.L (List.ofFn flm) - g) (synthesis s.L (List.ofFn flm) - g)).re) := by
  obtain ⟨w, v, h1, h2, hu⟩ := C112_concurrent_partial masks env A hA st st' h0 h s hreg hsolve hN0 hN res hj
  obtain ⟨cs, wc, g, a1, -, b1, b2, b3, b4, b5, -⟩ := C116_wavelets_partial masks s _ w v hu hN B jMin hB hjm point synth hY weight flm
  exact ⟨w, v, cs, h1, h2, a1, fun hl => ⟨wc, cs, g, b1, b2.2 hl, b3, b4, b5⟩⟩

/-- C116 is violated for other signals: the Slepian function of rank `B^j_min` itself, whose energy in the region is its eigenvalue, comes
back from wavelet coefficients as the zero field. -/
theorem C116_violation (masks : MaskTable) (s : Region.Slepian) (N : ℤ) (w : List ℝ) (v : List (List ℂ))
    (hu : UsableFor masks s N w v) (hN : N.toNat ≤ s.L ^ 2) (B jMin : ℕ) (hB : 2 ≤ B) (hj : jMin ≤ jMax B (s.L ^ 2))
    (hp : B ^ jMin < N.toNat) {Pix : Type} [Fintype Pix] (point : Pix → ℝ × ℝ) (synth : (Fin (s.L ^ 2) → ℂ) → Pix → ℂ)
    (hY : ∀ c x, synth c x = synthesis s.L (List.ofFn c) (point x).1 (point x).2) (weight : Pix → ℝ) :
    ∃ (flm : Fin (s.L ^ 2) → ℂ) (cs : List ℂ) (wc : NumPy.Array2 ℂ) (back : List ℂ),
      energyInRegion masks (synthesis s.L (List.ofFn flm)) s = w.getD (B ^ jMin) 0 ∧
      sphereInner (synthesis s.L (List.ofFn flm)) (synthesis s.L (List.ofFn flm)) = 1 ∧
      Transform.slepianForward (asObject s.L N w v) synth weight { flm := some flm } none = .ok cs ∧
      Wavelets.slepianForward cs (complexKappas (s.L ^ 2) B jMin) N.toNat = .ok wc ∧
      Wavelets.slepianInverse wc (complexKappas (s.L ^ 2) B jMin) N.toNat = .ok back ∧
      Transform.slepianInverse (asObject s.L N w v) synth back = .ok fun _ => 0 := by
  have hr := hu.rows
  have hsyn : synthesis s.L (List.ofFn fun i : Fin (s.L ^ 2) => (v.getD (B ^ jMin) []).getD i 0) = synthesis s.L (v.getD (B ^ jMin) []) := by
    funext th ph
    rw [Gaunt.synthesis_eq, Gaunt.synthesis_eq]
    refine Finset.sum_congr rfl fun i _ => ?_
    simp only [List.getD_eq_getElem?_getD, List.getElem?_ofFn, i.2, dif_pos, Option.getD_some]
  have hrow : ∀ q : Fin N.toNat, (asObject s.L N w v).evecs[(q : ℕ)]? = some fun i : Fin (s.L ^ 2) => (v.getD q []).getD i 0 := by
    intro q
    have hq : (q : ℕ) < v.length := by omega
    simp [asObject, hq, List.getD_eq_getElem?_getD]
  have hf := forward_flm (N := N.toNat) (asObject s.L N w v) synth weight (fun q (i : Fin (s.L ^ 2)) => (v.getD q []).getD i 0) rfl hN hrow
    fun i : Fin (s.L ^ 2) => (v.getD (B ^ jMin) []).getD i 0
  set cs : List ℂ := List.ofFn fun q : Fin N.toNat => ∑ i : Fin (s.L ^ 2), (v.getD (B ^ jMin) []).getD i 0 *
    (starRingEnd ℂ) ((v.getD q []).getD i 0) with hcs
  have hcl : cs.length = N.toNat := by simp [hcs]
  have hcv : ∀ q < N.toNat, cs.getD q 0 = if B ^ jMin = q then 1 else 0 := by
    intro q hq
    rw [← rows_orthonormal hu (B ^ jMin) q (by omega) (by omega)]
    simp [hcs, List.getD_eq_getElem?_getD, hq]
  obtain ⟨wc, out, a1, a2, a3, -⟩ := C27_s2let_violation B (s.L ^ 2) jMin N.toNat hB hj hp hN cs hcl.ge
    (fun q hq => by rw [hcv q (by omega), if_neg (by omega)]) (by rw [hcv _ hp, if_pos rfl]; exact one_ne_zero)
  have hwf : (complexKappas (s.L ^ 2) B jMin).WF := by
    intro row hrow
    obtain ⟨k, hk, rfl⟩ := List.mem_map.1 hrow
    simpa [complexKappas] using (C94_tiling B (s.L ^ 2) jMin hB hj).2.2.1 k hk
  obtain ⟨wc', out', b1, b2, b3, b4⟩ := C27_round_trip_formula cs _ hwf N.toNat hcl.ge hN
  rw [a1] at b1
  injection b1 with b1
  subst b1
  rw [a2] at b2
  injection b2 with b2
  subst b2
  refine ⟨_, cs, wc, out, ?_, ?_, hf, a1, a2, ?_⟩
  · rw [hsyn]
    exact hu.energies _ (by omega)
  · rw [hsyn, hu.orthonormal _ (by omega) _ (by omega), if_pos rfl]
  · rw [field_values s N w v hr point synth hY out b3.ge]
    congr 1
    funext x
    unfold slepianField
    refine Finset.sum_eq_zero fun q hq => ?_
    rw [Finset.mem_range] at hq
    by_cases hqp : B ^ jMin = q
    · rw [← hqp, a3, zero_mul]
    · rw [b4 q hq, hcv q hq, if_neg hqp, zero_mul, zero_mul]

/-- the hypotheses are met: `C112` shows that the 60 degree cap at `L = 4` has a usable result with `N = 4`; for base 3 and smallest scale 1
the rank in question is 3.  And there are coefficients that the last scales do not see. -/
example : (3 : ℕ) ^ 1 < 4 ∧ 1 ≤ jMax 3 (4 ^ 2) ∧ UnseenLast [1, I, 2, 3] 4 (complexKappas (4 ^ 2) 3 1) := by
  have h1 : 1 ≤ jMax 3 (4 ^ 2) := by
    have := (C94_tiling 3 (4 ^ 2) 0 (by norm_num) (Nat.zero_le _)).1.1
    by_contra h
    have h0 : jMax 3 (4 ^ 2) = 0 := by omega
    rw [h0] at this
    norm_num at this
  refine ⟨by norm_num, h1, unseenLast_of_ne_zero 3 (4 ^ 2) 1 4 (by norm_num) h1 (by norm_num) (by norm_num) _ rfl ?_⟩
  intro c hc
  simp only [List.mem_cons, List.not_mem_nil, or_false] at hc
  rcases hc with rfl | rfl | rfl | rfl
  · exact one_ne_zero
  · exact I_ne_zero
  · norm_num
  · norm_num

end Sleplet.Props
