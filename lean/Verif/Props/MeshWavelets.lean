import Verif.Props.MeshEndToEnd
import Verif.Props.WaveletEndToEnd

/-!
C117: from a mesh to the Slepian wavelet coefficients of a field and back, through `eigsh`, workers, solver, files, transforms and wavelets.
-/
namespace Sleplet.Props

open Sleplet.MeshT Sleplet.Spec Sleplet.MeshCache Tiling

variable {V : Type} [Fintype V] {Φ Ω : Type}

/-- the field of Slepian coefficients on a mesh. -/
noncomputable def meshSlepianField (basis : List (V → ℝ)) (rows : List (List ℝ)) (N : ℕ) (fp : List ℝ) : V → ℝ := fun v =>
  ∑ p ∈ Finset.range N, fp.getD p 0 * meshField basis (rows.getD p []) v

private theorem mesh_energy {region : V → Bool} {N : ℕ} {basis : List (V → ℝ)} {e : List ℝ} {rows : List (List ℝ)}
    (hu : MeshUsable region N basis e rows) (fp : List ℝ) :
    ∑ v, meshSlepianField basis rows N fp v ^ 2 = ∑ p ∈ Finset.range N, fp.getD p 0 ^ 2 := by
  have hen := hu.enough
  have := comb_comb (fun (p : Fin N) v => meshField basis (rows.getD p []) v)
    (fun p q => by rw [hu.orthonormal p (by omega) q (by omega)]; simp only [Fin.ext_iff]) (fun p => fp.getD p 0) (fun p => fp.getD p 0)
  simp only [meshSlepianField, Finset.sum_range, sq]
  exact this

private theorem mesh_coefficient {region : V → Bool} {N : ℕ} {basis : List (V → ℝ)} {e : List ℝ} {rows : List (List ℝ)}
    (hu : MeshUsable region N basis e rows) (u : V → ℝ) : ∃ cs : List ℝ,
    slepianMeshForward ⟨basis.length, basis, region, N, e, rows⟩ ⟨some u, none, false⟩ none = .ok cs ∧ cs.length = N ∧
      ∀ p < N, cs.getD p 0 = ∑ v, u v * meshField basis (rows.getD p []) v := by
  obtain ⟨cs, g, h1, h2, h3, h4, -⟩ := hu.reconstruct u
  refine ⟨cs, h1, h2, fun p hp => ?_⟩
  rw [hu.inverse cs h2.ge] at h3
  injection h3 with h3
  have hen := hu.enough
  have h5 := comb_inner (fun (p : Fin N) v => meshField basis (rows.getD p []) v)
    (fun p q => by rw [hu.orthonormal p (by omega) q (by omega)]; simp only [Fin.ext_iff]) (fun p => cs.getD p 0) ⟨p, hp⟩
  have h6 := h4 p hp
  simp only [sub_mul, Finset.sum_sub_distrib] at h6
  rw [← h3] at h6
  simp only [Finset.sum_range] at h6
  dsimp only at h5
  rw [h5] at h6
  linarith

/-- C117 for a usable mesh (C113): a field is taken to its first `N` Slepian coefficients, on to a field that differs from it by a field with at
most the part `e_N` of its energy in the region, if the basis can represent the field, and to wavelet coefficients, which are real and the
energies of whose fields add up to that of the `N` coefficients.  The way back from the wavelet coefficients leads to the `N` coefficients if
and only if no scale that does not see them comes before one that does. -/
theorem C117_wavelets_partial {region : V → Bool} {N : ℕ} {basis : List (V → ℝ)} {e : List ℝ} {rows : List (List ℝ)}
    (hu : MeshUsable region N basis e rows) (B jMin : ℕ) (hB : 2 ≤ B)
    (hj : jMin ≤ jMax B basis.length) (u : V → ℝ) :
    ∃ (cs : List ℝ) (wc : NumPy.Array2 ℂ) (g : V → ℝ),
      slepianMeshForward ⟨basis.length, basis, region, N, e, rows⟩ ⟨some u, none, false⟩ none = .ok cs ∧ cs.length = N ∧
      Wavelets.slepianForward (cs.map fun c : ℝ => (c : ℂ)) (complexKappas basis.length B jMin) N = .ok wc ∧
      (Wavelets.slepianInverse wc (complexKappas basis.length B jMin) N = .ok (cs.map fun c : ℝ => (c : ℂ)) ↔
        UnseenLast (cs.map fun c : ℝ => (c : ℂ)) N (complexKappas basis.length B jMin)) ∧
      slepianMeshInverse ⟨basis.length, basis, region, N, e, rows⟩ cs = .ok g ∧
      (N < basis.length → u ∈ meshSpan basis →
        ∑ v with region v = true, (u v - g v) ^ 2 ≤ e.getD N 0 * ∑ v, (u v - g v) ^ 2) ∧
      (∀ row ∈ wc.rows, (∀ z ∈ row, z.im = 0) ∧ slepianMeshInverse ⟨basis.length, basis, region, N, e, rows⟩ (row.map Complex.re) =
        .ok (meshSlepianField basis rows N (row.map Complex.re))) ∧
      (wc.rows.map fun row => ∑ v, meshSlepianField basis rows N (row.map Complex.re) v ^ 2).sum = ∑ v, g v ^ 2 := by
  have hN : N ≤ basis.length := hu.enough.trans hu.no_more
  obtain ⟨cs, g, h1, h2, h3, -, h4⟩ := hu.reconstruct u
  obtain ⟨wc, a1, a2, a3, a4⟩ := wavelet_energies B basis.length jMin N hB hj hN (cs.map fun c : ℝ => (c : ℂ)) (by simp [h2])
  have hcast : ∀ p, (cs.map fun c : ℝ => (c : ℂ)).getD p 0 = ((cs.getD p 0 : ℝ) : ℂ) := by
    intro p
    simp only [List.getD_eq_getElem?_getD, List.getElem?_map]
    cases cs[p]? <;> simp
  have hre : ∀ (row : List ℂ) p, (row.map Complex.re).getD p 0 = (row.getD p 0).re := by
    intro row p
    simp only [List.getD_eq_getElem?_getD, List.getElem?_map]
    cases row[p]? <;> simp
  have him : ∀ row ∈ wc.rows, ∀ p < N, (row.getD p 0).im = 0 := by
    intro row hr p hp
    obtain ⟨-, k, hk⟩ := a3 row hr
    rw [hk p hp, hcast, Complex.conj_ofReal, ← Complex.ofReal_mul, Complex.ofReal_im]
  refine ⟨cs, wc, g, h1, h2, a1, a2, h3, h4, fun row hr => ⟨fun z hz => ?_, ?_⟩, ?_⟩
  · obtain ⟨p, hp, rfl⟩ := List.getElem_of_mem hz
    have := him row hr p (by have := (a3 row hr).1; omega)
    rwa [List.getD_eq_getElem _ _ hp] at this
  · exact hu.inverse _ (by rw [List.length_map]; exact (a3 row hr).1.ge)
  · rw [hu.inverse cs h2.ge] at h3
    injection h3 with h3
    have hg : ∑ v, g v ^ 2 = ∑ p ∈ Finset.range N, cs.getD p 0 ^ 2 := by
      rw [← h3]
      exact mesh_energy hu cs
    have hnorm : ∀ x : ℝ, ‖(x : ℂ)‖ ^ 2 = x ^ 2 := fun x => by rw [Complex.norm_real, Real.norm_eq_abs, sq_abs]
    simp only [hcast, hnorm] at a4
    rw [hg, ← a4]
    congr 1
    refine List.map_congr_left fun row hr => ?_
    rw [mesh_energy hu]
    refine Finset.sum_congr rfl fun p hp => ?_
    have h5 := him row hr p (Finset.mem_range.1 hp)
    rw [hre, ← hnorm]
    congr 2
    exact Complex.ext rfl h5.symm

/-- C117.  So it is for every session that comes after others, each run to its end or stopped between two file operations, no file deleted,
whatever `eigsh` returned in them, unless `eigsh` fails in it. -/
theorem C117_sequential_partial [Nonempty V] {env : MeshCache.Env Φ Ω} (hlen : FullLength env) {fs fs' : MeshCache.FS Φ}
    (hreg : Published env fs.registry) (huser : ∀ n, fs.user n = none)
    (h : Relation.ReflTransGen (fun a b => ∃ (j : MeshCache.Job Ω) (s : ℕ), b = runFor a (MeshCache.construct env j) s) fs fs')
    (name : String) (region : V → Bool) (fields : Φ → List (V → ℝ)) (hc : MeshContracts env name region fields) (number : Option ℤ) (ω : Ω) :
    (∃ (res : MeshCache.Result Φ) (e : List ℝ) (rows : List (List ℝ)) (N : ℕ),
      (runAlone fs' (MeshCache.construct env ⟨name, number, true, ω⟩)).1 = .ok res ∧ res.slepian = some (e, rows) ∧
      N = (env.shannon name res.evals.length).toNat ∧
      ∀ (B jMin : ℕ), 2 ≤ B → jMin ≤ jMax B (fields res.basis).length → ∀ u ∈ meshSpan (fields res.basis),
        ∃ cs : List ℝ, slepianMeshForward ⟨(fields res.basis).length, fields res.basis, region, N, e, rows⟩ ⟨some u, none, false⟩ none = .ok cs ∧
          (UnseenLast (cs.map fun c : ℝ => (c : ℂ)) N (complexKappas (fields res.basis).length B jMin) → ∃ (wc : NumPy.Array2 ℂ) (back : List ℂ) (g : V → ℝ),
            Wavelets.slepianForward (cs.map fun c : ℝ => (c : ℂ)) (complexKappas (fields res.basis).length B jMin) N = .ok wc ∧
            Wavelets.slepianInverse wc (complexKappas (fields res.basis).length B jMin) N = .ok back ∧
            slepianMeshInverse ⟨(fields res.basis).length, fields res.basis, region, N, e, rows⟩ (back.map Complex.re) = .ok g ∧
            (N < (fields res.basis).length →
              ∑ v with region v = true, (u v - g v) ^ 2 ≤ e.getD N 0 * ∑ v, (u v - g v) ^ 2))) ∨
    ∃ err, (runAlone fs' (MeshCache.construct env ⟨name, number, true, ω⟩)).1 = .error err ∧
      env.eigsh name (askedFor env ⟨name, number, true, ω⟩) ω = .error err := by
  rcases C113_sequential_partial hlen hreg huser h name region fields hc number ω with ⟨res, e, rows, h1, h2, hu⟩ | h1
  · refine Or.inl ⟨res, e, rows, _, h1, h2, rfl, fun B jMin hB hj u hspan => ?_⟩
    obtain ⟨cs, wc, g, a1, -, b1, b2, b3, b4, -⟩ := C117_wavelets_partial hu B jMin hB hj u
    refine ⟨cs, a1, fun hl => ⟨wc, _, g, b1, b2.2 hl, ?_, fun hlt => b4 hlt hspan⟩⟩
    rw [← b3]
    congr 1
    rw [List.map_map]
    exact List.map_id'' (fun _ => rfl) cs
  · exact Or.inr h1

/-- C117 is violated for other fields: the Slepian function of rank `B^j_min` itself, whose energy in the region is its eigenvalue, comes
back from wavelet coefficients as the zero field. -/
theorem C117_violation {region : V → Bool} {N : ℕ} {basis : List (V → ℝ)} {e : List ℝ} {rows : List (List ℝ)}
    (hu : MeshUsable region N basis e rows) (B jMin : ℕ) (hB : 2 ≤ B)
    (hj : jMin ≤ jMax B basis.length) (hp : B ^ jMin < N) :
    ∃ (u : V → ℝ) (cs : List ℝ) (wc : NumPy.Array2 ℂ) (back : List ℂ),
      ∑ v with region v = true, u v ^ 2 = e.getD (B ^ jMin) 0 ∧ ∑ v, u v ^ 2 = 1 ∧
      slepianMeshForward ⟨basis.length, basis, region, N, e, rows⟩ ⟨some u, none, false⟩ none = .ok cs ∧
      Wavelets.slepianForward (cs.map fun c : ℝ => (c : ℂ)) (complexKappas basis.length B jMin) N = .ok wc ∧
      Wavelets.slepianInverse wc (complexKappas basis.length B jMin) N = .ok back ∧
      slepianMeshInverse ⟨basis.length, basis, region, N, e, rows⟩ (back.map Complex.re) = .ok fun _ => 0 := by
  have hen := hu.enough
  have hN : N ≤ basis.length := hen.trans hu.no_more
  obtain ⟨cs, h1, h2, h3⟩ := mesh_coefficient hu (meshField basis (rows.getD (B ^ jMin) []))
  have hcv : ∀ q < N, (cs.map fun c : ℝ => (c : ℂ)).getD q 0 = if B ^ jMin = q then 1 else 0 := by
    intro q hq
    have h4 := h3 q hq
    rw [hu.orthonormal _ (by omega) _ (by omega)] at h4
    have hq' : q < cs.length := by omega
    rw [List.getD_eq_getElem _ _ hq'] at h4
    rw [List.getD_eq_getElem _ _ (by simpa using hq'), List.getElem_map, h4]
    split <;> simp
  have hcl : (cs.map fun c : ℝ => (c : ℂ)).length = N := by simp [h2]
  obtain ⟨wc, out, a1, a2, a3, -⟩ := C27_s2let_violation B basis.length jMin N hB hj hp hN _ hcl.ge
    (fun q hq => by rw [hcv q (by omega), if_neg (by omega)]) (by rw [hcv _ hp, if_pos rfl]; exact one_ne_zero)
  have hwf : (complexKappas basis.length B jMin).WF := by
    intro row hrow
    obtain ⟨k, hk, rfl⟩ := List.mem_map.1 hrow
    simpa [complexKappas] using (C94_tiling B basis.length jMin hB hj).2.2.1 k hk
  obtain ⟨wc', out', b1, b2, b3, b4⟩ := C27_round_trip_formula _ _ hwf N hcl.ge hN
  rw [a1] at b1
  injection b1 with b1
  subst b1
  rw [a2] at b2
  injection b2 with b2
  subst b2
  refine ⟨_, cs, wc, out, hu.energies _ (by omega), ?_, h1, a1, a2, ?_⟩
  · have := hu.orthonormal (B ^ jMin) (by omega) (B ^ jMin) (by omega)
    rw [if_pos rfl] at this
    simpa only [sq] using this
  · rw [hu.inverse _ (by rw [List.length_map]; exact b3.ge)]
    congr 1
    funext v
    refine Finset.sum_eq_zero fun q hq => ?_
    rw [Finset.mem_range] at hq
    have hz : out.getD q 0 = 0 := by
      by_cases hqp : B ^ jMin = q
      · rw [← hqp, a3]
      · rw [b4 q hq, hcv q hq, if_neg hqp, zero_mul]
    have : (out.map Complex.re).getD q 0 = (out.getD q 0).re := by
      simp only [List.getD_eq_getElem?_getD, List.getElem?_map]
      cases out[q]? <;> simp
    rw [this, hz, Complex.zero_re, zero_mul]

/-- the hypotheses are met: two vertices, all of them in the region, and the field that is the sum of the two Slepian functions; for base 2
and smallest scale 0 the rank of the violation is 1. -/
example : ∃ (basis : List (Fin 2 → ℝ)) (e : List ℝ) (rows : List (List ℝ)), MeshUsable (fun _ => true) 2 basis e rows ∧
    0 ≤ jMax 2 basis.length ∧ 2 ^ 0 < 2 ∧ ∃ (u : Fin 2 → ℝ) (cs : List ℝ),
      slepianMeshForward ⟨basis.length, basis, fun _ => true, 2, e, rows⟩ ⟨some u, none, false⟩ none = .ok cs ∧
        UnseenLast (cs.map fun c : ℝ => (c : ℂ)) 2 (complexKappas basis.length 2 0) := by
  let basis : List (Fin 2 → ℝ) := [![1, 0], ![0, 1]]
  obtain ⟨x, hx⟩ := exists_meshSolution (fun _ : Fin 2 => true) basis
  have ho : OrthonormalOnVertices fun i : Fin basis.length => basis[i] := by
    intro i j
    change ∑ v : Fin 2, basis[i] v * basis[j] v = _
    rw [Fin.sum_univ_two]
    revert i j
    change ∀ i j : Fin 2, basis[i] 0 * basis[j] 0 + basis[i] 1 * basis[j] 1 = if i = j then 1 else 0
    intro i j
    fin_cases i <;> fin_cases j <;> simp [basis]
  have hu := solved_usable _ basis ho x hx 2 le_rfl _ (Or.inl rfl)
  have hen := hu.enough
  obtain ⟨cs, h1, h2, h3⟩ := mesh_coefficient hu fun v => meshField basis (x.2.getD 0 []) v + meshField basis (x.2.getD 1 []) v
  refine ⟨basis, x.1, x.2, hu, Nat.zero_le _, by norm_num, _, cs, h1,
    unseenLast_of_ne_zero 2 _ 0 2 le_rfl (Nat.zero_le _) (by norm_num) le_rfl _ (by simp [h2]) fun c' hc' => ?_⟩
  obtain ⟨c, hc, rfl⟩ := List.mem_map.1 hc'
  refine Complex.ofReal_ne_zero.2 ?_
  obtain ⟨p, hp, rfl⟩ := List.getElem_of_mem hc
  have h4 := h3 p (by omega)
  rw [List.getD_eq_getElem _ _ hp] at h4
  rw [h4]
  simp only [add_mul, Finset.sum_add_distrib]
  rw [hu.orthonormal _ (by omega) _ (by omega), hu.orthonormal _ (by omega) _ (by omega)]
  rcases (by omega : p = 0 ∨ p = 1) with rfl | rfl <;> norm_num

end Sleplet.Props
