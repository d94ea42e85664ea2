import Verif.Props.MeshEndToEnd

/-!
C115 on meshes: how many Slepian coefficients can be had depends on who came before.
-/
namespace Sleplet.Props

open Sleplet.MeshT Sleplet.MeshCache

variable {V : Type} [Fintype V] {Φ Ω : Type}

/-- a session that finds no files, and one after it. -/
private theorem mesh_twice (env : MeshCache.Env Φ Ω) (name : String) (k : ℤ) {ω : Ω} {w : List ℝ} {φ : Φ}
    (h : env.eigsh name k ω = .ok (w, φ)) (ω' : Ω) :
    (runAlone noFiles (MeshCache.construct env ⟨name, some k, true, ω⟩)).1 = .ok ⟨w, φ, k, some (env.solve name φ)⟩ ∧
    (runAlone (runAlone noFiles (MeshCache.construct env ⟨name, some k, true, ω⟩)).2 (MeshCache.construct env ⟨name, some k, true, ω'⟩)).1 =
      .ok ⟨w, φ, k, some ((env.solve name φ).1, Cache.slice (env.solve name φ).2 (env.shannon name w.length))⟩ := by
  have l0 : (noFiles : MeshCache.FS Φ).load (Cache.evalFile (basisLoc name k)) = .error .typeError := rfl
  have n2 : ∀ K N, Cache.evalFile (slepianLoc name K N) ≠ Cache.evalFile (basisLoc name k) := fun K N h => basis_ne_slepian _ _ _ _ _ _ _ h.symm
  have l1 : ((noFiles.write (Cache.evalFile (basisLoc name k)) (some (.evals w))).write (Cache.evecFile (basisLoc name k))
      (some (.basis φ))).load (Cache.evalFile (slepianLoc name w.length (env.shannon name w.length))) = .error .typeError :=
    load_error (by
      rw [get_write_ne (eval_ne_evec _ _), get_write_ne (n2 _ _)]
      rfl)
  have first : (runAlone noFiles (MeshCache.construct env ⟨name, some k, true, ω⟩)).2 = afterBoth env name k w w φ φ := by
    simp [MeshCache.construct, MeshCache.Env.number, runAlone, afterMesh, slepianProg, l0, h, l1, afterBoth]
  refine ⟨by simp [MeshCache.construct, MeshCache.Env.number, runAlone, afterMesh, slepianProg, l0, h, l1], ?_⟩
  rw [first]
  obtain ⟨g1, g2, g3, g4⟩ := afterBoth_get env name k w w φ φ
  exact run_of_files ω' g1 g2 g3 g4

/-- C115 is violated on meshes too: with no files at hand the first session gives any number of coefficients of a signal up to that of the basis
functions, and the same lines in the next session give `IndexError` from `N + 1` on. -/
theorem C115_mesh_history_violation [Nonempty V] {env : MeshCache.Env Φ Ω} {name : String} {region : V → Bool} {fields : Φ → List (V → ℝ)}
    (hc : MeshContracts env name region fields) (k : ℤ) {ω : Ω} {w : List ℝ} {φ : Φ} (h : env.eigsh name k ω = .ok (w, φ)) (ω' : Ω) :
    ∃ (e : List ℝ) (rows rows' : List (List ℝ)),
      (runAlone noFiles (MeshCache.construct env ⟨name, some k, true, ω⟩)).1 = .ok ⟨w, φ, k, some (e, rows)⟩ ∧
      (runAlone (runAlone noFiles (MeshCache.construct env ⟨name, some k, true, ω⟩)).2
        (MeshCache.construct env ⟨name, some k, true, ω'⟩)).1 = .ok ⟨w, φ, k, some (e, rows')⟩ ∧
      ∀ N, N = (env.shannon name w.length).toNat → ∀ n, N < n → n ≤ w.length → ∀ inp : MeshT.Inputs V, MeshSignal w.length inp →
        (∃ cs, slepianMeshForward ⟨w.length, fields φ, region, N, e, rows⟩ inp (some n) = .ok cs ∧ cs.length = n) ∧
        slepianMeshForward ⟨w.length, fields φ, region, N, e, rows'⟩ inp (some n) = .error .indexError := by
  obtain ⟨ha, hb⟩ := mesh_twice env name k h ω'
  refine ⟨_, _, _, ha, hb, ?_⟩
  rintro N rfl n hn hnK inp hinp
  obtain ⟨hl, ho⟩ := (hc.eigsh _ _ _ _ h).orthonormal
  have hsh := (C58_mesh_shannon (V := V) w.length).2.2.2 region
  rw [← hc.shannon] at hsh
  obtain ⟨ncpu, we, M, v, W, e, S, hpos, hM, hE, hC, he, hS⟩ := hc.solve _ _ _ _ h
  rw [← hl] at hnK hinp hsh hn ⊢
  have built : ∀ rows r, (env.shannon name (fields φ).length).toNat ≤ r → r ≤ (fields φ).length →
      rows = (List.ofFn fun p => List.ofFn (S p)).take r →
      BuiltMesh ⟨(fields φ).length, fields φ, region, (env.shannon name (fields φ).length).toNat, (env.solve name φ).1, rows⟩
        (fun i : Fin (fields φ).length => (fields φ)[i]) e S r := fun rows r h1 h2 h3 =>
    ⟨(List.ofFn_getElem (xs := fields φ)).symm, rfl, ho, ⟨ncpu, we, M, v, W, hpos, hM, hE, hC⟩, he, h1, h2, h3⟩
  constructor
  · obtain ⟨⟨cs, h1, h2, -⟩, -⟩ := C115_mesh_forward _ _ _ _ _ (built (env.solve name φ).2 (fields φ).length (by omega) le_rfl
      (by rw [hS, List.take_of_length_le (by simp)])) inp hinp
    exact ⟨_, h2 n hnK, by rw [List.length_take]; omega⟩
  · refine ((C115_mesh_forward _ _ _ _ _ (built (Cache.slice (env.solve name φ).2 (env.shannon name (fields φ).length))
      (env.shannon name (fields φ).length).toNat le_rfl (by omega) ?_) inp hinp).2 n hn).1 (by omega)
    unfold Cache.slice
    rw [if_pos hsh.1, hS]

/-- the hypotheses are met: the two vertices, with one of two Slepian functions kept. -/
example (ω : Bool) : ∃ (env : MeshCache.Env (List (Fin 2 → ℝ)) Bool) (w : List ℝ) (φ : List (Fin 2 → ℝ)),
    MeshContracts env "pair" (fun v : Fin 2 => decide (v = 0)) id ∧ env.eigsh "pair" 2 ω = .ok (w, φ) ∧ w.length = 2 ∧
    (env.shannon "pair" w.length).toNat = 1 := by
  obtain ⟨env, -, hc, ht, hf⟩ := exists_pair
  have hN : env.shannon "pair" 2 = 1 := by
    rw [hc.shannon]
    unfold Integration.meshShannon
    have : (Finset.univ.filter fun v : Fin 2 => decide (v = 0) = true).card = 1 := by decide
    rw [this]
    have := Py.round_intCast 1
    simpa using this
  cases ω
  · exact ⟨env, _, _, hc, hf, rfl, by show (env.shannon "pair" 2).toNat = 1; rw [hN]; rfl⟩
  · exact ⟨env, _, _, hc, ht, rfl, by show (env.shannon "pair" 2).toNat = 1; rw [hN]; rfl⟩

end Sleplet.Props
