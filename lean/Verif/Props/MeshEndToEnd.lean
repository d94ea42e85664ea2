import Verif.Lemmas.EigenExists
import Verif.Props.BestConcentrated
import Verif.Props.CoefficientSizes
import Verif.Props.Integration
import Verif.Props.MeshCache

/-!
C113: from a mesh to its Slepian functions and to reconstructed signals, through `eigsh`, workers, solver, files and transforms.
-/
namespace Sleplet.Props

open Sleplet.MeshT Sleplet.Eigen Sleplet.Spec Sleplet.MeshCache

variable {V : Type} [Fintype V] {Φ Ω : Type}

/-- What `mesh_eigendecomposition` may compute: functions returned by `eigsh`, none of them zero and any two of them orthogonal, as many
as eigenvalues, normalised. -/
def EigshBasis (w : List ℝ) (basis : List (V → ℝ)) : Prop :=
  ∃ raw : List (V → ℝ), basis = orthonormalise raw ∧ raw.length = w.length ∧ (∀ f ∈ raw, ∃ v, f v ≠ 0) ∧
    raw.Pairwise fun f g => ∑ v, f v * g v = 0

/-- `x` (eigenvalues, rows) is what the modelled solver computes for a region and a basis, for some workers, eigensolver and sorting
within their contracts. -/
def MeshSolutionOf (region : V → Bool) (basis : List (V → ℝ)) (x : List ℝ × List (List ℝ)) : Prop :=
  ∃ (ncpu : ℕ) (we : ℕ → Option Err) (M : ℕ → ℕ → ℝ) (w : Fin basis.length → ℝ) (W : Fin basis.length → Fin basis.length → ℝ)
    (e : Fin basis.length → ℝ) (S : Fin basis.length → Fin basis.length → ℝ), 1 ≤ ncpu ∧
    RealMat.CreatesMesh basis.length (RealMat.meshIntegral region basis) ncpu we (.ok M) ∧
    IsEighReal (fun r c : Fin basis.length => M r c) w W ∧ CleansMesh w W e S ∧
    x.1 = List.ofFn e ∧ x.2 = List.ofFn fun p => List.ofFn (S p)

/-- the field of a list of coefficients. -/
def meshField (basis : List (V → ℝ)) (row : List ℝ) : V → ℝ := fun v => ∑ i : Fin basis.length, row.getD i 0 * basis[i] v

/-- the fields that the basis can represent. -/
def meshSpan (basis : List (V → ℝ)) : Set (V → ℝ) := {f | ∃ c : Fin basis.length → ℝ, f = fun v => ∑ i, c i * basis[i] v}

/-- what a user sees of a mesh with basis functions `basis` and Slepian eigenvalues `e` and rows `rows`: the rows are orthonormal fields,
the eigenvalues their energies in the region, best possible; and every field transformed to `N` coefficients and back differs from itself
by a field orthogonal to the `N` Slepian functions, with at most the part `e_N` of its energy in the region if the basis can represent the
field; and any coefficients give the combination of the `N` Slepian functions. -/
structure MeshUsable (region : V → Bool) (N : ℕ) (basis : List (V → ℝ)) (e : List ℝ) (rows : List (List ℝ)) : Prop where
  basis_orthonormal : ∀ i j : Fin basis.length, ∑ v, basis[i] v * basis[j] v = if i = j then 1 else 0
  evals : e.length = basis.length
  enough : N ≤ rows.length
  no_more : rows.length ≤ basis.length
  decreasing : e.Pairwise (· ≥ ·)
  orthonormal : ∀ p < rows.length, ∀ q < rows.length,
    ∑ v, meshField basis (rows.getD p []) v * meshField basis (rows.getD q []) v = if p = q then 1 else 0
  energies : ∀ p < rows.length, ∑ v with region v = true, meshField basis (rows.getD p []) v ^ 2 = e.getD p 0
  best : ∀ p < rows.length, ∀ f ∈ meshSpan basis, (∀ q < p, ∑ v, f v * meshField basis (rows.getD q []) v = 0) →
    ∑ v with region v = true, f v ^ 2 ≤ e.getD p 0 * ∑ v, f v ^ 2
  reconstruct : ∀ u : V → ℝ, ∃ (cs : List ℝ) (g : V → ℝ),
    slepianMeshForward ⟨basis.length, basis, region, N, e, rows⟩ ⟨some u, none, false⟩ none = .ok cs ∧ cs.length = N ∧
    slepianMeshInverse ⟨basis.length, basis, region, N, e, rows⟩ cs = .ok g ∧
    (∀ p < N, ∑ v, (u v - g v) * meshField basis (rows.getD p []) v = 0) ∧
    (N < basis.length → u ∈ meshSpan basis →
      ∑ v with region v = true, (u v - g v) ^ 2 ≤ e.getD N 0 * ∑ v, (u v - g v) ^ 2)
  inverse : ∀ fp : List ℝ, N ≤ fp.length → slepianMeshInverse ⟨basis.length, basis, region, N, e, rows⟩ fp =
    .ok fun v => ∑ p ∈ Finset.range N, fp.getD p 0 * meshField basis (rows.getD p []) v

/-- normalised functions are orthonormal. -/
theorem EigshBasis.orthonormal {w : List ℝ} {basis : List (V → ℝ)} (h : EigshBasis w basis) :
    basis.length = w.length ∧ OrthonormalOnVertices fun i : Fin basis.length => basis[i] := by
  obtain ⟨raw, rfl, hl, hne, hp⟩ := h
  obtain ⟨h1, h2, h3⟩ := C36_orthonormalise raw
  refine ⟨by rw [h1, hl], fun i j => ?_⟩
  have hi : (i : ℕ) < raw.length := by rw [← h1]; exact i.2
  have hj : (j : ℕ) < raw.length := by rw [← h1]; exact j.2
  have gi := List.getElem?_eq_getElem hi
  have gj := List.getElem?_eq_getElem hj
  have oi := List.getElem?_eq_getElem i.2
  have oj := List.getElem?_eq_getElem j.2
  by_cases hij : i = j
  · subst hij
    rw [if_pos rfl]
    exact (h2 i _ _ gi oi (hne _ (List.getElem_mem hi))).1
  · rw [if_neg hij]
    refine h3 i j _ _ _ _ gi gj oi oj ?_
    rw [List.pairwise_iff_getElem] at hp
    rcases lt_or_gt_of_ne (fun h => hij (Fin.ext h)) with h | h
    · exact hp i j hi hj h
    · have := hp j i hj hi h
      simpa only [mul_comm] using this

private theorem sum_pair (c : ℕ → ℝ) (f g : V → ℝ) (v : V) :
    ∑ i : Fin [f, g].length, c i * [f, g][i] v = c 0 * f v + c 1 * g v :=
  Fin.sum_univ_two (fun i : Fin 2 => c i * [f, g][i] v)

private theorem getD_ofFn {α : Type} {n : ℕ} (f : Fin n → α) (i : Fin n) (d : α) : (List.ofFn f).getD i d = f i := by
  simp [List.getD_eq_getElem?_getD]

/-- a basis, a solution for it, and all of the rows or at least the first `N`, make a usable mesh. -/
theorem solved_usable (region : V → Bool) (basis : List (V → ℝ)) (ho : OrthonormalOnVertices fun i : Fin basis.length => basis[i])
    (x : List ℝ × List (List ℝ)) (hx : MeshSolutionOf region basis x) (N : ℕ) (hN : N ≤ basis.length) (rows : List (List ℝ))
    (hr : rows = x.2 ∨ rows = x.2.take N) : MeshUsable region N basis x.1 rows := by
  obtain ⟨ncpu, we, M, w, W, e, S, hpos, hM, hE, hC, he, hS⟩ := hx
  obtain ⟨k, hk1, hk2, hk⟩ : ∃ k, N ≤ k ∧ k ≤ basis.length ∧ rows = (List.ofFn fun p => List.ofFn (S p)).take k := by
    rcases hr with hr | hr
    · refine ⟨basis.length, hN, le_rfl, ?_⟩
      rw [hr, hS, List.take_of_length_le (by simp)]
    · exact ⟨N, le_rfl, hN, by rw [hr, hS]⟩
  rw [he]
  have hb : BuiltMesh ⟨basis.length, basis, region, N, List.ofFn e, rows⟩ (fun i : Fin basis.length => basis[i]) e S k :=
    ⟨(List.ofFn_getElem (xs := basis)).symm, rfl, ho, ⟨ncpu, we, M, w, W, hpos, hM, hE, hC⟩, rfl, hk1, hk2, hk⟩
  have hbest := C88_mesh _ _ _ _ _ hb
  have hlen : rows.length = k := by rw [hk, List.length_take, List.length_ofFn]; omega
  have hrow : ∀ p (hp : p < k), rows.getD p [] = List.ofFn (S ⟨p, lt_of_lt_of_le hp hk2⟩) := by
    intro p hp
    have h1 : p < basis.length := lt_of_lt_of_le hp hk2
    simp only [hk, List.getD_eq_getElem?_getD, List.getElem?_take, if_pos hp, List.getElem?_ofFn, h1, dif_pos, Option.getD_some]
  have hfield : ∀ p (hp : p < k), meshField basis (rows.getD p []) = fun v => ∑ i, S ⟨p, by omega⟩ i * basis[i] v := by
    intro p hp
    rw [hrow p hp]
    funext v
    exact Finset.sum_congr rfl fun i _ => by rw [getD_ofFn]
  have hval : ∀ p (hp : p < basis.length), (List.ofFn e).getD p 0 = e ⟨p, hp⟩ := fun p hp => getD_ofFn e ⟨p, hp⟩ 0
  refine ⟨ho, List.length_ofFn, by omega, by omega, ?_, ?_, ?_, ?_, ?_, ?_⟩
  · rw [List.pairwise_iff_getElem]
    intro i j hi hj hij
    simp only [List.getElem_ofFn]
    exact (C50_mesh_energy_ratio _ _ _ _ _ hb).2.2.2.1 hij.le
  · intro p hp q hq
    rw [hfield p (by omega), hfield q (by omega)]
    have := hbest.orthonormal ⟨p, by omega⟩ ⟨q, by omega⟩
    simpa using this
  · intro p hp
    rw [hfield p (by omega), hval p (by omega)]
    exact hbest.attained ⟨p, by omega⟩
  · intro p hp f hf hq
    rw [hval p (by omega)]
    have := hbest.best ⟨p, by omega⟩ f hf fun q hqp => by
      have h1 : (q : ℕ) < p := hqp
      have := hq q h1
      rwa [hfield q (by omega)] at this
    simpa [sq] using this
  · intro u
    obtain ⟨F, g, h1, h2, h3, h4, -, -⟩ := C32_mesh_round_trip _ _ _ _ _ hb u
    have horth : ∀ p < N, ∑ v, (u v - g v) * meshField basis (rows.getD p []) v = 0 := by
      intro p hp
      rw [hfield p (by omega)]
      exact h4 ⟨p, hp⟩
    refine ⟨_, g, h1, List.length_ofFn, h2, horth, ?_⟩
    rintro hlt ⟨c, rfl⟩
    rw [hval N hlt]
    have hmem : (fun v => (∑ i, c i * basis[i] v) - g v) ∈ {f : V → ℝ | ∃ c : Fin basis.length → ℝ, f = fun v => ∑ i, c i * basis[i] v} := by
      refine ⟨fun i => c i - ∑ p : Fin N, F p * S ⟨p, by omega⟩ i, ?_⟩
      funext v
      rw [h3 v]
      simp only [sub_mul, Finset.sum_sub_distrib, Finset.sum_mul]
      congr 1
      rw [Finset.sum_comm]
      refine Finset.sum_congr rfl fun p _ => ?_
      rw [Finset.mul_sum]
      exact Finset.sum_congr rfl fun i _ => by ring
    have := hbest.best ⟨N, hlt⟩ _ hmem fun q hq => by
      have h1 : (q : ℕ) < N := hq
      have := horth q h1
      rwa [hfield q (by omega)] at this
    simpa [sq] using this
  · intro fp hfp
    rw [(C115_mesh_inverse _ _ _ _ _ hb fp).1 hfp]
    congr 1
    funext v
    rw [Finset.sum_range]
    exact Finset.sum_congr rfl fun p _ => by rw [hfield p (by have := p.2; dsimp only at this; omega)]

/-- what the numerical routines do for one mesh: `fields` are the values of a basis on its vertices. -/
structure MeshContracts (env : MeshCache.Env Φ Ω) (name : String) (region : V → Bool) (fields : Φ → List (V → ℝ)) : Prop where
  eigsh : ∀ k ω w φ, env.eigsh name k ω = .ok (w, φ) → EigshBasis w (fields φ)
  solve : ∀ k ω w φ, env.eigsh name k ω = .ok (w, φ) → MeshSolutionOf region (fields φ) (env.solve name φ)
  shannon : ∀ K, env.shannon name K = Integration.meshShannon region K

private theorem correct_mesh_usable [Nonempty V] {env : MeshCache.Env Φ Ω} {name : String} {region : V → Bool} {fields : Φ → List (V → ℝ)}
    (hc : MeshContracts env name region fields) (number : Option ℤ) (ω : Ω) (res : MeshCache.Result Φ)
    (h : MeshCorrect env ⟨name, number, true, ω⟩ res) : ∃ e rows, res.slepian = some (e, rows) ∧
      MeshUsable region (env.shannon name res.evals.length).toNat (fields res.basis) e rows := by
  obtain ⟨ω', w, φ, he, rfl, rfl, -, -, hs⟩ := h
  obtain ⟨rows, hr, hv⟩ := hs rfl
  obtain ⟨hl, ho⟩ := (hc.eigsh _ _ _ _ he).orthonormal
  have hsh := (C58_mesh_shannon (V := V) res.evals.length).2.2.2 region
  rw [← hc.shannon] at hsh
  have hN : (env.shannon name res.evals.length).toNat ≤ (fields res.basis).length := by rw [hl]; have := hsh.2.1; omega
  refine ⟨_, _, hr, solved_usable region _ ho _ (hc.solve _ _ _ _ he) _ hN rows ?_⟩
  rcases hv with hv | hv
  · exact Or.inl hv
  · right
    rw [hv]
    dsimp only
    unfold Cache.slice
    rw [if_pos hsh.1]

/-- C113.  Sessions one after another, each run to its end or stopped between two file operations, no file deleted, whatever `eigsh`
returns: the next session ends with a usable mesh or with the error of `eigsh`. -/
theorem C113_sequential_partial [Nonempty V] {env : MeshCache.Env Φ Ω} (hlen : FullLength env) {fs fs' : MeshCache.FS Φ}
    (hreg : Published env fs.registry) (huser : ∀ n, fs.user n = none)
    (h : Relation.ReflTransGen (fun a b => ∃ (j : MeshCache.Job Ω) (s : ℕ), b = runFor a (MeshCache.construct env j) s) fs fs')
    (name : String) (region : V → Bool) (fields : Φ → List (V → ℝ)) (hc : MeshContracts env name region fields) (number : Option ℤ) (ω : Ω) :
    (∃ res e rows, (runAlone fs' (MeshCache.construct env ⟨name, number, true, ω⟩)).1 = .ok res ∧ res.slepian = some (e, rows) ∧
      MeshUsable region (env.shannon name res.evals.length).toNat (fields res.basis) e rows) ∨
    ∃ err, (runAlone fs' (MeshCache.construct env ⟨name, number, true, ω⟩)).1 = .error err ∧
      env.eigsh name (askedFor env ⟨name, number, true, ω⟩) ω = .error err := by
  rcases C79_sequential_partial hlen hreg huser h ⟨name, number, true, ω⟩ with ⟨res, h1, h2⟩ | h1
  · obtain ⟨e, rows, h3, h4⟩ := correct_mesh_usable hc number ω res h2
    exact Or.inl ⟨res, e, rows, h1, h3, h4⟩
  · exact Or.inr h1

/-- C113.  If `eigsh` gave the same answer in every run: whatever sessions run at once, are killed at any point or have files deleted,
every session that ends with a result ends with a usable mesh. -/
theorem C113_concurrent_partial [Nonempty V] {env : MeshCache.Env Φ Ω} (hlen : FullLength env)
    (hdet : ∀ n k ω ω', env.eigsh n k ω = env.eigsh n k ω') {del : String → Prop} {fs : MeshCache.FS Φ}
    (hreg : MeshCache.GoodFiles (MeshBelongs env) fs.registry) (huser : MeshCache.GoodFiles (MeshBelongs env) fs.user)
    {st : MeshCache.State Φ Ω} (r : Relation.ReflTransGen (MeshCache.Step env del) ⟨fs, []⟩ st)
    (name : String) (region : V → Bool) (fields : Φ → List (V → ℝ)) (hc : MeshContracts env name region fields) (number : Option ℤ) (ω : Ω)
    (res : MeshCache.Result Φ) (h : ((⟨name, number, true, ω⟩ : MeshCache.Job Ω), MeshCache.Proc.running (.done (.ok res))) ∈ st.procs) :
    ∃ e rows, res.slepian = some (e, rows) ∧
      MeshUsable region (env.shannon name res.evals.length).toNat (fields res.basis) e rows :=
  correct_mesh_usable hc number ω res (C79_deterministic hlen hdet hreg huser r _ res h)

/-! ### the fault -/

/-- Two vertices, the region the first of them, `eigsh` returning either sign of the second eigenvector of the Laplacian.  After two
sessions at once, every session ends, without an error, with a mesh that is not usable: the Slepian function said to have all of its
energy in the region has none there. -/
theorem C113_violation {env : MeshCache.Env Φ Ω} {name : String} {fields : Φ → List (Fin 2 → ℝ)}
    (hc : MeshContracts env name (fun v : Fin 2 => decide (v = 0)) fields) {ω₁ ω₂ : Ω} {φ₁ φ₂ : Φ}
    (h₁ : env.eigsh name 2 ω₁ = .ok ([0, 2], φ₁)) (h₂ : env.eigsh name 2 ω₂ = .ok ([0, 2], φ₂))
    (f₁ : fields φ₁ = [![√2 / 2, √2 / 2], ![√2 / 2, -(√2 / 2)]]) (f₂ : fields φ₂ = [![√2 / 2, √2 / 2], ![-(√2 / 2), √2 / 2]]) :
    ∃ fs, Relation.ReflTransGen (MeshCache.Step env fun _ => False) ⟨noFiles, []⟩ ⟨fs, []⟩ ∧
      ∀ ω, ∃ res e rows, (runAlone fs (MeshCache.construct env ⟨name, some 2, true, ω⟩)).1 = .ok res ∧ res.slepian = some (e, rows) ∧
        e.getD 0 0 = 1 ∧ 0 < rows.length ∧
        ∑ v with decide (v = 0) = true, meshField (fields res.basis) (rows.getD 0 []) v ^ 2 = 0 ∧
        ∀ N, ¬ MeshUsable (fun v : Fin 2 => decide (v = 0)) N (fields res.basis) e rows := by
  obtain ⟨fs, hr, hfs⟩ := C79_race_violation env name 2 h₁ h₂ rfl
  have hs2 := half_sq
  have hN : env.shannon name 2 = 1 := by
    rw [hc.shannon]
    unfold Integration.meshShannon
    have : (Finset.univ.filter fun v : Fin 2 => decide (v = 0) = true).card = 1 := by decide
    rw [this]
    have := Py.round_intCast 1
    simpa using this
  have hu := solved_usable _ _ (hc.eigsh _ _ _ _ h₁).orthonormal.2 _ (hc.solve _ _ _ _ h₁) 1 (by rw [f₁]; norm_num) _ (Or.inl rfl)
  set e := (env.solve name φ₁).1 with he
  set S := (env.solve name φ₁).2 with hS
  have hpos : 0 < S.length := by have := hu.enough; omega
  -- the first Slepian function of the first basis
  set a := (S.getD 0 []).getD 0 0 with ha
  set b := (S.getD 0 []).getD 1 0 with hb
  have hf₁ : ∀ v : Fin 2, meshField (fields φ₁) (S.getD 0 []) v = a * (√2 / 2) + b * (if v = 0 then √2 / 2 else -(√2 / 2)) := by
    intro v
    rw [f₁]
    unfold meshField
    rw [sum_pair fun i => (S.getD 0 []).getD i 0]
    fin_cases v <;> simp [ha, hb]
  have hf₂ : ∀ v : Fin 2, meshField (fields φ₂) (S.getD 0 []) v = a * (√2 / 2) + b * (if v = 0 then -(√2 / 2) else √2 / 2) := by
    intro v
    rw [f₂]
    unfold meshField
    rw [sum_pair fun i => (S.getD 0 []).getD i 0]
    fin_cases v <;> simp [ha, hb]
  have hreg : ∀ f : Fin 2 → ℝ, ∑ v with decide (v = 0) = true, f v ^ 2 = f 0 ^ 2 := by
    intro f
    rw [Finset.sum_filter, Fin.sum_univ_two]
    simp
  have hen := hu.energies 0 hpos
  have hone := hu.orthonormal 0 hpos 0 hpos
  rw [hreg, hf₁, if_pos rfl] at hen
  rw [if_pos rfl, Fin.sum_univ_two, hf₁, hf₁, if_pos rfl, if_neg (by decide)] at hone
  have hdelta := hu.best 0 hpos (fun v => if v = 0 then 1 else 0) ⟨fun _ => √2 / 2, by
    rw [f₁]
    funext v
    rw [sum_pair fun _ => √2 / 2]
    fin_cases v <;> simp [hs2] <;> norm_num⟩ (fun q hq => absurd hq (Nat.not_lt_zero q))
  rw [hreg, Fin.sum_univ_two] at hdelta
  rw [if_pos rfl, if_neg (by decide)] at hdelta
  have e1 : (a * (√2 / 2) + b * (√2 / 2)) ^ 2 = (a + b) ^ 2 / 2 := by
    calc _ = (a + b) ^ 2 * (√2 / 2 * (√2 / 2)) := by ring
      _ = _ := by rw [hs2]; ring
  have e2 : (a * (√2 / 2) + b * (√2 / 2)) * (a * (√2 / 2) + b * (√2 / 2)) +
      (a * (√2 / 2) + b * -(√2 / 2)) * (a * (√2 / 2) + b * -(√2 / 2)) = (a + b) ^ 2 / 2 + (a - b) ^ 2 / 2 := by
    calc _ = ((a + b) ^ 2 + (a - b) ^ 2) * (√2 / 2 * (√2 / 2)) := by ring
      _ = _ := by rw [hs2]; ring
  rw [e1] at hen
  rw [e2] at hone
  have hab : (a - b) ^ 2 = 0 := by nlinarith [sq_nonneg (a - b)]
  have hab' : a = b := by nlinarith [pow_eq_zero_iff (two_ne_zero) |>.1 hab]
  have he1 : e.getD 0 0 = 1 := by
    rw [hab] at hone
    linarith
  refine ⟨fs, hr, fun ω => ⟨_, e, S.take 1, hfs ω, ?_, he1, ?_, ?_, ?_⟩⟩
  · dsimp only [List.length_cons, List.length_nil]
    rw [hN]
    rfl
  · rw [List.length_take]; omega
  · have hrow : (S.take 1).getD 0 [] = S.getD 0 [] := by simp [List.getD_eq_getElem?_getD, List.getElem?_take]
    rw [hrow, hreg, hf₂, if_pos rfl, hab']
    ring
  · intro N hbad
    have hrow : (S.take 1).getD 0 [] = S.getD 0 [] := by simp [List.getD_eq_getElem?_getD, List.getElem?_take]
    have := hbad.energies 0 (by rw [List.length_take]; omega)
    rw [hrow, hreg, hf₂, if_pos rfl, hab', he1] at this
    norm_num at this

/-! ### runs exist -/

/-- every region and basis has a solution. -/
theorem exists_meshSolution (region : V → Bool) (basis : List (V → ℝ)) : ∃ x, MeshSolutionOf region basis x := by
  obtain ⟨we, M, hM⟩ := C05_run_exists basis.length (RealMat.meshHelper basis.length (RealMat.meshIntegral region basis))
    RealMat.fillUpper 3 (by norm_num)
  obtain ⟨-, M', h1, h2, h3⟩ := C05_mesh_matrix_schedule_independent region basis basis.length rfl 3 (by norm_num) we _ hM
  injection h1 with h1
  subst h1
  obtain ⟨s, hs⟩ := exists_eighOrder basis.length M (fun i hi j hj => by
    rw [h2 i hi j hj, h2 j hj i hi]
    unfold meshInner
    exact Finset.sum_congr rfl fun v _ => mul_comm _ _)
  let w : Fin basis.length → ℝ := fun k => s.1.getD k 0
  let W : Fin basis.length → Fin basis.length → ℝ := fun r k => s.2 r k
  refine ⟨(List.ofFn (cleanMesh (Tuple.sort w) w W).1, List.ofFn fun p => List.ofFn ((cleanMesh (Tuple.sort w) w W).2 p)), 3, we, M, w, W,
    _, _, by norm_num, hM, ⟨?_, ?_⟩, ⟨Tuple.sort w, Tuple.monotone_sort w, rfl⟩, rfl, rfl⟩
  · intro k r
    have := hs.2.1 k k.2 r r.2
    rw [← Fin.sum_univ_eq_sum_range (fun c => M r c * s.2 c k)] at this
    exact this
  · intro k k'
    have := hs.2.2 k k.2 k' k'.2
    rw [← Fin.sum_univ_eq_sum_range (fun r => s.2 r k * s.2 r k')] at this
    simp only [Fin.ext_iff]
    exact this

/-- the environment of the two vertices, with any solver within its contract. -/
theorem exists_pair : ∃ env : MeshCache.Env (List (Fin 2 → ℝ)) Bool, FullLength env ∧
    MeshContracts env "pair" (fun v : Fin 2 => decide (v = 0)) id ∧
    env.eigsh "pair" 2 true = .ok ([0, 2], [![√2 / 2, √2 / 2], ![√2 / 2, -(√2 / 2)]]) ∧
    env.eigsh "pair" 2 false = .ok ([0, 2], [![√2 / 2, √2 / 2], ![-(√2 / 2), √2 / 2]]) := by
  have hs2 := half_sq
  let env : MeshCache.Env (List (Fin 2 → ℝ)) Bool :=
    { vertices := fun _ => 2
      eigsh := fun _ k ω => if k = 2 then .ok ([0, 2], [![√2 / 2, √2 / 2], if ω then ![√2 / 2, -(√2 / 2)] else ![-(√2 / 2), √2 / 2]])
        else .error .valueError
      shannon := fun _ K => Integration.meshShannon (fun v : Fin 2 => decide (v = 0)) K
      solve := fun _ φ => (exists_meshSolution (fun v : Fin 2 => decide (v = 0)) φ).choose }
  have hcase : ∀ n k ω w φ, env.eigsh n k ω = .ok (w, φ) → k = 2 ∧ w = [0, 2] ∧
      φ = [![√2 / 2, √2 / 2], if ω then ![√2 / 2, -(√2 / 2)] else ![-(√2 / 2), √2 / 2]] := by
    intro n k ω w φ h
    simp only [env] at h
    split at h
    · rename_i hk
      injection h with h
      exact ⟨hk, (Prod.ext_iff.1 h).1.symm, (Prod.ext_iff.1 h).2.symm⟩
    · cases h
  refine ⟨env, ?_, ⟨?_, ?_, fun K => rfl⟩, rfl, rfl⟩
  · intro n k ω w φ h
    obtain ⟨rfl, rfl, -⟩ := hcase _ _ _ _ _ h
    rfl
  · intro k ω w φ h
    obtain ⟨rfl, rfl, rfl⟩ := hcase _ _ _ _ _ h
    have hpos : (√2 / 2 : ℝ) ≠ 0 := by positivity
    have hsum : (√2 / 2 : ℝ) * (√2 / 2) + √2 / 2 * (√2 / 2) = 1 := by linarith
    refine ⟨[![√2 / 2, √2 / 2], if ω then ![√2 / 2, -(√2 / 2)] else ![-(√2 / 2), √2 / 2]], ?_, rfl, ?_, ?_⟩
    · have : ∀ f : Fin 2 → ℝ, f 0 * f 0 + f 1 * f 1 = 1 → (fun v => f v / √(integrateWholeMesh f f)) = f := by
        intro f hf
        funext v
        unfold integrateWholeMesh
        rw [Fin.sum_univ_two, hf, Real.sqrt_one, div_one]
      simp only [orthonormalise, List.map_cons, List.map_nil, id]
      rw [this, this]
      · cases ω <;> simp <;> linarith
      · simpa using hsum
    · intro f hf
      simp only [List.mem_cons, List.not_mem_nil, or_false] at hf
      rcases hf with rfl | rfl
      · exact ⟨0, hpos⟩
      · refine ⟨0, ?_⟩
        cases ω
        · simpa using hpos
        · simpa using hpos
    · simp only [List.pairwise_cons, List.mem_cons, List.not_mem_nil, or_false, forall_eq, List.Pairwise.nil, and_true,
        IsEmpty.forall_iff, implies_true, Fin.sum_univ_two]
      cases ω <;> simp
  · intro k ω w φ _
    exact (exists_meshSolution _ _).choose_spec

/-- the hypotheses are met: the two vertices with nothing saved. -/
example (ω : Bool) : ∃ env : MeshCache.Env (List (Fin 2 → ℝ)) Bool, ∃ res e rows,
    (runAlone noFiles (MeshCache.construct env ⟨"pair", some 2, true, ω⟩)).1 = .ok res ∧ res.slepian = some (e, rows) ∧
      MeshUsable (fun v : Fin 2 => decide (v = 0)) (env.shannon "pair" res.evals.length).toNat res.basis e rows := by
  obtain ⟨env, hlen, hc, ht, hf⟩ := exists_pair
  have hp : Published env (noFiles : MeshCache.FS (List (Fin 2 → ℝ))).registry := fun _ _ => Or.inl ⟨rfl, rfl, fun _ => ⟨rfl, rfl⟩⟩
  refine ⟨env, ?_⟩
  rcases C113_sequential_partial hlen hp (fun _ => rfl) Relation.ReflTransGen.refl "pair" _ _ hc (some 2) ω with h | ⟨err, -, h⟩
  · exact h
  · change env.eigsh "pair" 2 ω = _ at h
    cases ω
    · rw [hf] at h; cases h
    · rw [ht] at h; cases h

/-- those of `C113_concurrent_partial`: the same, with `eigsh` always choosing the same sign. -/
example : ∃ env : MeshCache.Env (List (Fin 2 → ℝ)) Bool, FullLength env ∧ (∀ n k ω ω', env.eigsh n k ω = env.eigsh n k ω') ∧
    MeshContracts env "pair" (fun v : Fin 2 => decide (v = 0)) id ∧ ∃ w φ, env.eigsh "pair" 2 true = .ok (w, φ) := by
  obtain ⟨env, hlen, hc, ht, -⟩ := exists_pair
  exact ⟨{ env with eigsh := fun n k _ => env.eigsh n k true }, fun n k _ => hlen n k true, fun _ _ _ _ => rfl,
    ⟨fun k _ => hc.eigsh k true, fun k _ => hc.solve k true, hc.shannon⟩, _, _, ht⟩

/-- those of `C113_violation`. -/
example : ∃ (env : MeshCache.Env (List (Fin 2 → ℝ)) Bool) (fs : MeshCache.FS (List (Fin 2 → ℝ))),
    Relation.ReflTransGen (MeshCache.Step env fun _ => False) ⟨noFiles, []⟩ ⟨fs, []⟩ ∧ ∀ ω, ∃ res e rows,
      (runAlone fs (MeshCache.construct env ⟨"pair", some 2, true, ω⟩)).1 = .ok res ∧ res.slepian = some (e, rows) ∧
      ∀ N, ¬ MeshUsable (fun v : Fin 2 => decide (v = 0)) N res.basis e rows := by
  obtain ⟨env, -, hc, ht, hf⟩ := exists_pair
  obtain ⟨fs, hr, h⟩ := C113_violation hc ht hf rfl rfl
  exact ⟨env, fs, hr, fun ω => by
    obtain ⟨res, e, rows, h1, h2, -, -, -, h3⟩ := h ω
    exact ⟨res, e, rows, h1, h2, h3⟩⟩

end Sleplet.Props
