import Verif.Model.MeshClasses
import Verif.Props.FunctionObjects
import Verif.Props.MeshTransform
import Verif.Props.SlepianWavelets

/-!
C78: coefficients of the classes of functions on meshes, and noise on them.
-/
namespace Sleplet.Props

open NumPy Classes MeshClasses MeshT

variable {V : Type} [Fintype V] {K : ℕ}

/-- The mesh and its Slepian object were built by the library (`BuiltMesh`), and there is one mesh eigenvalue for each basis
function. -/
structure GoodMesh (e : MEnv V) (φ : Fin K → V → ℝ) (ev : Fin K → ℝ) (S : Fin K → Fin K → ℝ) (rows : ℕ) : Prop where
  built : BuiltMesh e.slepian φ ev S rows
  number : e.meshEvals.length = K

/-- value `p` of a list made by a function. -/
private theorem getD_ofFn {n : ℕ} (f : Fin n → ℝ) (i : ℕ) (hi : i < n) : (List.ofFn f).getD i 0 = f ⟨i, hi⟩ := by
  simp [List.getD_eq_getElem?_getD, hi]

section
variable {e : MEnv V} {φ : Fin K → V → ℝ} {ev : Fin K → ℝ} {S : Fin K → Fin K → ℝ} {rows : ℕ}

theorem GoodMesh.le_K (h : GoodMesh e φ ev S rows) : e.slepian.N ≤ K := h.built.le_rows.trans h.built.rows_le

/-- the Slepian transform of harmonic coefficients. -/
private theorem forward_ui (h : GoodMesh e φ ev S rows) (a : Fin K → ℝ) :
    slepianMeshForward e.slepian { ui := some (List.ofFn a) } none =
      .ok (List.ofFn fun p : Fin e.slepian.N => ∑ i, a i * S ⟨p, by have := h.le_K; omega⟩ i) := by
  have hNK := h.le_K
  unfold slepianMeshForward
  simp only [MeshT.detectMethod, Option.isSome_some, if_true, bind, Except.bind, Option.getD_none]
  rw [MeshT.decomposeAll_ok _ _ (fun r => if hr : r < e.slepian.N then ∑ i, a i * S ⟨r, by omega⟩ i else 0)]
  · congr 1
    apply List.ext_getElem
    · simp
    · intro i h1 h2
      simp at h2
      simp [h2]
  · intro r hr
    have hr : r < e.slepian.N := by simpa using hr
    have hrow := h.built.row ⟨r, by omega⟩ (by have := h.built.le_rows; simp only; omega)
    rw [(decompose_values e.slepian φ h.built.basis r (by rw [h.built.number]; omega) _ _ hrow.1 hrow.2).1 a none false]
    simp only [hr, dite_true]

/-- the inverse Slepian transform reads the first `N` coefficients. -/
theorem meshInverse_take (h : GoodMesh e φ ev S rows) (c : List ℝ) (hc : e.slepian.N ≤ c.length) :
    slepianMeshInverse e.slepian c = .ok fun v => ∑ p : Fin e.slepian.N, c.getD p 0 *
      ∑ i, S ⟨p, by have := h.le_K; omega⟩ i * φ i v := by
  have hNK := h.le_K
  have h1 : c.take e.slepian.N = List.ofFn fun p : Fin e.slepian.N => c.getD p 0 := by
    apply List.ext_getElem
    · simp [hc]
    · intro i h1 h2
      simp at h2
      have : i < c.length := by omega
      simp [List.getD_eq_getElem?_getD, this]
  have h2 : slepianMeshInverse e.slepian c =
      slepianMeshInverse e.slepian (List.ofFn fun p : Fin e.slepian.N => c.getD p 0) := by
    unfold slepianMeshInverse
    rw [h1]
    rw [List.take_of_length_le (by simp)]
  rw [h2]
  exact slepianMeshInverse_ok e.slepian rfl φ h.built.basis (fun p => S ⟨p, by omega⟩)
    (fun p => (h.built.row ⟨p, by omega⟩ (by have := h.built.le_rows; simp only; omega)).1) _

/-- the noise that is added to Slepian coefficients: independent of the region and of everything before. -/
theorem meshNoise_ok (h : GoodMesh e φ ev S rows) (c : List ℝ) (hc : e.slepian.N ≤ c.length) (snr : ℝ) (w : Noise.World) :
    slepianNoise e c snr w = .ok (List.ofFn fun p : Fin e.slepian.N => ∑ i : Fin K,
      Real.sqrt (10 ^ (-snr / 10) * (∑ q : Fin e.slepian.N, c.getD q 0 ^ 2) / K) * e.normals 30 i *
        S ⟨p, by have := h.le_K; omega⟩ i, w ++ [(30, K)]) := by
  have hNK := h.le_K
  obtain ⟨-, horth⟩ := h.built.eigen
  set a : Fin K → ℝ := fun i => ∑ p : Fin e.slepian.N, c.getD p 0 * S ⟨p, by omega⟩ i with ha
  have hfield : (fun v => ∑ p : Fin e.slepian.N, c.getD p 0 * ∑ i, S ⟨p, by omega⟩ i * φ i v) = fun v => ∑ i, a i * φ i v := by
    funext v
    simp only [ha, Finset.sum_mul, Finset.mul_sum]
    rw [Finset.sum_comm]
    exact Finset.sum_congr rfl fun i _ => Finset.sum_congr rfl fun p _ => by ring
  have hre : (c.map fun x : ℝ => (x : ℂ)).map Complex.re = c := by simp [Function.comp_def]
  have hu : meshForward e.meshEvals.length e.slepian.basis (fun v => ∑ i, a i * φ i v) = .ok (List.ofFn a) := by
    rw [h.number, h.built.basis, meshForward_ofFn]
    congr 2
    funext i
    exact comb_inner φ h.built.orth a i
  have hpow : ∑ i, a i ^ 2 = ∑ q : Fin e.slepian.N, c.getD q 0 ^ 2 := by
    have := comb_comb (fun p : Fin e.slepian.N => S ⟨p, by omega⟩) (fun p q => by
      have := horth ⟨p, by omega⟩ ⟨q, by omega⟩
      simp only [Fin.mk.injEq, ← Fin.ext_iff] at this
      exact this) (fun p => c.getD p 0) (fun p => c.getD p 0)
    simpa only [sq] using this
  have hsig : Noise.computeSigmaNoise ((List.ofFn a).map fun x : ℝ => (x : ℂ)) snr none =
      Real.sqrt (10 ^ (-snr / 10) * (∑ q : Fin e.slepian.N, c.getD q 0 ^ 2) / K) := by
    rw [← hpow]
    simp [Noise.computeSigmaNoise, Noise.signalPower, List.sum_ofFn, Function.comp_def]
  unfold slepianNoise Noise.createSlepianMeshNoise
  simp only [hre, meshInverse_take h c hc, hfield, hu, Except.map, bind, Except.bind, C23_mesh_noise_reproducible, hsig]
  have hl : (List.range ((List.ofFn a).map fun x : ℝ => (x : ℂ)).length).map (fun i =>
      Real.sqrt (10 ^ (-snr / 10) * (∑ q : Fin e.slepian.N, c.getD q 0 ^ 2) / K) * e.normals 30 i) =
      List.ofFn fun i : Fin K => Real.sqrt (10 ^ (-snr / 10) * (∑ q : Fin e.slepian.N, c.getD q 0 ^ 2) / K) * e.normals 30 i := by
    apply List.ext_getElem <;> simp
  rw [hl, forward_ui h]
  simp [pure, Except.pure, Function.comp_def]

private theorem field_ok (h : GoodMesh e φ ev S rows) :
    fieldCoefficients e = .ok (List.ofFn fun i => ∑ v, e.normalY v * φ i v) := by
  unfold fieldCoefficients
  rw [h.number, h.built.basis, meshForward_ofFn]

private theorem slepianField_ok (h : GoodMesh e φ ev S rows) :
    slepianFieldCoefficients e = .ok (List.ofFn fun p : Fin e.slepian.N => ∑ v, e.normalY v * ∑ i,
      S ⟨p, by have := h.le_K; omega⟩ i * φ i v) := by
  unfold slepianFieldCoefficients
  rw [field_ok h]
  simp only [bind, Except.bind]
  rw [forward_ui h]
  congr 2
  funext p
  simp only [Finset.sum_mul, Finset.mul_sum]
  rw [Finset.sum_comm]
  exact Finset.sum_congr rfl fun i _ => Finset.sum_congr rfl fun v _ => by ring

/-- a class without noise. -/
private theorem construct_plain {limDen : ℚ → ℚ} {fn : MFn} {region : Bool} {name : String} {w w' : Noise.World} {c : List ℝ}
    (hs : fn.setupArgs e.jMax e.meshEvals.length none = .ok fn) (hn : fn.name limDen e = .ok name)
    (hc : fn.create e w = .ok (c, w')) :
    ∃ o, fn.construct limDen e none none region w = .ok (o, w') ∧ o.coefficients = c ∧ o.unnoised = none ∧ o.snr = none := by
  simp only [MFn.construct, hs, bind, Except.bind, slepianFunction, Ranks.meshFunction, hn, hc, pure, Except.pure]
  cases fn.isSlepian <;> exact ⟨_, rfl, rfl, rfl, rfl⟩

/-- what a construction without noise says about the methods of the class. -/
private theorem construct_inv {limDen : ℚ → ℚ} {fn : MFn} {region : Bool} {w w' : Noise.World} {o : Ranks.Obj}
    (h : fn.construct limDen e none none region w = .ok (o, w')) :
    ∃ name, fn.setupArgs e.jMax e.meshEvals.length none = .ok fn ∧ fn.name limDen e = .ok name ∧
      fn.create e w = .ok (o.coefficients, w') := by
  have hs : ∀ fn', fn.setupArgs e.jMax e.meshEvals.length none = .ok fn' → fn' = fn := by
    intro fn' h'
    cases fn with
    | basisFunctions r =>
      simp only [MFn.setupArgs, Ranks.checkRank, Ranks.validateBasis, Ranks.setupRank, bind, Except.bind, Except.map] at h'
      split_ifs at h' <;> simp_all
    | slepianFunctions r =>
      simp only [MFn.setupArgs, Ranks.checkRank, Ranks.setupRank, bind, Except.bind, Except.map] at h'
      split_ifs at h' <;> simp_all
    | _ => simp_all [MFn.setupArgs, noArgs, snrArg, waveArgs, Except.map]
  unfold MFn.construct at h
  cases h1 : fn.setupArgs e.jMax e.meshEvals.length none with
  | error x => rw [h1] at h; cases h
  | ok fn' =>
    obtain rfl := hs fn' h1
    rw [h1] at h
    simp only [bind, Except.bind, slepianFunction, Ranks.meshFunction] at h
    cases h2 : fn'.name limDen e with
    | error x => rw [h2] at h; cases hh : fn'.isSlepian <;> rw [hh] at h <;> cases h
    | ok name =>
      rw [h2] at h
      cases h3 : fn'.create e w with
      | error x => rw [h3] at h; cases hh : fn'.isSlepian <;> rw [hh] at h <;> cases h
      | ok cw =>
        rw [h3] at h
        refine ⟨name, rfl, rfl, ?_⟩
        cases hh : fn'.isSlepian <;> rw [hh] at h <;>
          simp only [pure, Except.pure, if_true, Bool.false_eq_true, if_false, Except.ok.injEq, Prod.mk.injEq] at h <;>
          obtain ⟨rfl, rfl⟩ := h <;> rfl

/-- C78.  The field of a mesh: coefficient `i` is the product of basis function `i` with the second component of the vertex normals,
summed over the vertices; a region does not change it. -/
theorem C78_field (limDen : ℚ → ℚ) (h : GoodMesh e φ ev S rows) (region : Bool) (w : Noise.World) :
    ∃ o, MFn.field.construct limDen e none none region w = .ok (o, w) ∧ o.coefficients.length = K ∧
      ∀ i : Fin K, o.coefficients.getD i 0 = ∑ v, e.normalY v * φ i v := by
  obtain ⟨o, ho, hc, -⟩ := construct_plain (e := e) (limDen := limDen) (fn := .field) (region := region) (w := w) rfl rfl
    (show MFn.create e .field w = .ok (_, w) by rw [MFn.create, field_ok h]; rfl)
  exact ⟨o, ho, by simp [hc], fun i => by rw [hc, getD_ofFn _ _ i.2]⟩

/-- C78.  The basis function of rank `r` has coefficient one at `r` and zero elsewhere. -/
theorem C78_basis (limDen : ℚ → ℚ) (h : GoodMesh e φ ev S rows) (region : Bool) (w : Noise.World) (r : Fin K) :
    ∃ o, (MFn.basisFunctions (r : ℕ)).construct limDen e none none region w = .ok (o, w) ∧ o.coefficients.length = K ∧
      ∀ i : Fin K, o.coefficients.getD i 0 = if i = r then 1 else 0 := by
  have hr : (r : ℕ) < e.meshEvals.length := by rw [h.number]; exact r.2
  have h0 : ¬ ((r : ℕ) : ℤ) < 0 := by omega
  have hb : item e.slepian.basis (r : ℕ) = .ok (φ r) := by simp [item, h.built.basis]
  obtain ⟨o, ho, hc, -⟩ := construct_plain (e := e) (limDen := limDen) (fn := .basisFunctions (r : ℕ)) (region := region) (w := w)
    (name := tidy (e.meshName ++ "_rank" ++ toString ((r : ℕ) : ℤ) ++ "_lam" ++ e.fmtE e.meshEvals[(r : ℕ)]))
    (c := List.ofFn fun i => ∑ v, φ r v * φ i v) (w' := w)
    (by simp only [MFn.setupArgs, Ranks.checkRank, if_neg h0, Ranks.validateBasis, Ranks.setupRank, bind, Except.bind, Except.map])
    (by simp only [MFn.name, Int.toNat_natCast, item_of_lt _ _ hr, bind, Except.bind, pure, Except.pure])
    (by simp only [MFn.create, Int.toNat_natCast, item_of_lt _ _ hr, hb, bind, Except.bind, pure, Except.pure]
        rw [h.number, h.built.basis, meshForward_ofFn])
  refine ⟨o, ho, by simp [hc], fun i => ?_⟩
  rw [hc, getD_ofFn _ _ i.2]
  rw [Fin.eta, h.built.orth r i]
  simp only [eq_comm]

/-- C78.  The Slepian coefficients of the field are its products with the Slepian functions, summed over the whole mesh. -/
theorem C78_slepian_field (limDen : ℚ → ℚ) (h : GoodMesh e φ ev S rows) (region : Bool) (w : Noise.World) :
    ∃ o, MFn.slepianField.construct limDen e none none region w = .ok (o, w) ∧ o.coefficients.length = e.slepian.N ∧
      ∀ p : Fin K, (p : ℕ) < e.slepian.N → o.coefficients.getD p 0 = ∑ v, e.normalY v * ∑ i, S p i * φ i v := by
  obtain ⟨o, ho, hc, -⟩ := construct_plain (e := e) (limDen := limDen) (fn := .slepianField) (region := region) (w := w) rfl rfl
    (show MFn.create e .slepianField w = .ok (_, w) by rw [MFn.create, slepianField_ok h]; rfl)
  exact ⟨o, ho, by simp [hc], fun p hp => by rw [hc, getD_ofFn _ _ hp]⟩

/-- C78.  The Slepian function of rank `r < N` has coefficient one at `r` and zero elsewhere.  From `N` on the rank is accepted as
well: the function is zero if all eigenvectors were just computed, and `IndexError` is raised if only `N` could be loaded. -/
theorem C78_slepian_functions (limDen : ℚ → ℚ) (h : GoodMesh e φ ev S rows) (region : Bool) (w : Noise.World) (r : Fin K) :
    ((r : ℕ) < rows → ∃ o, (MFn.slepianFunctions (r : ℕ)).construct limDen e none none region w = .ok (o, w) ∧
      o.coefficients.length = e.slepian.N ∧
      ∀ p < e.slepian.N, o.coefficients.getD p 0 = if p = (r : ℕ) then 1 else 0) ∧
    (rows ≤ r → (MFn.slepianFunctions (r : ℕ)).construct limDen e none none region w = .error .indexError) := by
  have hNK := h.le_K
  have h0 : ¬ ((r : ℕ) : ℤ) < 0 := by omega
  have hev : item e.slepian.evals (r : ℕ) = .ok (ev r) := by simp [item, h.built.evals]
  have hs : (MFn.slepianFunctions (r : ℕ)).setupArgs e.jMax e.meshEvals.length none = .ok (MFn.slepianFunctions (r : ℕ)) := by
    simp only [MFn.setupArgs, Ranks.checkRank, if_neg h0, Ranks.setupRank, bind, Except.bind, Except.map]
  have hn : (MFn.slepianFunctions (r : ℕ)).name limDen e =
      .ok (tidy ("slepian_" ++ e.meshName ++ "_rank" ++ toString ((r : ℕ) : ℤ) ++ "_lam" ++ e.fmtE (ev r))) := by
    simp only [MFn.name, Int.toNat_natCast, hev, bind, Except.bind, pure, Except.pure]
  constructor
  · intro hr
    have hrow : item e.slepian.evecs (r : ℕ) = .ok (List.ofFn (S r)) := by simp [item, (h.built.row r hr).1]
    obtain ⟨o, ho, hc, -⟩ := construct_plain (e := e) (limDen := limDen) (region := region) (w := w) hs hn
      (show MFn.create e (.slepianFunctions (r : ℕ)) w = .ok (_, w) by
        simp only [MFn.create, Int.toNat_natCast, hev, hrow, bind, Except.bind, pure, Except.pure]
        rw [forward_ui h])
    refine ⟨o, ho, by simp [hc], fun p hp => ?_⟩
    rw [hc, getD_ofFn _ _ hp]
    rw [h.built.eigen.2 r ⟨p, by omega⟩]
    simp only [Fin.ext_iff, eq_comm]
  · intro hr
    have hrow : item e.slepian.evecs (r : ℕ) = .error .indexError := by
      apply item_of_ge
      rw [h.built.evecs]
      simp; omega
    simp only [MFn.construct, hs, bind, Except.bind, slepianFunction, Ranks.meshFunction, hn, MFn.create, Int.toNat_natCast, hev, hrow,
      MFn.isSlepian, if_true]

/-- C78.  The wavelets of a mesh: coefficient `p` is the generating function of the selected scale at `p`, for as many ranks as there
are mesh eigenvalues. -/
theorem C78_wavelets (limDen : ℚ → ℚ) (e : MEnv V) (region : Bool) (w : Noise.World) (v : Wave) (k : List ℝ)
    (hk : (e.kappas e.meshEvals.length v.B v.jMin)[match v.j with | none => 0 | some j => j + 1]? = some k) :
    ∃ o, (MFn.slepianWavelets v).construct limDen e none none region w = .ok (o, w) ∧ o.coefficients = k := by
  have hj : (match v.j with | none => 0 | some j => j + 1) = Wavelets.jth v.j := by cases v.j <;> rfl
  rw [hj] at hk
  obtain ⟨o, ho, hc, -⟩ := construct_plain (e := e) (limDen := limDen) (fn := .slepianWavelets v) (region := region) (w := w) rfl rfl
    (c := k) (w' := w) (by
      simp [MFn.create, Wavelets.selectWavelet, MEnv.wavelets, item, List.getElem?_map, hk, Except.map, Function.comp_def])
  exact ⟨o, ho, hc⟩

/-- C78.  The noise field in Slepian space: the projections on the Slepian functions of `σ g₀, σ g₁, …`, where `σ` is set by the energy
of the Slepian coefficients of the field, spread over the `K` basis functions. -/
theorem C78_slepian_noise_field (limDen : ℚ → ℚ) (h : GoodMesh e φ ev S rows) (region : Bool) (w : Noise.World) (snr : ℚ) :
    ∃ o₀ o, MFn.slepianField.construct limDen e none none region w = .ok (o₀, w) ∧
      (MFn.slepianNoiseField snr).construct limDen e none none region w = .ok (o, w ++ [(30, K)]) ∧
      o.coefficients.length = e.slepian.N ∧
      ∀ p : Fin K, (p : ℕ) < e.slepian.N → o.coefficients.getD p 0 =
        Real.sqrt (10 ^ (-(snr : ℝ) / 10) * (o₀.coefficients.map fun x => x ^ 2).sum / K) * ∑ i : Fin K, e.normals 30 i * S p i := by
  obtain ⟨o₀, ho₀, hc₀, -⟩ := construct_plain (e := e) (limDen := limDen) (fn := .slepianField) (region := region) (w := w) rfl rfl
    (show MFn.create e .slepianField w = .ok (_, w) by rw [MFn.create, slepianField_ok h]; rfl)
  obtain ⟨o, ho, hc, -⟩ := construct_plain (e := e) (limDen := limDen) (fn := .slepianNoiseField snr) (region := region) (w := w) rfl rfl
    (show MFn.create e (.slepianNoiseField snr) w = .ok (_, w ++ [(30, K)]) by
      rw [MFn.create, slepianField_ok h]
      exact meshNoise_ok h _ (by simp) _ w)
  refine ⟨o₀, o, ho₀, ho, by simp [hc], fun p hp => ?_⟩
  have hpow : (o₀.coefficients.map fun x => x ^ 2).sum = ∑ q : Fin e.slepian.N, o₀.coefficients.getD q 0 ^ 2 := by
    rw [hc₀]
    simp only [List.map_ofFn, List.sum_ofFn, Function.comp_def]
    exact Finset.sum_congr rfl fun q _ => by rw [getD_ofFn _ _ q.2]
  rw [hpow, hc, getD_ofFn _ _ hp, hc₀]
  simp only [Finset.mul_sum, mul_assoc]

/-- C78.  Noise on the classes with `N` coefficients: the noisy coefficients are the clean ones plus the projections of `σ g₀, σ g₁, …`,
and the clean ones are kept. -/
theorem C78_noise (limDen : ℚ → ℚ) (h : GoodMesh e φ ev S rows) (fn : MFn) (hfn : fn.isSlepian = true) (region : Bool)
    (w w₁ : Noise.World) (o₀ : Ranks.Obj) (h₀ : fn.construct limDen e none none region w = .ok (o₀, w₁))
    (hl : o₀.coefficients.length = e.slepian.N) (snr : ℚ) :
    ∃ o, fn.construct limDen e none (some snr) region w = .ok (o, w₁ ++ [(30, K)]) ∧ o.unnoised = some o₀.coefficients ∧
      o.snr.isSome ∧ o.coefficients.length = e.slepian.N ∧
      ∀ p : Fin K, (p : ℕ) < e.slepian.N → o.coefficients.getD p 0 = o₀.coefficients.getD p 0 +
        Real.sqrt (10 ^ (-(snr : ℝ) / 10) * (o₀.coefficients.map fun x => x ^ 2).sum / K) * ∑ i : Fin K, e.normals 30 i * S p i := by
  obtain ⟨name, hs, hn, hc⟩ := construct_inv h₀
  have hnoise := meshNoise_ok h o₀.coefficients hl.ge (snr : ℝ) w₁
  have hb : ∀ n : Fin e.slepian.N → ℝ, broadcast (· + ·) o₀.coefficients (List.ofFn n) =
      .ok (List.zipWith (· + ·) o₀.coefficients (List.ofFn n)) := fun n => broadcast_of_length_eq _ _ _ (by simp [hl])
  simp only [MFn.construct, hs, bind, Except.bind, hfn, if_true, slepianFunction, hn, hc, hnoise, hb, pure, Except.pure]
  have hpow : (o₀.coefficients.map fun x => x ^ 2).sum = ∑ q : Fin e.slepian.N, o₀.coefficients.getD q 0 ^ 2 := by
    have h2 : o₀.coefficients = List.ofFn fun q : Fin e.slepian.N => o₀.coefficients.getD q 0 := by
      apply List.ext_getElem
      · simp [hl]
      · intro i h3 h4
        simp [List.getD_eq_getElem?_getD, h3]
    conv_lhs => rw [h2]
    simp only [List.map_ofFn, List.sum_ofFn, Function.comp_def]
  refine ⟨_, rfl, rfl, rfl, by simp [hl], fun p hp => ?_⟩
  have h1 : (p : ℕ) < o₀.coefficients.length := by omega
  rw [hpow]
  simp only [List.getD_eq_getElem?_getD, List.getElem?_zipWith, List.getElem?_ofFn, hp, dite_true,
    List.getElem?_eq_getElem h1, Option.getD_some, Finset.mul_sum, mul_assoc]

/-- C78 is violated by the wavelets of a mesh, which have `K` coefficients: adding noise raises `ValueError` for every mesh whose
Shannon number is strictly between one and `K`. -/
theorem C78_wavelet_noise_violation (limDen : ℚ → ℚ) (h : GoodMesh e φ ev S rows) (h1 : 1 < e.slepian.N) (hK : e.slepian.N < K)
    (region : Bool) (w : Noise.World) (v : Wave) (k : List ℝ)
    (hk : (e.kappas e.meshEvals.length v.B v.jMin)[match v.j with | none => 0 | some j => j + 1]? = some k) (hl : k.length = K)
    (snr : ℚ) : (MFn.slepianWavelets v).construct limDen e none (some snr) region w = .error .valueError := by
  have hj : (match v.j with | none => 0 | some j => j + 1) = Wavelets.jth v.j := by cases v.j <;> rfl
  rw [hj] at hk
  have hc : (MFn.slepianWavelets v).create e w = .ok (k, w) := by
    simp [MFn.create, Wavelets.selectWavelet, MEnv.wavelets, item, List.getElem?_map, hk, Except.map, Function.comp_def]
  have hs : (MFn.slepianWavelets v).setupArgs e.jMax e.meshEvals.length none = .ok (.slepianWavelets v) := rfl
  have hb : ∀ n : Fin e.slepian.N → ℝ, broadcast (· + ·) k (List.ofFn n) = .error .valueError := fun n =>
    broadcast_error _ _ _ (by simp; omega) (by omega) (by simp; omega)
  simp only [MFn.construct, hs, bind, Except.bind, MFn.isSlepian, if_true, slepianFunction, MFn.name, hc,
    meshNoise_ok h k (by omega) (snr : ℝ) w, hb]

/-- C78 is violated by `MeshNoiseField`: it looks for the class `MeshField` in the module of `MeshSlepian`, so every construction
fails, with any signal-to-noise ratio and on every mesh. -/
theorem C78_noise_field_violation (limDen : ℚ → ℚ) (e : MEnv V) (snr : ℚ) (noise : Option ℚ) (region : Bool) (w : Noise.World) :
    (MFn.noiseField snr).construct limDen e none noise region w = .error .attributeError ∧
    ∀ x : ℤ, (MFn.noiseField snr).construct limDen e (some [x]) noise region w = .error .attributeError :=
  ⟨rfl, fun _ => rfl⟩

/-- C78.  Wavelet coefficients of the field, partial: if every scale up to the selected one sees the field (C28), there are `N`
coefficients, those of the field times the generating function of the selected scale. -/
theorem C78_wavelet_coefficients_partial (limDen : ℚ → ℚ) (h : GoodMesh e φ ev S rows) (region : Bool) (w : Noise.World) (v : Wave)
    (hkl : ∀ r ∈ e.kappas K v.B v.jMin, r.length = K) (A B : List (List ℝ)) (k : List ℝ)
    (hk : e.kappas K v.B v.jMin = A ++ k :: B) (hA : A.length = match v.j with | none => 0 | some j => j + 1) (o₀ : Ranks.Obj)
    (h₀ : MFn.slepianField.construct limDen e none none region w = .ok (o₀, w))
    (hseen : ∀ x ∈ A ++ [k], ∃ p < e.slepian.N, x.getD p 0 ≠ 0 ∧ o₀.coefficients.getD p 0 ≠ 0) :
    ∃ o, (MFn.slepianWaveletCoefficients v).construct limDen e none none region w = .ok (o, w) ∧
      o.coefficients.length = e.slepian.N ∧
      ∀ p < e.slepian.N, o.coefficients.getD p 0 = k.getD p 0 * o₀.coefficients.getD p 0 := by
  obtain ⟨-, -, -, hc₀⟩ := construct_inv h₀
  have hfield : slepianFieldCoefficients e = .ok o₀.coefficients := by
    simp only [MFn.create] at hc₀
    cases hf : slepianFieldCoefficients e with
    | error x => rw [hf] at hc₀; cases hc₀
    | ok c => rw [hf] at hc₀; simp only [Except.map, Except.ok.injEq, Prod.mk.injEq, and_true] at hc₀; rw [hc₀]
  have hl : o₀.coefficients.length = e.slepian.N := by
    have := slepianField_ok h
    rw [hfield] at this
    injection this with this
    rw [this]; simp
  have hj : (match v.j with | none => 0 | some j => j + 1) = Wavelets.jth v.j := by cases v.j <;> rfl
  rw [hj] at hA
  have hrows : (e.wavelets v).rows = A.map (fun r => r.map fun x : ℝ => (x : ℂ)) ++ (k.map fun x : ℝ => (x : ℂ)) ::
      B.map (fun r => r.map fun x : ℝ => (x : ℂ)) := by
    simp [MEnv.wavelets, h.number, hk]
  have hget : ∀ (r : List ℝ) (p : ℕ), (r.map fun x : ℝ => (x : ℂ)).getD p 0 = (r.getD p 0 : ℂ) := by
    intro r p
    simp only [List.getD_eq_getElem?_getD, List.getElem?_map]
    cases r[p]? <;> simp
  have hs : ∀ r ∈ A ++ [k], Seen (o₀.coefficients.map fun x : ℝ => (x : ℂ)) e.slepian.N (r.map fun x : ℝ => (x : ℂ)) := by
    intro r hr
    obtain ⟨p, hp, h1, h2⟩ := hseen r hr
    refine ⟨p, hp, ?_⟩
    rw [hget, hget]
    simpa using ⟨h1, h2⟩
  obtain ⟨row, hrow, hrl, hrv⟩ := C28_selected_scale_partial (o₀.coefficients.map fun x : ℝ => (x : ℂ)) (e.wavelets v) (by
      intro r hr
      simp only [MEnv.wavelets, List.mem_map] at hr
      obtain ⟨r', hr', rfl⟩ := hr
      rw [h.number] at hr'
      simpa [MEnv.wavelets, h.number] using hkl r' hr') e.slepian.N (by simp [hl])
    (by simp only [MEnv.wavelets, h.number]; exact h.le_K) _ _ _ hrows
    (by
      intro x hx
      obtain ⟨r, hr, rfl⟩ := List.mem_map.1 hx
      exact hs r (by simp [hr])) (hs k (by simp)) v.j (by simp [hA])
  have h0 : ∃ x, item (e.wavelets v).rows 0 = .ok x := by
    rw [hrows]
    cases A <;> exact ⟨_, rfl⟩
  obtain ⟨x, hx⟩ := h0
  obtain ⟨o, ho, hc, -⟩ := construct_plain (e := e) (limDen := limDen) (fn := .slepianWaveletCoefficients v) (region := region)
    (w := w) rfl rfl (show MFn.create e (.slepianWaveletCoefficients v) w = .ok (row.map Complex.re, w) by
      simp only [MFn.create, coefficientsOfScale, hx, hfield, bind, Except.bind, hrow, Except.map, pure, Except.pure])
  refine ⟨o, ho, by simp [hc, hrl], fun p hp => ?_⟩
  have h3 : p < row.length := by omega
  have h4 := hrv p hp
  rw [hget, hget, List.getD_eq_getElem?_getD, List.getElem?_eq_getElem h3, Option.getD_some] at h4
  rw [hc, List.getD_eq_getElem?_getD, List.getElem?_map, List.getElem?_eq_getElem h3, Option.map_some, Option.getD_some, h4]
  simp

end

/-- three vertices with delta functions and the region of the last two: all hypotheses hold, with `1 < N < K`. -/
theorem goodMesh_exists (e₀ : MEnv (Fin 3)) : ∃ (e : MEnv (Fin 3)) (φ : Fin 3 → Fin 3 → ℝ) (S : Fin 3 → Fin 3 → ℝ),
    e.slepian.N = 2 ∧ e.kappas = e₀.kappas ∧ GoodMesh e φ ![1, 1, 0] S 2 := by
  let φ : Fin 3 → Fin 3 → ℝ := ![![1, 0, 0], ![0, 1, 0], ![0, 0, 1]]
  let S : Fin 3 → Fin 3 → ℝ := ![![0, 0, 1], ![0, 1, 0], ![1, 0, 0]]
  let ms : MeshSlepian (Fin 3) := ⟨3, List.ofFn φ, fun v => decide (v ≠ 0), 2, List.ofFn ![1, 1, 0],
    (List.ofFn fun p => List.ofFn (S p)).take 2⟩
  obtain ⟨we, M, hM⟩ := C05_run_exists 3 (RealMat.meshHelper 3 (RealMat.meshIntegral ms.region ms.basis)) RealMat.fillUpper 3
    (by norm_num)
  obtain ⟨-, M', h1, h2, -⟩ := C05_mesh_matrix_schedule_independent ms.region ms.basis 3 (by simp [ms]) 3 (by norm_num) we _ hM
  injection h1 with h1
  subst h1
  refine ⟨{ e₀ with slepian := ms, meshEvals := [0, 0, 0] }, φ, S, rfl, rfl, ⟨rfl, rfl, ?_, ⟨3, we, M, ![0, 1, 1], φ,
    by norm_num, hM, ⟨?_, ?_⟩, ?_⟩, rfl, le_rfl, by norm_num, rfl⟩, rfl⟩
  · intro i j
    fin_cases i <;> fin_cases j <;> simp [φ, Fin.sum_univ_three]
  · have hMv : ∀ r c : Fin 3, M r c = if r ≠ 0 ∧ r = c then 1 else 0 := by
      intro r c
      rw [h2 r (by simp [ms]) c (by simp [ms])]
      fin_cases r <;> fin_cases c <;> simp [meshInner, ms, φ, Finset.sum_filter, Fin.sum_univ_three]
    intro k r
    simp only [hMv]
    fin_cases k <;> fin_cases r <;> simp [φ]
  · intro k k'
    fin_cases k <;> fin_cases k' <;> simp [φ, Fin.sum_univ_three]
  · refine ⟨Equiv.refl _, ?_, ?_⟩
    · intro a b hab
      fin_cases a <;> fin_cases b <;> simp_all
    · have r0 : Fin.rev (0 : Fin 3) = 2 := rfl
      have r1 : Fin.rev (1 : Fin 3) = 1 := rfl
      have r2 : Fin.rev (2 : Fin 3) = 0 := rfl
      simp only [Eigen.cleanMesh, Prod.mk.injEq]
      constructor
      · funext p; fin_cases p <;> simp [r0, r1, r2]
      · funext p c; fin_cases p <;> fin_cases c <;> simp [r0, r1, r2, S, φ]

end Sleplet.Props
