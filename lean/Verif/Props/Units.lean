import Verif.Lemmas.Plot
import Verif.Lemmas.Units
import Verif.Model.MeshClasses
import Verif.Model.Ranks
import Verif.Props.Denoising
import Verif.Props.Noise
import Verif.Props.Plot

/-!
C120: the unit of the signal.  `times c` and `timesField c` multiply coefficients and fields by the number `c`.
-/
namespace Sleplet.Props

open Complex NumPy Units

/-! ### noise -/

/-- C120. Noise of a given ratio for a signal in other units, on the sphere and on a mesh: the same noise in those units, the
same random numbers used, the same exceptions. -/
theorem C120_noise (normals : ℕ → ℕ → ℝ) {c : ℝ} (hc : 0 < c) (signal : List ℂ) (snr : ℝ) (w : Noise.World) :
    (∀ L, Noise.createNoise normals L (signal.map fun z => (c : ℂ) * z) snr w =
      (Noise.createNoise normals L signal snr w).map fun r => (r.1.map fun z => (c : ℂ) * z, r.2)) ∧
    Noise.createMeshNoise normals (signal.map fun z => (c : ℂ) * z) snr w =
      (Noise.createMeshNoise normals signal snr w).map fun r => (r.1.map fun z => c * z, r.2) :=
  ⟨fun L => createNoise_times normals L hc signal snr w, createMeshNoise_times normals hc signal snr w⟩

example (normals : ℕ → ℕ → ℝ) : ∃ z w, Noise.createNoise normals 1 [2] 10 [] = .ok ([z], w) ∧
    Noise.createNoise normals 1 [3 * 2] 10 [] = .ok ([3 * z], w) := by
  have h : ∃ z w, Noise.createNoise normals 1 [2] 10 [] = .ok ([z], w) := ⟨_, _, rfl⟩
  obtain ⟨z, w, h⟩ := h
  refine ⟨z, w, h, ?_⟩
  have := (C120_noise normals (c := 3) (by norm_num) [2] 10 []).1 1
  rw [h] at this
  simpa [Except.map] using this

/-- transforms of the sphere do not depend on the unit. -/
theorem sphere_homogeneous {L : ℕ} {Pix : Type} [Fintype Pix] (sl : Transform.Slepian (L ^ 2))
    (synth : (Fin (L ^ 2) → ℂ) → Pix → ℂ) (weight : Pix → ℝ) (c : ℝ) :
    Homogeneous c (Transform.slepianInverse sl synth)
      (fun f => Transform.slepianForward sl synth weight { f := some f } none) where
  inverse := fun x => by
    unfold Transform.slepianInverse
    refine bind_same fun sp => ?_
    rw [show (times c x).take sl.N = (x.take sl.N).map fun z => (c : ℂ) * z from (List.map_take ..).symm]
    refine bind_map (a := List.map (timesField c)) (broadcast_left (fun y s => funext fun p => mul_assoc _ _ _) _ _)
      fun terms => ?_
    change Except.ok _ = Except.ok _
    congr 1
    funext p
    rw [List.map_map]
    simp only [Function.comp_def, timesField]
    rw [List.sum_map_mul_left]
  forward := fun f => by
    unfold Transform.slepianForward
    refine bind_same fun _ => ?_
    generalize List.range ((none : Option ℕ).getD sl.N) = ranks
    induction ranks with
    | nil => rfl
    | cons r rs ih =>
      unfold Transform.decomposeAll
      refine bind_map (a := fun z => (c : ℂ) * z) ?_ fun x => bind_map ih fun xs => rfl
      unfold Transform.decompose
      refine bind_same fun m => ?_
      refine bind_same fun _ => ?_
      cases m with
      | harmonicSum => rfl
      | integrateRegion => rfl
      | integrateSphere =>
        change Transform.integrateSphere _ _ _ _ _ = (Transform.integrateSphere _ _ _ _ _).map _
        unfold Transform.integrateSphere
        refine bind_same fun v => ?_
        change Except.ok _ = Except.ok _
        congr 1
        unfold Transform.integrateWhole Transform.multiply timesField
        dsimp only
        rw [Finset.mul_sum]
        exact Finset.sum_congr rfl fun x _ => by ring

theorem flm_homogeneous {L : ℕ} {Pix : Type} [Fintype Pix] (sl : Transform.Slepian (L ^ 2))
    (synth : (Fin (L ^ 2) → ℂ) → Pix → ℂ) (weight : Pix → ℝ) (c : ℝ) (x : List ℂ) :
    Transform.slepianForward sl synth weight { flm := some (Functions.asVec L (times c x)) } none =
      (Transform.slepianForward sl synth weight { flm := some (Functions.asVec L x) } none).map (times c) := by
  unfold Transform.slepianForward
  refine bind_same fun _ => ?_
  generalize List.range ((none : Option ℕ).getD sl.N) = ranks
  induction ranks with
  | nil => rfl
  | cons r rs ih =>
    unfold Transform.decomposeAll
    refine bind_map (a := fun z => (c : ℂ) * z) ?_ fun x => bind_map ih fun xs => rfl
    unfold Transform.decompose
    refine bind_same fun m => ?_
    refine bind_same fun _ => ?_
    cases m with
    | integrateSphere => rfl
    | integrateRegion => rfl
    | harmonicSum =>
      change Transform.harmonicSum _ _ _ = (Transform.harmonicSum _ _ _).map _
      unfold Transform.harmonicSum
      refine bind_same fun v => ?_
      change Except.ok _ = Except.ok _
      congr 1
      dsimp only
      rw [Finset.mul_sum]
      refine Finset.sum_congr rfl fun i _ => ?_
      rw [← mul_assoc]
      congr 1
      unfold Functions.asVec times
      rw [List.getD_eq_getElem?_getD, List.getD_eq_getElem?_getD, List.getElem?_map]
      cases x[(i : ℕ)]? <;> simp

/-- the object in other units. -/
noncomputable def timesObj (c : ℝ) (o : Functions.Obj) : Functions.Obj :=
  { o with coefficients := o.coefficients.map fun z => (c : ℂ) * z
           unnoised := o.unnoised.map fun u => u.map fun z => (c : ℂ) * z }

/-- the class in other units. -/
noncomputable def timesHooks (c : ℝ) (h : Functions.Hooks) : Functions.Hooks :=
  { h with create := fun w => (h.create w).map fun r => (r.1.map fun z => (c : ℂ) * z, r.2) }

private theorem postInit_times (limDen : ℚ → ℚ) {c : ℝ} (hc : 0 < c) (h : Functions.Hooks) (s : Functions.Settings)
    (mk : List ℂ → ℝ → Noise.World → Except Err (List ℂ × Noise.World))
    (hmk : ∀ x snr w, mk (times c x) snr w = (mk x snr w).map (timesState c)) (w : Noise.World) :
    Functions.postInit limDen (timesHooks c h) s (Functions.addNoiseWith mk s.noise) w =
      (Functions.postInit limDen h s (Functions.addNoiseWith mk s.noise) w).map fun r => (timesObj c r.1, r.2) := by
  unfold Functions.postInit
  refine bind_same fun _ => ?_
  refine bind_map (a := timesState c) rfl fun p => ?_
  obtain ⟨x, w₁⟩ := p
  change (Functions.addNoiseWith mk s.noise (times c x) w₁ >>= _) = _
  refine bind_map (a := fun q : Functions.Noised × Noise.World =>
    ((times c q.1.1, q.1.2.1.map (times c), q.1.2.2), q.2)) ?_ fun q => rfl
  unfold Functions.addNoiseWith
  cases s.noise with
  | none => rfl
  | some snr =>
    dsimp only
    refine bind_map (hmk x snr w₁) fun n => ?_
    obtain ⟨n, w₂⟩ := n
    refine bind_map (add_times c x n) fun y => ?_
    change Except.ok _ = Except.ok _
    dsimp only [timesState]
    rw [computeSnr_times hc.ne']
    rfl

/-- C120. A function on the sphere whose coefficients are in other units, harmonic or Slepian (given that `ssht.forward` does not
depend on the unit), with or without noise: coefficients and clean coefficients are in those units; name, settings and reported
ratio are the same. -/
theorem C120_function (limDen : ℚ → ℚ) (normals : ℕ → ℕ → ℝ) {c : ℝ} (hc : 0 < c) (h : Functions.Hooks)
    (s : Functions.Settings) (w : Noise.World) :
    Functions.flm limDen normals (timesHooks c h) s w =
      (Functions.flm limDen normals h s w).map (fun r => (timesObj c r.1, r.2)) ∧
    ∀ {L : ℕ} {Pix : Type} [Fintype Pix] (e : Functions.SlepianEnv L Pix),
      (∀ f, e.sshtForward (fun x => (c : ℂ) * f x) = (e.sshtForward f).map fun z => (c : ℂ) * z) →
      Functions.fp limDen normals e (timesHooks c h) s w =
        (Functions.fp limDen normals e h s w).map fun r => (timesObj c r.1, r.2) := by
  refine ⟨postInit_times limDen hc h s _ (fun x snr w => createNoise_times normals s.L hc x snr w) w, ?_⟩
  intro L Pix _ e hf
  refine postInit_times limDen hc h s _ (fun x snr w => ?_) w
  unfold Noise.createSlepianNoise
  refine bind_map ((sphere_homogeneous e.sl e.synth e.weight c).inverse x) fun f => ?_
  have hs : e.sshtForward (timesField c f) = times c (e.sshtForward f) := hf f
  rw [hs]
  refine bind_map (createNoise_times normals L hc _ snr w) fun n => ?_
  obtain ⟨n, w'⟩ := n
  exact bind_map (flm_homogeneous e.sl e.synth e.weight c n) fun y => rfl

example (limDen : ℚ → ℚ) (normals : ℕ → ℕ → ℝ) (w : Noise.World) (h : Functions.Hooks) (hs : h.setupArgs = .ok ())
    (hc : h.create w = .ok ([2], w)) : ∃ o w', Functions.flm limDen normals (timesHooks 3 h) ⟨1, some 10, none, none⟩ w = .ok (o, w') ∧
      o.unnoised = some [3 * 2] := by
  have h1 : ∃ o w', Functions.flm limDen normals h ⟨1, some 10, none, none⟩ w = .ok (o, w') ∧ o.unnoised = some [2] := by
    obtain ⟨n, hn, hl, -⟩ := createNoise_ok normals 1 [2] ((10 : ℚ) : ℝ) w
    simp only [Functions.flm, Functions.postInit, hs, hc, bind, Except.bind, Functions.flmNoise, Functions.addNoiseWith, hn,
      broadcast_of_length_eq _ _ _ (show [(2 : ℂ)].length = n.length by rw [hl]; rfl), pure, Except.pure]
    exact ⟨_, _, rfl, rfl⟩
  obtain ⟨o, w', h1, h2⟩ := h1
  refine ⟨timesObj 3 o, w', ?_, ?_⟩
  · rw [(C120_function limDen normals (c := 3) (by norm_num) h _ w).1, h1]
    rfl
  · simp [timesObj, h2]

/-! ### meshes -/

section mesh
variable {V : Type}

private theorem mesh_inverse_times (basis : List (V → ℝ)) (c : ℝ) (x : List ℝ) :
    MeshT.meshInverse basis (x.map fun z => c * z) = (MeshT.meshInverse basis x).map fun f v => c * f v := by
  unfold MeshT.meshInverse
  refine bind_map (a := List.map fun (t : V → ℝ) v => c * t v)
    (broadcast_left (fun y s => funext fun p => mul_assoc _ _ _) _ _) fun terms => ?_
  change Except.ok _ = Except.ok _
  congr 1
  funext p
  rw [List.map_map]
  simp only [Function.comp_def]
  rw [List.sum_map_mul_left]

private theorem mesh_slepian_inverse_times (ms : MeshT.MeshSlepian V) (c : ℝ) (x : List ℝ) :
    MeshT.slepianMeshInverse ms (x.map fun z => c * z) = (MeshT.slepianMeshInverse ms x).map fun f v => c * f v := by
  unfold MeshT.slepianMeshInverse
  refine bind_same fun sp => ?_
  rw [← List.map_take]
  refine bind_map (a := List.map fun (t : V → ℝ) v => c * t v)
    (broadcast_left (fun y s => funext fun p => mul_assoc _ _ _) _ _) fun terms => ?_
  change Except.ok _ = Except.ok _
  congr 1
  funext p
  rw [List.map_map]
  simp only [Function.comp_def]
  rw [List.sum_map_mul_left]

variable [Fintype V]

private theorem mesh_forward_times (K : ℕ) (basis : List (V → ℝ)) (c : ℝ) (u : V → ℝ) :
    MeshT.meshForward K basis (fun v => c * u v) = (MeshT.meshForward K basis u).map (List.map fun z => c * z) := by
  unfold MeshT.meshForward
  split
  · change Except.ok _ = Except.ok _
    congr 1
    rw [List.map_append, List.map_map, List.map_replicate, mul_zero]
    congr 1
    refine List.map_congr_left fun phi _ => ?_
    dsimp only [Function.comp_apply]
    unfold MeshT.integrateWholeMesh
    rw [Finset.mul_sum]
    exact Finset.sum_congr rfl fun v _ => by ring
  · rfl

private theorem mesh_slepian_forward_times (ms : MeshT.MeshSlepian V) (c : ℝ) :
    (∀ x : List ℝ, MeshT.slepianMeshForward ms { ui := some (x.map fun z => c * z) } none =
      (MeshT.slepianMeshForward ms { ui := some x } none).map (List.map fun z => c * z)) ∧
    ∀ u : V → ℝ, MeshT.slepianMeshForward ms { u := some fun v => c * u v } none =
      (MeshT.slepianMeshForward ms { u := some u } none).map (List.map fun z => c * z) := by
  constructor
  · intro x
    unfold MeshT.slepianMeshForward
    refine bind_same fun _ => ?_
    generalize List.range ((none : Option ℕ).getD ms.N) = ranks
    induction ranks with
    | nil => rfl
    | cons r rs ih =>
      unfold MeshT.decomposeAll
      refine bind_map (a := fun z => c * z) ?_ fun x => bind_map ih fun xs => rfl
      unfold MeshT.decompose
      refine bind_same fun m => ?_
      refine bind_same fun _ => ?_
      cases m with
      | integrateSphere => rfl
      | integrateRegion => rfl
      | harmonicSum =>
        change MeshT.harmonicSum _ _ _ = (MeshT.harmonicSum _ _ _).map _
        unfold MeshT.harmonicSum
        refine bind_same fun v => ?_
        refine bind_map (a := List.map fun z => c * z) (broadcast_left (fun y s => mul_assoc _ _ _) _ _) fun p => ?_
        change Except.ok _ = Except.ok _
        congr 1
        rw [List.sum_map_mul_left, List.map_id']
  · intro u
    unfold MeshT.slepianMeshForward
    refine bind_same fun _ => ?_
    generalize List.range ((none : Option ℕ).getD ms.N) = ranks
    induction ranks with
    | nil => rfl
    | cons r rs ih =>
      unfold MeshT.decomposeAll
      refine bind_map (a := fun z => c * z) ?_ fun x => bind_map ih fun xs => rfl
      unfold MeshT.decompose
      refine bind_same fun m => ?_
      refine bind_same fun _ => ?_
      cases m with
      | harmonicSum => rfl
      | integrateRegion =>
        change MeshT.integrateRegionMethod _ _ _ = (MeshT.integrateRegionMethod _ _ _).map _
        unfold MeshT.integrateRegionMethod
        refine bind_same fun v => ?_
        refine bind_same fun sp => ?_
        refine bind_same fun e => ?_
        change Except.ok _ = Except.ok _
        congr 1
        unfold MeshT.integrateRegionMesh
        dsimp only
        rw [← mul_div_assoc, Finset.mul_sum]
        congr 1
        exact Finset.sum_congr rfl fun v _ => by ring
      | integrateSphere =>
        change MeshT.integrateMesh _ _ _ = (MeshT.integrateMesh _ _ _).map _
        unfold MeshT.integrateMesh
        refine bind_same fun v => ?_
        refine bind_same fun sp => ?_
        change Except.ok _ = Except.ok _
        congr 1
        unfold MeshT.integrateWholeMesh
        dsimp only
        rw [Finset.mul_sum]
        exact Finset.sum_congr rfl fun v _ => by ring

private theorem cast_times (c : ℝ) (x : List ℝ) :
    (x.map fun z => c * z).map (fun y : ℝ => (y : ℂ)) = times c (x.map fun y : ℝ => (y : ℂ)) := by
  unfold times
  rw [List.map_map, List.map_map]
  exact List.map_congr_left fun y _ => by simp

private theorem re_times (c : ℝ) (x : List ℂ) : (times c x).map Complex.re = (x.map Complex.re).map fun z => c * z := by
  unfold times
  rw [List.map_map, List.map_map]
  exact List.map_congr_left fun y _ => by simp

omit [Fintype V] in
/-- C120. A function on a mesh whose coefficients are in other units: coefficients and clean coefficients are in those units;
name and reported ratio are the same. -/
theorem C120_mesh_function (limDen : ℚ → ℚ) (normals : ℕ → ℕ → ℝ) {c : ℝ} (hc : 0 < c) (h : Ranks.Hooks)
    (s : Ranks.Settings) (w : Noise.World) :
    Ranks.meshFunction limDen normals
        { h with create := fun w => (h.create w).map fun r => (r.1.map fun z => c * z, r.2) } s w =
      (Ranks.meshFunction limDen normals h s w).map fun r =>
        ({ r.1 with coefficients := r.1.coefficients.map fun z => c * z
                    unnoised := r.1.unnoised.map fun u => u.map fun z => c * z }, r.2) := by
  unfold Ranks.meshFunction
  refine bind_same fun _ => ?_
  refine bind_same fun name => ?_
  refine bind_map (a := timesReal c) rfl fun p => ?_
  obtain ⟨x, w₁⟩ := p
  dsimp only [timesReal]
  cases s.noise with
  | none => rfl
  | some snr =>
    dsimp only
    rw [cast_times]
    refine bind_map (createMeshNoise_times normals hc _ snr w₁) fun n => ?_
    obtain ⟨n, w₂⟩ := n
    refine bind_map (a := List.map fun z => c * z) (broadcast_map (fun _ _ => (mul_add _ _ _).symm) x n) fun y => ?_
    change Except.ok _ = Except.ok _
    dsimp only [timesReal]
    rw [cast_times, computeSnr_times hc.ne']
    rfl

/-- C120. The noise of a Slepian function on a mesh in other units. -/
theorem C120_mesh_slepian_noise (e : MeshClasses.MEnv V) {c : ℝ} (hc : 0 < c) (signal : List ℝ) (snr : ℝ) (w : Noise.World) :
    MeshClasses.slepianNoise e (signal.map fun z => c * z) snr w =
      (MeshClasses.slepianNoise e signal snr w).map fun r => (r.1.map fun z => c * z, r.2) := by
  unfold MeshClasses.slepianNoise Noise.createSlepianMeshNoise
  refine bind_map (a := timesState c) ?_ fun p => ?_
  · rw [cast_times]
    refine bind_map (a := fun (f : V → ℝ) v => c * f v) ?_ fun f => ?_
    · dsimp only
      rw [re_times]
      exact mesh_slepian_inverse_times _ c _
    refine bind_map (a := times c) ?_ fun u => ?_
    · dsimp only
      rw [mesh_forward_times]
      cases MeshT.meshForward e.meshEvals.length e.slepian.basis f with
      | error e => rfl
      | ok u => exact congrArg Except.ok (cast_times c u)
    refine bind_map (createMeshNoise_times e.normals hc _ snr w) fun n => ?_
    obtain ⟨n, w'⟩ := n
    dsimp only [timesReal]
    refine bind_map (a := times c) ?_ fun y => rfl
    rw [(mesh_slepian_forward_times e.slepian c).1]
    cases MeshT.slepianMeshForward e.slepian { ui := some n } none with
    | error e => rfl
    | ok u => exact congrArg Except.ok (cast_times c u)
  · obtain ⟨n, w'⟩ := p
    change Except.ok _ = Except.ok _
    dsimp only [timesState]
    rw [re_times]

end mesh

/-! ### denoising -/

section denoise
variable {Pix : Type} {inverse : List ℂ → Except Err (Pix → ℂ)} {forward : (Pix → ℂ) → Except Err (List ℂ)}

/-- the samples of a field as its coefficients. -/
example (c : ℝ) (n : ℕ) : Homogeneous c (fun x => .ok fun i : Fin n => x.getD i 0) (fun f => .ok (List.ofFn f)) where
  inverse := fun x => congrArg Except.ok (funext fun i => by
    unfold times timesField
    dsimp only
    rw [List.getD_eq_getElem?_getD, List.getD_eq_getElem?_getD, List.getElem?_map]
    cases x[(i : ℕ)]? <;> simp)
  forward := fun f => congrArg Except.ok (by
    rw [times, List.map_ofFn]
    rfl)

private theorem sigmaJ_times {c : ℝ} (hc : 0 < c) (signal : List ℂ) (psi : List (List ℂ)) (snr : ℝ) :
    SigmaJ.sigmaJ (times c signal) psi snr = (SigmaJ.sigmaJ signal psi snr).map fun s => c * s := by
  unfold SigmaJ.sigmaJ
  dsimp only
  rw [List.map_map, computeSigmaNoise_times hc]
  exact List.map_congr_left fun r _ => mul_assoc _ _ _

/-- C120. Denoising with axisymmetric wavelets, in other units: the denoised field is in those units, and the ratios before and
after are the same. -/
theorem C120_axisym {c : ℝ} (hc : 0 < c) (T : Homogeneous c inverse forward) (rotate : List ℂ → List ℂ)
    (hr : ∀ x, rotate (x.map fun z => (c : ℂ) * z) = (rotate x).map fun z => (c : ℂ) * z) (L : ℕ) (signal noised : List ℂ)
    (noisedSnr : Option ℝ) (wavelets : List (List ℂ)) (snrIn : ℝ) (n : ℤ) (south : Bool) :
    Denoising.axisym inverse forward rotate L (signal.map fun z => (c : ℂ) * z) (noised.map fun z => (c : ℂ) * z) noisedSnr
        wavelets snrIn n south =
      (Denoising.axisym inverse forward rotate L signal noised noisedSnr wavelets snrIn n south).map fun r =>
        (fun x => (c : ℂ) * r.1 x, r.2) := by
  unfold Denoising.axisym
  refine bind_map (axisymForward_times L c noised wavelets) fun w => ?_
  have hs : ((SigmaJ.sigmaJ (signal.map fun z => (c : ℂ) * z) (wavelets.drop 1) snrIn).map fun (s : ℝ) (_ : Pix) => s) =
      ((SigmaJ.sigmaJ signal (wavelets.drop 1) snrIn).map fun (s : ℝ) (_ : Pix) => s).map fun s x => c * s x := by
    rw [show (signal.map fun z => (c : ℂ) * z) = times c signal from rfl, sigmaJ_times hc, List.map_map, List.map_map]
    rfl
  have hk := harmonic_times hc T ((SigmaJ.sigmaJ signal (wavelets.drop 1) snrIn).map fun (s : ℝ) (_ : Pix) => s) n 0 [w]
  rw [← hs] at hk
  dsimp only
  rw [show [w.map (times c)] = timesHeap c [w] from rfl, hk]
  generalize Thresholding.harmonic inverse forward _ n 0 [w] = p
  obtain ⟨res, heap⟩ := p
  dsimp only
  refine bind_same fun r => ?_
  refine bind_map (item_map _ _ _) fun d => ?_
  refine bind_map (axisymInverse_times L c d wavelets) fun flm => ?_
  refine bind_map (sub_times c flm signal) fun error => ?_
  have hi : (if south = true then rotate (times c flm) else times c flm) = times c (if south = true then rotate flm else flm) := by
    cases south
    · rfl
    · exact hr flm
  rw [hi]
  refine bind_map (T.inverse _) fun f => ?_
  change Except.ok _ = Except.ok _
  rw [show (signal.map fun z => (c : ℂ) * z) = times c signal from rfl, computeSnr_times hc.ne']
  rfl

private theorem slepianWavelet_times {c : ℝ} (hc : 0 < c) (T : Homogeneous c inverse forward)
    {sigmaJ' sigmaJ : List (List ℂ) → Except Err (List (Pix → ℝ))}
    (hσ : ∀ psi, sigmaJ' psi = (sigmaJ psi).map fun l => l.map fun s x => c * s x) (N : ℕ) (signal noised : List ℂ)
    (wavelets : Array2 ℂ) (n : ℤ) :
    Denoising.slepianWavelet inverse forward sigmaJ' N (times c signal) (times c noised) wavelets n =
      (Denoising.slepianWavelet inverse forward sigmaJ N signal noised wavelets n).map fun r => (timesField c r.1, r.2) := by
  unfold Denoising.slepianWavelet
  refine bind_map (slepianForward_times hc.ne' noised wavelets N) fun w => ?_
  refine bind_map (hσ _) fun sigma => ?_
  rw [show [(timesRows c w).rows] = timesHeap c [w.rows] from rfl, slepian_times hc T]
  generalize Thresholding.slepian inverse forward _ n 0 [w.rows] = p
  obtain ⟨res, heap⟩ := p
  dsimp only
  refine bind_same fun r => ?_
  refine bind_map (item_map _ _ _) fun d => ?_
  refine bind_map (slepianInverse_times c ⟨w.cols, d⟩ wavelets N) fun fp => ?_
  refine bind_map (sub_times c fp signal) fun error => ?_
  refine bind_map (T.inverse _) fun f => ?_
  change Except.ok _ = Except.ok _
  rw [computeSnr_times hc.ne']

/-- C120. Denoising with Slepian wavelets on the sphere, in other units: the denoised field is in those units, and the reported
ratio is the same. -/
theorem C120_slepian {L : ℕ} [Fintype Pix] (sl : Transform.Slepian (L ^ 2)) (synth : (Fin (L ^ 2) → ℂ) → Pix → ℂ)
    (weight : Pix → ℝ) {c : ℝ} (hc : 0 < c) (signal noised : List ℂ) (wavelets : Array2 ℂ) (snrIn : ℝ) (n : ℤ) :
    Denoising.slepianSphere sl synth weight (signal.map fun z => (c : ℂ) * z) (noised.map fun z => (c : ℂ) * z) wavelets snrIn n =
      (Denoising.slepianSphere sl synth weight signal noised wavelets snrIn n).map fun r => (fun x => (c : ℂ) * r.1 x, r.2) := by
  refine slepianWavelet_times hc (sphere_homogeneous sl synth weight c) (fun psi => ?_) sl.N signal noised wavelets n
  unfold SigmaJ.slepianSigmaJ
  rw [show (signal.map fun z => (c : ℂ) * z) = times c signal from rfl, computeSigmaNoise_times hc]
  dsimp only
  refine bind_same fun sp => ?_
  refine mapM_same (fun row => ?_) psi
  refine bind_same fun p => ?_
  change Except.ok _ = Except.ok _
  congr 1
  funext x
  exact mul_assoc _ _ _

/-- C120. Denoising with Slepian wavelets on a mesh, in other units. -/
theorem C120_mesh {V : Type} [Fintype V] (ms : MeshT.MeshSlepian V) {c : ℝ} (hc : 0 < c) (signal noised : List ℂ)
    (wavelets : Array2 ℂ) (snrIn : ℝ) (n : ℤ) :
    let inv := fun x : List ℂ => (MeshT.slepianMeshInverse ms (x.map Complex.re)).map fun f v => ((f v : ℝ) : ℂ)
    let fwd := fun f : V → ℂ => (MeshT.slepianMeshForward ms { u := some fun v => (f v).re } none).map fun l =>
      l.map fun y : ℝ => (y : ℂ)
    Denoising.slepianWavelet inv fwd (fun psi => SigmaJ.meshSigmaJ ms (signal.map fun z => (c : ℂ) * z) psi snrIn) ms.N
        (signal.map fun z => (c : ℂ) * z) (noised.map fun z => (c : ℂ) * z) wavelets n =
      (Denoising.slepianWavelet inv fwd (fun psi => SigmaJ.meshSigmaJ ms signal psi snrIn) ms.N signal noised wavelets n).map
        fun r => (fun x => (c : ℂ) * r.1 x, r.2) := by
  refine slepianWavelet_times hc ⟨fun x => ?_, fun f => ?_⟩ (fun psi => ?_) ms.N signal noised wavelets n
  · rw [re_times, mesh_slepian_inverse_times]
    cases MeshT.slepianMeshInverse ms (x.map Complex.re) with
    | error e => rfl
    | ok f => exact congrArg Except.ok (funext fun v => by simp [timesField])
  · have hu : (fun v => (timesField c f v).re) = fun v => c * (f v).re := by
      funext v
      simp [timesField]
    rw [hu, (mesh_slepian_forward_times ms c).2]
    cases MeshT.slepianMeshForward ms { u := some fun v => (f v).re } none with
    | error e => rfl
    | ok u => exact congrArg Except.ok (cast_times c u)
  · unfold SigmaJ.meshSigmaJ
    rw [show (signal.map fun z => (c : ℂ) * z) = times c signal from rfl, computeSigmaNoise_times hc]
    dsimp only
    refine bind_same fun sp => ?_
    refine mapM_same (fun row => ?_) psi
    refine bind_same fun p => ?_
    change Except.ok _ = Except.ok _
    congr 1
    funext x
    exact mul_assoc _ _ _

/-- C120. Denoising with Slepian functions, in other units. -/
theorem C120_slepian_function {c : ℝ} (hc : 0 < c) (T : Homogeneous c inverse forward) (L : ℕ) (signal noised : List ℂ)
    (snrIn : ℝ) (n : ℤ) :
    Denoising.slepianFunction inverse forward L (signal.map fun z => (c : ℂ) * z) (noised.map fun z => (c : ℂ) * z) snrIn n =
      (Denoising.slepianFunction inverse forward L signal noised snrIn n).map fun r => (fun x => (c : ℂ) * r.1 x, r.2) := by
  unfold Denoising.slepianFunction
  rw [show (signal.map fun z => (c : ℂ) * z) = times c signal from rfl,
    show (noised.map fun z => (c : ℂ) * z) = times c noised from rfl, computeSigmaNoise_times hc]
  dsimp only
  refine bind_map (a := times c) ?_ fun fp => ?_
  · unfold Thresholding.slepianFunction
    refine bind_map (T.inverse _) fun f => ?_
    rw [show (fun _ : Pix => c * Noise.computeSigmaNoise signal snrIn (some (L ^ 2))) =
      fun x => c * (fun _ : Pix => Noise.computeSigmaNoise signal snrIn (some (L ^ 2))) x from rfl, perform_times hc]
    exact T.forward _
  refine bind_map (sub_times c fp signal) fun error => ?_
  refine bind_map (T.inverse _) fun f => ?_
  change Except.ok _ = Except.ok _
  rw [computeSnr_times hc.ne']
  rfl

end denoise

/-! ### figures -/

section figures
open Plot

private theorem amax_times {c : ℝ} (hc : 0 < c) (f : List ℝ) : amax (f.map fun x => c * x) = (amax f).map fun x => c * x := by
  cases f with
  | nil => rfl
  | cons x xs =>
    change Except.ok _ = Except.ok _
    congr 1
    induction xs generalizing x with
    | nil => rfl
    | cons y ys ih =>
      simp only [List.map_cons, List.foldl_cons] at ih ⊢
      rw [← mul_max_of_nonneg _ _ hc.le]
      exact ih (max x y)

private theorem amin_times {c : ℝ} (hc : 0 < c) (f : List ℝ) : amin (f.map fun x => c * x) = (amin f).map fun x => c * x := by
  cases f with
  | nil => rfl
  | cons x xs =>
    change Except.ok _ = Except.ok _
    congr 1
    induction xs generalizing x with
    | nil => rfl
    | cons y ys ih =>
      simp only [List.map_cons, List.foldl_cons] at ih ⊢
      rw [← mul_min_of_nonneg _ _ hc.le]
      exact ih (min x y)

/-- Whether the samples count as equal, up to the tolerance of `np.allclose`, does not depend on the unit. -/
def Steady (c : ℝ) (f : List ℝ) : Prop :=
  ∀ mx ∈ f, (∀ x ∈ f, x ≤ mx) → ((∀ x ∈ f, |c * x - c * mx| ≤ 1 / 10 ^ 8 + 1 / 10 ^ 5 * |c * mx|) ↔
    ∀ x ∈ f, |x - mx| ≤ 1 / 10 ^ 8 + 1 / 10 ^ 5 * |mx|)

/-- C120. When the test does not depend on the unit: constant fields, and going to a smaller unit when the field is not nearly
constant in the larger one. -/
theorem C120_steady (c : ℝ) (f : List ℝ) :
    ((∀ x ∈ f, ∀ y ∈ f, x = y) → Steady c f) ∧
    (1 ≤ c → (∀ mx ∈ f, (∀ x ∈ f, x ≤ mx) → ∃ x ∈ f, 1 / 10 ^ 8 + 1 / 10 ^ 5 * |mx| < |x - mx|) → Steady c f) := by
  constructor
  · intro h mx hm _
    refine iff_of_true (fun x hx => ?_) (fun x hx => ?_)
    · rw [h x hx mx hm, sub_self, abs_zero]
      positivity
    · rw [h x hx mx hm, sub_self, abs_zero]
      positivity
  · intro hc h mx hm hmax
    obtain ⟨x, hx, hgt⟩ := h mx hm hmax
    refine iff_of_false (fun h' => ?_) (fun h' => absurd (h' x hx) (not_le.2 hgt))
    have h1 := h' x hx
    rw [← mul_sub, abs_mul, abs_mul, abs_of_nonneg (by linarith : (0 : ℝ) ≤ c)] at h1
    nlinarith [mul_lt_mul_of_pos_left hgt (by linarith : (0 : ℝ) < c)]

example : Steady 1000 [1, 3, 2] := by
  refine (C120_steady 1000 [1, 3, 2]).2 (by norm_num) fun mx hm hmax => ?_
  have h3 := hmax 3 (by simp)
  simp only [List.mem_cons, List.not_mem_nil, or_false] at hm
  rcases hm with rfl | rfl | rfl
  · norm_num at h3
  · exact ⟨1, by simp, by norm_num⟩
  · norm_num at h3

open Classical in
private theorem normalise_times {c : ℝ} (hc : 0 < c) (f : List ℝ) (hs : Steady c f) :
    normaliseFunction (f.map fun x => c * x) true = normaliseFunction f true := by
  have hz : ((f.map fun x => c * x).all fun x => decide (x = 0)) = f.all fun x => decide (x = 0) := by
    rw [List.all_map]
    congr 1
    funext x
    simp [hc.ne']
  unfold normaliseFunction
  simp only [Bool.not_true, Bool.false_eq_true, if_false, hz]
  split
  · rename_i h0
    rw [List.all_eq_true] at h0
    rw [List.map_map]
    congr 1
    refine List.map_congr_left fun x hx => ?_
    have : x = 0 := by simpa using h0 x hx
    simp [this]
  · rw [amax_times hc, amin_times hc]
    cases hmx : amax f with
    | error e => rfl
    | ok mx =>
      obtain ⟨m1, m2⟩ := amax_spec hmx
      have hcl : allclose (f.map fun x => c * x) (c * mx) = allclose f mx := by
        unfold allclose
        rw [List.all_map]
        have := hs mx m1 m2
        rw [Bool.eq_iff_iff, List.all_eq_true, List.all_eq_true]
        simpa using this
      simp only [Except.map, bind, Except.bind, hcl, pure, Except.pure]
      split
      · rw [List.map_map]
        congr 1
        refine List.map_congr_left fun x _ => ?_
        simp [fdiv, hc.ne', mul_div_mul_left]
      · cases amin f with
        | error e => rfl
        | ok mn =>
          dsimp only
          rw [List.map_map]
          congr 1
          refine List.map_congr_left fun x _ => ?_
          simp only [fdiv, Function.comp_apply, ← mul_sub, mul_eq_zero, hc.ne', false_or]
          split
          · rfl
          · rw [mul_div_mul_left _ _ hc.ne']

private theorem plotType_times {c : ℝ} (hc : 0 < c) {t : String} {g : ℂ → ℝ} (h : plotTypeFun t = .ok g) (z : ℂ) :
    g ((c : ℂ) * z) = c * g z := by
  unfold plotTypeFun at h
  split at h
  · cases h
    simp [abs_of_pos hc]
  split at h
  · cases h
    simp
  split at h
  · cases h
    simp
  split at h
  · cases h
    simp [mul_add]
  · cases h

/-- `ssht` transforms that do not depend on the unit. -/
structure GridHomogeneous (c : ℝ) (forward : ℕ → List (List ℂ) → List ℂ) (inverse : ℕ → List ℂ → List (List ℂ)) : Prop where
  forward : ∀ L f, forward L (f.map fun r => r.map fun z => (c : ℂ) * z) = (forward L f).map fun z => (c : ℂ) * z
  inverse : ∀ L x, inverse L (x.map fun z => (c : ℂ) * z) = (inverse L x).map fun r => r.map fun z => (c : ℂ) * z

example (c : ℝ) : GridHomogeneous c (fun _ r => r.flatten) (fun _ x => [x]) where
  forward := fun _ f => by simp [List.map_flatten]
  inverse := fun _ _ => rfl

variable {forward : ℕ → List (List ℂ) → List ℂ} {inverse : ℕ → List ℂ → List (List ℂ)}

private theorem boost_times {c : ℝ} (T : GridHomogeneous c forward inverse) (f : List (List ℂ)) (L R : ℕ) (up : Bool) :
    boostField forward inverse (f.map fun r => r.map fun z => (c : ℂ) * z) L R up =
      (boostField forward inverse f L R up).map fun b => b.map fun r => r.map fun z => (c : ℂ) * z := by
  unfold boostField
  cases up with
  | false => rfl
  | true =>
    simp only [Bool.not_true, Bool.false_eq_true, if_false]
    unfold invertFlmBoosted
    rw [T.forward]
    refine bind_map (a := List.map fun z => (c : ℂ) * z) ?_ fun p => congrArg Except.ok (T.inverse _ _)
    unfold boostCoefficientResolution
    split
    · rfl
    · simp [Except.map]

private theorem field_times {c : ℝ} (hc : 0 < c) {t : String} {g : ℂ → ℝ} (h : plotTypeFun t = .ok g) (b : List (List ℂ)) :
    ((b.map fun r => r.map fun z => (c : ℂ) * z).map fun r => r.map g) =
      (b.map fun r => r.map g).map fun r => r.map fun x => c * x := by
  simp only [List.map_map]
  refine List.map_congr_left fun r _ => ?_
  simp only [Function.comp_apply, List.map_map]
  exact List.map_congr_left fun z _ => plotType_times hc h z

private theorem lengths_times (c : ℝ) (f : List (List ℝ)) :
    (f.map fun r => r.map fun x => c * x).map List.length = f.map List.length := by
  rw [List.map_map]
  exact List.map_congr_left fun r _ => by simp

private theorem flatten_times (c : ℝ) (f : List (List ℝ)) :
    (f.map fun r => r.map fun x => c * x).flatten = f.flatten.map fun x => c * x := by
  rw [List.map_flatten]

private theorem unflatten_self (f : List (List ℝ)) : unflatten (f.map List.length) f.flatten = f := by
  simpa using unflatten_map id f

/-- C120. Figures of a field in other units.  With normalisation, if the test for constant fields does not depend on the unit on
the samples that are plotted, the figure is the same, with or without a region.  Without normalisation and region, the colours
and the range of the colour scale are in those units, an amplitude being given in them too. -/
theorem C120_figure_partial {c : ℝ} (hc : 0 < c) (T : GridHomogeneous c forward inverse) (s : SphereSettings)
    (f : List (List ℂ)) :
    (s.normalise = true → (∀ b g, boostField forward inverse f s.L s.resolution s.upsample = .ok b →
        plotTypeFun s.plotType = .ok g → Steady c (b.map fun r => r.map g).flatten) →
      executeSphere forward inverse s (f.map fun r => r.map fun z => (c : ℂ) * z) = executeSphere forward inverse s f) ∧
    (s.normalise = false → s.mask = none →
      executeSphere forward inverse { s with amplitude := s.amplitude.map fun a => c * a }
          (f.map fun r => r.map fun z => (c : ℂ) * z) =
        (executeSphere forward inverse s f).map fun o => o.map fun F =>
          ⟨F.colours.map fun r => r.map fun x => c * x, c * F.cmin, c * F.cmax⟩) := by
  constructor
  · intro hn hs
    have hp : prepareField forward inverse s (f.map fun r => r.map fun z => (c : ℂ) * z) = prepareField forward inverse s f := by
      unfold prepareField
      rw [boost_times T, hn]
      cases hb : boostField forward inverse f s.L s.resolution s.upsample with
      | error e => rfl
      | ok b =>
        cases hg : plotTypeFun s.plotType with
        | error e => rfl
        | ok g =>
          simp only [bind, Except.bind, Except.map]
          rw [field_times hc hg, lengths_times, flatten_times, normalise_times hc _ (hs b g hb hg)]
    unfold executeSphere
    rw [hp]
  · intro hn hm
    unfold executeSphere
    have hp : prepareField forward inverse { s with amplitude := s.amplitude.map fun a => c * a }
        (f.map fun r => r.map fun z => (c : ℂ) * z) =
        (prepareField forward inverse s f).map fun o => o.map fun F => F.map fun r => r.map fun x => c * x := by
      unfold prepareField
      change (boostField forward inverse _ s.L s.resolution s.upsample >>= _) = _
      rw [boost_times T, hn]
      cases hb : boostField forward inverse f s.L s.resolution s.upsample with
      | error e => rfl
      | ok b =>
        cases hg : plotTypeFun s.plotType with
        | error e => rfl
        | ok g =>
          simp only [bind, Except.bind, Except.map, normaliseFunction, Bool.not_false, if_true, pure, Except.pure]
          rw [field_times hc hg, lengths_times, flatten_times, mapM_id_map_some, mapM_id_map_some]
          simp only [Option.map_some, unflatten_map, unflatten_self]
    refine bind_map hp fun o => ?_
    cases o with
    | none => rfl
    | some F =>
      simp only [Option.map_some]
      refine bind_map (a := fun S : Setup => ⟨S.fPlot.map fun r => r.map fun x => c * x, c * S.vmin, c * S.vmax⟩) ?_ fun S => ?_
      · unfold setupPlot
        rw [flatten_times, List.length_map]
        change (if (s.resolution + 1) * (2 * s.resolution) ≠ F.flatten.length then _ else _) = Except.map _ (if _ then _ else _)
        split
        · rfl
        · refine bind_map (amax_times hc _) fun mx => ?_
          refine bind_map (amin_times hc _) fun mn => ?_
          refine bind_map (a := List.map fun r => r.map fun x => c * x) ?_ fun cl => rfl
          unfold closeRows
          refine mapM_map (fun r => ?_) F
          change closeRow (2 * s.resolution) _ = (closeRow (2 * s.resolution) _).map _
          unfold closeRow
          cases r with
          | nil => rfl
          | cons x xs =>
            simp only [List.map_cons, List.length_cons, List.length_map]
            split
            · change Except.ok _ = Except.ok _
              dsimp only
              rw [List.map_append, List.map_cons, List.map_take, List.map_drop, List.map_cons]
            · rfl
      · rw [hm, hn]
        change Except.ok _ = Except.ok _
        unfold createTickMark
        cases s.amplitude with
        | none => simp [abs_mul, abs_of_pos hc, mul_max_of_nonneg _ _ hc.le]
        | some a => simp

/-- C120. Figures on a mesh in other units. -/
theorem C120_mesh_figure_partial {c : ℝ} (hc : 0 < c) (s : MeshSettings) (f : List ℝ) :
    (s.normalise = true →
      Steady c (s.faces.map fun t => (f.getD t.1 0 + f.getD t.2.1 0 + f.getD t.2.2 0) / 3) →
      executeMesh s (f.map fun x => c * x) = executeMesh s f) ∧
    (s.normalise = false → s.region = false →
      executeMesh { s with amplitude := s.amplitude.map fun a => c * a } (f.map fun x => c * x) =
        (executeMesh s f).map fun o => o.map fun F => (F.1.map fun x => c * x, c * F.2.1, c * F.2.2)) := by
  have hget : ∀ i, (f.map fun x => c * x).getD i 0 = c * f.getD i 0 := fun i => by
    rw [List.getD_eq_getElem?_getD, List.getD_eq_getElem?_getD, List.getElem?_map]
    cases f[i]? <;> simp
  have hav : s.faces.map (averageOntoFace fun v => (f.map fun x => c * x).getD v 0) =
      (s.faces.map (averageOntoFace fun v => f.getD v 0)).map fun x => c * x := by
    rw [List.map_map]
    refine List.map_congr_left fun t _ => ?_
    simp only [averageOntoFace, Function.comp_apply, hget]
    ring
  constructor
  · intro hn hs
    unfold executeMesh
    rw [amin_times hc, amax_times hc, hav, hn,
      normalise_times hc (s.faces.map (averageOntoFace fun v => f.getD v 0)) hs]
    cases amin f with
    | error e => rfl
    | ok mn =>
      cases amax f with
      | error e => rfl
      | ok mx =>
        simp only [Except.map, bind, Except.bind, if_true]
  · intro hn hr
    unfold executeMesh
    dsimp only
    rw [amin_times hc, amax_times hc, hav, hn, hr]
    refine bind_map rfl fun mn => ?_
    refine bind_map rfl fun mx => ?_
    simp only [normaliseFunction, Bool.not_false, if_true, bind, Except.bind, mapM_id_map_some, Bool.false_eq_true, if_false,
      pure, Except.pure, Except.map, Option.map_some]
    unfold createTickMark
    cases s.amplitude with
    | none => simp [abs_mul, abs_of_pos hc, mul_max_of_nonneg _ _ hc.le]
    | some a => simp

/-- C120, negative part. For every field with a negative and a positive value that is not nearly constant, in every large enough
unit the normalised values are others and leave [0,1]; so there is a figure that changes with the unit. -/
theorem C120_figure_violation :
    (∀ f : List ℝ, ∀ mn ∈ f, ∀ mx ∈ f, (∀ x ∈ f, mn ≤ x ∧ x ≤ mx) → mn < 0 → 0 < mx →
      (∃ x ∈ f, 1 / 10 ^ 8 + 1 / 10 ^ 5 * |mx| < |x - mx|) →
      ∀ c, 0 < c → c * (mx - mn) ≤ 1 / 10 ^ 8 → ∃ g g' : List ℝ,
        normaliseFunction f true = .ok (g.map some) ∧ normaliseFunction (f.map fun x => c * x) true = .ok (g'.map some) ∧
        g ≠ g' ∧ (∀ y ∈ g, 0 ≤ y) ∧ ∃ y ∈ g', y < 0) ∧
    ∃ (s : SphereSettings) (f : List (List ℂ)) (c : ℝ), 0 < c ∧ ∃ F F' : Figure,
      executeSphere (fun _ r => r.flatten) (fun _ x => [x]) s f = .ok (some F) ∧
      executeSphere (fun _ r => r.flatten) (fun _ x => [x]) s (f.map fun r => r.map fun z => (c : ℂ) * z) = .ok (some F') ∧
      F.colours = [[0, 1, 0], [1, 1, 1]] ∧ F'.colours = [[-3, 1, -3], [1, 1, 1]] := by
  have key : ∀ f : List ℝ, ∀ mn ∈ f, ∀ mx ∈ f, (∀ x ∈ f, mn ≤ x ∧ x ≤ mx) → mn < 0 → 0 < mx →
      ∀ c, 0 < c → c * (mx - mn) ≤ 1 / 10 ^ 8 →
      normaliseFunction (f.map fun x => c * x) true = .ok ((f.map fun x => x / mx).map some) := by
    intro f mn hmn mx hmx hb hneg hpos c hc hsmall
    have := ((C42_normalise (f.map fun x => c * x)).2.2 (c * mn) (c * mx) (List.mem_map_of_mem hmn) (List.mem_map_of_mem hmx)
      (by
        intro y hy
        obtain ⟨x, hx, rfl⟩ := List.mem_map.1 hy
        exact ⟨mul_le_mul_of_nonneg_left (hb x hx).1 hc.le, mul_le_mul_of_nonneg_left (hb x hx).2 hc.le⟩)).2
      (by
        intro y hy
        obtain ⟨x, hx, rfl⟩ := List.mem_map.1 hy
        rw [← mul_sub, abs_mul, abs_of_pos hc, abs_sub_comm, abs_of_nonneg (by linarith [(hb x hx).2])]
        have h1 : c * (mx - x) ≤ c * (mx - mn) := mul_le_mul_of_nonneg_left (by linarith [(hb x hx).1]) hc.le
        have h2 : 0 ≤ 1 / 10 ^ 5 * |c * mx| := by positivity
        linarith)
      ⟨c * mx, List.mem_map_of_mem hmx, (mul_pos hc hpos).ne'⟩
    rw [this, List.map_map, List.map_map]
    congr 1
    refine List.map_congr_left fun x _ => ?_
    simp only [Function.comp_apply, (mul_pos hc hpos).ne', if_false]
    rw [mul_div_mul_left _ _ hc.ne']
  constructor
  · intro f mn hmn mx hmx hb hneg hpos hsp c hc hsmall
    obtain ⟨h1, -, h2⟩ := ((C42_normalise f).2.2 mn mx hmn hmx hb).1 hsp
    have hg : ∀ y ∈ (f.map fun x => (x - mn) / (mx - mn)), 0 ≤ y := by
      intro y hy
      obtain ⟨x, hx, rfl⟩ := List.mem_map.1 hy
      exact (h2 x hx).1
    have hm : mn / mx ∈ f.map fun x => x / mx := List.mem_map_of_mem hmn
    have hn : mn / mx < 0 := div_neg_of_neg_of_pos hneg hpos
    refine ⟨f.map fun x => (x - mn) / (mx - mn), f.map fun x => x / mx, ?_, key f mn hmn mx hmx hb hneg hpos c hc hsmall, ?_, hg,
      _, hm, hn⟩
    · rw [h1, List.map_map]
      rfl
    · intro he
      rw [← he] at hm
      exact absurd (hg _ hm) (not_le.2 hn)
  · have ev : ∀ s : SphereSettings, s = { L := 1, upsample := false } → ∀ f : List (List ℂ), ∀ F : List (List ℝ),
        prepareField (fun _ r => r.flatten) (fun _ x => [x]) s f = .ok (some F) → ∀ a b c d : ℝ, F = [[a, b], [c, d]] →
        ∃ G : Figure, executeSphere (fun _ r => r.flatten) (fun _ x => [x]) s f = .ok (some G) ∧
          G.colours = [[a, b, a], [c, d, c]] := by
      intro s hs f F hF a b c d hab
      unfold executeSphere
      rw [hF]
      subst hs hab
      exact ⟨_, rfl, rfl⟩
    have hv1 : normaliseFunction [-3, 1, 1, 1] true = .ok [some 0, some 1, some 1, some 1] := by
      rw [(((C42_normalise [-3, 1, 1, 1]).2.2 (-3) 1 (by simp) (by simp) (by norm_num)).1 ⟨-3, by simp, by norm_num⟩).1]
      norm_num
    have hv2 : normaliseFunction [1 / 10 ^ 9 * (-3), 1 / 10 ^ 9 * 1, 1 / 10 ^ 9 * 1, 1 / 10 ^ 9 * 1] true =
        .ok [some (-3), some 1, some 1, some 1] := by
      have := key [-3, 1, 1, 1] (-3) (by simp) 1 (by simp) (by norm_num) (by norm_num) (by norm_num) (1 / 10 ^ 9) (by norm_num)
        (by norm_num)
      simpa using this
    have prep : ∀ f : List (List ℂ), ∀ a b c d a' b' c' d' : ℝ, f = [[(a : ℂ), b], [(c : ℂ), d]] →
        normaliseFunction [a, b, c, d] true = .ok [some a', some b', some c', some d'] →
        prepareField (fun _ r => r.flatten) (fun _ x => [x]) { L := 1, upsample := false } f =
          .ok (some [[a', b'], [c', d']]) := by
      intro f a b c d a' b' c' d' hf hv
      subst hf
      have hfield : ([[(a : ℂ), b], [(c : ℂ), d]].map fun r => r.map Complex.re) = [[a, b], [c, d]] := by simp
      have ht : plotTypeFun "real" = .ok Complex.re := by
        unfold plotTypeFun
        rw [if_neg (by decide), if_neg (by decide), if_pos rfl]
      simp only [prepareField, boostField, Bool.not_false, if_true, bind, Except.bind, ht]
      rw [hfield]
      change Except.bind (normaliseFunction [a, b, c, d] true) _ = _
      rw [hv]
      rfl
    obtain ⟨G, g1, g2⟩ := ev { L := 1, upsample := false } rfl [[((-3 : ℝ) : ℂ), (1 : ℝ)], [((1 : ℝ) : ℂ), (1 : ℝ)]] _
      (prep _ (-3) 1 1 1 0 1 1 1 rfl hv1) 0 1 1 1 rfl
    obtain ⟨G', g1', g2'⟩ := ev { L := 1, upsample := false } rfl
      ([[((-3 : ℝ) : ℂ), (1 : ℝ)], [((1 : ℝ) : ℂ), (1 : ℝ)]].map fun r => r.map fun z => ((1 / 10 ^ 9 : ℝ) : ℂ) * z) _
      (prep _ _ _ _ _ (-3) 1 1 1 (by simp) hv2) (-3) 1 1 1 rfl
    exact ⟨_, _, 1 / 10 ^ 9, by norm_num, G, G', g1, g1', g2, g2'⟩

end figures

end Sleplet.Props
