import Verif.Lemmas.Superposition
import Verif.Props.SlepianWavelets

/-!
C124: transforms of combinations of signals.  `Sup R x y z`: three runs of a program all end with the same exception, or all
return and the results are related by `R`.  `Comb a b u v w`: `u` and `v` are lists of one length and `w` is `a u + b v`
element by element.  `Each R p q r`: three lists of one length whose elements are related by `R`.
-/
namespace Sleplet.Props

open Superposition

/-! ### mesh harmonic transforms -/

/-- C124. The harmonic transforms on a mesh. -/
theorem C124_mesh {V : Type} [Fintype V] (K : ℕ) (basis : List (V → ℝ)) (a b : ℝ) :
    (∀ u v : V → ℝ, Sup (Comb a b) (MeshT.meshForward K basis u) (MeshT.meshForward K basis v)
      (MeshT.meshForward K basis fun x => a * u x + b * v x)) ∧
    (∀ u v : List ℝ, u.length = v.length →
      Sup (fun f g h => ∀ x, h x = a * f x + b * g x) (MeshT.meshInverse basis u) (MeshT.meshInverse basis v)
        (MeshT.meshInverse basis (List.zipWith (fun x y => a * x + b * y) u v))) := by
  constructor
  · intro u v
    unfold MeshT.meshForward
    split
    · refine .ok ((Comb.map basis _ _ _ fun phi _ => ?_).append (Comb.replicate _))
      simp only [MeshT.integrateWholeMesh, Finset.mul_sum, ← Finset.sum_add_distrib]
      exact Finset.sum_congr rfl fun x _ => by ring
    · exact .inl ⟨_, rfl, rfl, rfl⟩
  · intro u v hl
    unfold MeshT.meshInverse
    refine (Comb.broadcast (a := a) (b := b) ⟨hl, rfl⟩ _ basis (T := fun f g h => h = fun x => a * f x + b * g x) fun x y c => ?_).bind
      fun p q r h => ?_
    · funext v; ring
    · exact .ok fun x => fields_sum h x

example : MeshT.meshForward 2 [fun _ : Fin 2 => (1 : ℝ)] ![1, 2] = .ok [3, 0] ∧
    MeshT.meshForward 2 [fun _ : Fin 2 => (1 : ℝ)] ![5, 6] = .ok [11, 0] ∧
    MeshT.meshForward 2 [fun _ : Fin 2 => (1 : ℝ)] (fun x => 2 * ![1, 2] x + 3 * ![5, 6] x) = .ok [39, 0] := by
  refine ⟨?_, ?_, ?_⟩ <;> simp [MeshT.meshForward, MeshT.integrateWholeMesh] <;> norm_num

/-! ### Slepian transforms -/

section
variable {L : ℕ} {Pix : Type} [Fintype Pix] (sl : Transform.Slepian (L ^ 2)) (synth : (Fin (L ^ 2) → ℂ) → Pix → ℂ) (w : Pix → ℝ)

private theorem decomposeAll_sup {a b : ℂ} (i j k : Transform.Inputs (L ^ 2) Pix)
    (h : ∀ r : ℤ, Sup (fun x y z => z = a * x + b * y) (Transform.decompose sl synth w i r) (Transform.decompose sl synth w j r)
      (Transform.decompose sl synth w k r)) (rs : List ℕ) :
    Sup (Comb a b) (Transform.decomposeAll sl synth w i rs) (Transform.decomposeAll sl synth w j rs)
      (Transform.decomposeAll sl synth w k rs) := by
  induction rs with
  | nil => exact .ok Comb.nil
  | cons r rs ih =>
    refine (h r).bind fun x y z hz => ih.bind fun u v w hw => ?_
    subst hz
    exact .ok hw.cons

/-- C124. The Slepian coefficients on the sphere, by each of the three methods, whatever the number of coefficients asked for. -/
theorem C124_slepian_forward (a b : ℂ) (n : Option ℕ) :
    (∀ f g : Fin (L ^ 2) → ℂ, Sup (Comb a b) (Transform.slepianForward sl synth w ⟨none, some f, none⟩ n)
      (Transform.slepianForward sl synth w ⟨none, some g, none⟩ n)
      (Transform.slepianForward sl synth w ⟨none, some fun i => a * f i + b * g i, none⟩ n)) ∧
    (∀ (mask : Option (Pix → ℝ)) (f g : Pix → ℂ), Sup (Comb a b) (Transform.slepianForward sl synth w ⟨some f, none, mask⟩ n)
      (Transform.slepianForward sl synth w ⟨some g, none, mask⟩ n)
      (Transform.slepianForward sl synth w ⟨some fun x => a * f x + b * g x, none, mask⟩ n)) := by
  constructor
  · intro f g
    refine Sup.step (.ok Transform.Method.harmonicSum) fun _ => decomposeAll_sup sl synth w _ _ _ (fun r => ?_) _
    refine Sup.step (Transform.validateRank L r) (f := fun _ => Transform.harmonicSum sl f r.toNat) (g := fun _ => Transform.harmonicSum sl g r.toNat)
      (h := fun _ => Transform.harmonicSum sl (fun x => a * f x + b * g x) r.toNat) fun _ => ?_
    refine Sup.step (NumPy.item sl.evecs r.toNat) fun v => .ok ?_
    simp only [Finset.mul_sum, ← Finset.sum_add_distrib]
    exact Finset.sum_congr rfl fun x _ => by ring
  · intro mask f g
    cases mask with
    | none =>
      refine Sup.step (.ok Transform.Method.integrateSphere) fun _ => decomposeAll_sup sl synth w _ _ _ (fun r => ?_) _
      refine Sup.step (Transform.validateRank L r) (f := fun _ => Transform.integrateSphere sl synth w f r.toNat) (g := fun _ => Transform.integrateSphere sl synth w g r.toNat)
        (h := fun _ => Transform.integrateSphere sl synth w (fun x => a * f x + b * g x) r.toNat) fun _ => ?_
      refine Sup.step (NumPy.item sl.evecs r.toNat) fun v => .ok ?_
      simp only [Transform.integrateWhole, Transform.multiply, Finset.mul_sum, ← Finset.sum_add_distrib]
      exact Finset.sum_congr rfl fun x _ => by ring
    | some mask =>
      refine Sup.step (.ok Transform.Method.integrateRegion) fun _ => decomposeAll_sup sl synth w _ _ _ (fun r => ?_) _
      refine Sup.step (Transform.validateRank L r) (f := fun _ => Transform.integrateRegionMethod sl synth w mask f r.toNat) (g := fun _ => Transform.integrateRegionMethod sl synth w mask g r.toNat)
        (h := fun _ => Transform.integrateRegionMethod sl synth w mask (fun x => a * f x + b * g x) r.toNat) fun _ => ?_
      refine Sup.step (NumPy.item sl.evecs r.toNat) fun v => ?_
      refine Sup.step (NumPy.item sl.evals r.toNat) fun e => .ok ?_
      rw [← mul_div_assoc, ← mul_div_assoc, ← add_div]
      congr 1
      simp only [Transform.integrateRegion, Transform.multiply, Finset.mul_sum, ← Finset.sum_add_distrib]
      exact Finset.sum_congr rfl fun x _ => by ring

/-- C124. The field of Slepian coefficients on the sphere. -/
theorem C124_slepian_inverse (a b : ℂ) (f g : List ℂ) (hl : f.length = g.length) :
    Sup (fun F G H : Pix → ℂ => ∀ x, H x = a * F x + b * G x) (Transform.slepianInverse sl synth f) (Transform.slepianInverse sl synth g)
      (Transform.slepianInverse sl synth (List.zipWith (fun x y => a * x + b * y) f g)) := by
  have h : Comb a b f g (List.zipWith (fun x y => a * x + b * y) f g) := ⟨hl, rfl⟩
  unfold Transform.slepianInverse
  refine Sup.step _ fun sp => ?_
  refine ((h.take sl.N).broadcast _ sp (T := fun f g h => h = fun x => a * f x + b * g x) fun x y c => ?_).bind fun p q r h => ?_
  · funext v; ring
  · exact .ok fun x => fields_sum h x

/-- C125. Integrating the region, the Slepian coefficients do not depend on the field where the mask vanishes. -/
theorem C125_sphere (mask : Pix → ℝ) (f g : Pix → ℂ) (h : ∀ x, mask x ≠ 0 → f x = g x) (n : Option ℕ) :
    Transform.slepianForward sl synth w ⟨some f, none, some mask⟩ n =
      Transform.slepianForward sl synth w ⟨some g, none, some mask⟩ n := by
  have hd : ∀ r : ℤ, Transform.decompose sl synth w ⟨some f, none, some mask⟩ r =
      Transform.decompose sl synth w ⟨some g, none, some mask⟩ r := by
    intro r
    have key : ∀ s : Pix → ℂ, Transform.integrateRegion mask w f s = Transform.integrateRegion mask w g s := by
      intro s
      refine Finset.sum_congr rfl fun x _ => ?_
      by_cases hx : mask x = 0
      · simp [hx]
      · simp only [Transform.multiply, h x hx]
    change (Transform.validateRank L r >>= fun _ => Transform.integrateRegionMethod sl synth w mask f r.toNat) =
      (Transform.validateRank L r >>= fun _ => Transform.integrateRegionMethod sl synth w mask g r.toNat)
    unfold Transform.integrateRegionMethod
    simp only [key]
  have ha : ∀ rs, Transform.decomposeAll sl synth w ⟨some f, none, some mask⟩ rs =
      Transform.decomposeAll sl synth w ⟨some g, none, some mask⟩ rs := by
    intro rs
    induction rs with
    | nil => rfl
    | cons r rs ih => simp only [Transform.decomposeAll, hd, ih]
  unfold Transform.slepianForward
  rw [ha]
  rfl

end

/-! ### Slepian transforms on meshes -/

section
variable {V : Type} [Fintype V] (ms : MeshT.MeshSlepian V)

private theorem mesh_decomposeAll_sup {a b : ℝ} (i j k : MeshT.Inputs V)
    (h : ∀ r : ℤ, Sup (fun x y z => z = a * x + b * y) (MeshT.decompose ms i r) (MeshT.decompose ms j r) (MeshT.decompose ms k r))
    (rs : List ℕ) : Sup (Comb a b) (MeshT.decomposeAll ms i rs) (MeshT.decomposeAll ms j rs) (MeshT.decomposeAll ms k rs) := by
  induction rs with
  | nil => exact .ok Comb.nil
  | cons r rs ih =>
    refine (h r).bind fun x y z hz => ih.bind fun u v w hw => ?_
    subst hz
    exact .ok hw.cons

/-- C124. The Slepian coefficients on a mesh, by each of the three methods. -/
theorem C124_mesh_slepian_forward (a b : ℝ) (n : Option ℕ) :
    (∀ f g : List ℝ, f.length = g.length → Sup (Comb a b) (MeshT.slepianMeshForward ms ⟨none, some f, false⟩ n)
      (MeshT.slepianMeshForward ms ⟨none, some g, false⟩ n)
      (MeshT.slepianMeshForward ms ⟨none, some (List.zipWith (fun x y => a * x + b * y) f g), false⟩ n)) ∧
    (∀ (mask : Bool) (f g : V → ℝ), Sup (Comb a b) (MeshT.slepianMeshForward ms ⟨some f, none, mask⟩ n)
      (MeshT.slepianMeshForward ms ⟨some g, none, mask⟩ n)
      (MeshT.slepianMeshForward ms ⟨some fun x => a * f x + b * g x, none, mask⟩ n)) := by
  constructor
  · intro f g hl
    refine Sup.step (.ok Transform.Method.harmonicSum) fun _ => mesh_decomposeAll_sup ms _ _ _ (fun r => ?_) _
    refine Sup.step (MeshT.validateRank ms.numBasis r) (f := fun _ => MeshT.harmonicSum ms f r.toNat) (g := fun _ => MeshT.harmonicSum ms g r.toNat)
      (h := fun _ => MeshT.harmonicSum ms (List.zipWith (fun x y => a * x + b * y) f g) r.toNat) fun _ => ?_
    refine Sup.step (NumPy.item ms.evecs r.toNat) fun v => ?_
    refine (Comb.broadcast (a := a) (b := b) ⟨hl, rfl⟩ (· * ·) v (T := fun x y z => z = a * x + b * y)
      fun x y c => by ring).bind fun p q r h => ?_
    exact .ok (comb_of_get h).sum
  · intro mask f g
    cases mask with
    | false =>
      refine Sup.step (.ok Transform.Method.integrateSphere) fun _ => mesh_decomposeAll_sup ms _ _ _ (fun r => ?_) _
      refine Sup.step (MeshT.validateRank ms.numBasis r) (f := fun _ => MeshT.integrateMesh ms f r.toNat) (g := fun _ => MeshT.integrateMesh ms g r.toNat)
        (h := fun _ => MeshT.integrateMesh ms (fun x => a * f x + b * g x) r.toNat) fun _ => ?_
      refine Sup.step (NumPy.item ms.evecs r.toNat) fun v => ?_
      refine Sup.step (MeshT.meshInverse ms.basis v) fun sp => .ok ?_
      simp only [MeshT.integrateWholeMesh, Finset.mul_sum, ← Finset.sum_add_distrib]
      exact Finset.sum_congr rfl fun x _ => by ring
    | true =>
      refine Sup.step (.ok Transform.Method.integrateRegion) fun _ => mesh_decomposeAll_sup ms _ _ _ (fun r => ?_) _
      refine Sup.step (MeshT.validateRank ms.numBasis r) (f := fun _ => MeshT.integrateRegionMethod ms f r.toNat) (g := fun _ => MeshT.integrateRegionMethod ms g r.toNat)
        (h := fun _ => MeshT.integrateRegionMethod ms (fun x => a * f x + b * g x) r.toNat) fun _ => ?_
      refine Sup.step (NumPy.item ms.evecs r.toNat) fun v => ?_
      refine Sup.step (MeshT.meshInverse ms.basis v) fun sp => ?_
      refine Sup.step (NumPy.item ms.evals r.toNat) fun e => .ok ?_
      rw [← mul_div_assoc, ← mul_div_assoc, ← add_div]
      congr 1
      simp only [MeshT.integrateRegionMesh, Finset.mul_sum, ← Finset.sum_add_distrib]
      exact Finset.sum_congr rfl fun x _ => by ring

omit [Fintype V] in
/-- C124. The field of Slepian coefficients on a mesh. -/
theorem C124_mesh_slepian_inverse (a b : ℝ) (f g : List ℝ) (hl : f.length = g.length) :
    Sup (fun F G H : V → ℝ => ∀ x, H x = a * F x + b * G x) (MeshT.slepianMeshInverse ms f) (MeshT.slepianMeshInverse ms g)
      (MeshT.slepianMeshInverse ms (List.zipWith (fun x y => a * x + b * y) f g)) := by
  have h : Comb a b f g (List.zipWith (fun x y => a * x + b * y) f g) := ⟨hl, rfl⟩
  unfold MeshT.slepianMeshInverse
  refine Sup.step _ fun sp => ?_
  refine ((h.take ms.N).broadcast _ sp (T := fun f g h => h = fun x => a * f x + b * g x) fun x y c => ?_).bind fun p q r h => ?_
  · funext v; ring
  · exact .ok fun x => fields_sum h x

/-- C125. The same on a mesh, for the vertices outside the region. -/
theorem C125_mesh (f g : V → ℝ) (h : ∀ v, ms.region v = true → f v = g v) (n : Option ℕ) :
    MeshT.slepianMeshForward ms ⟨some f, none, true⟩ n = MeshT.slepianMeshForward ms ⟨some g, none, true⟩ n := by
  have hd : ∀ r : ℤ, MeshT.decompose ms ⟨some f, none, true⟩ r = MeshT.decompose ms ⟨some g, none, true⟩ r := by
    intro r
    have key : ∀ s : V → ℝ, MeshT.integrateRegionMesh ms.region f s = MeshT.integrateRegionMesh ms.region g s := by
      intro s
      refine Finset.sum_congr rfl fun x _ => ?_
      cases hx : ms.region x with
      | false => simp
      | true => rw [h x hx]
    change (MeshT.validateRank ms.numBasis r >>= fun _ => MeshT.integrateRegionMethod ms f r.toNat) =
      (MeshT.validateRank ms.numBasis r >>= fun _ => MeshT.integrateRegionMethod ms g r.toNat)
    unfold MeshT.integrateRegionMethod
    simp only [key]
  have ha : ∀ rs, MeshT.decomposeAll ms ⟨some f, none, true⟩ rs = MeshT.decomposeAll ms ⟨some g, none, true⟩ rs := by
    intro rs
    induction rs with
    | nil => rfl
    | cons r rs ih => simp only [MeshT.decomposeAll, hd, ih]
  unfold MeshT.slepianMeshForward
  rw [ha]
  rfl

end

/-! ### examples -/

/-- one Slepian function, two samples, the first of which is in the region. -/
private noncomputable def oneFunction : Transform.Slepian (1 ^ 2) := ⟨1, [1 / 2], [fun _ => 1]⟩

private theorem oneFunction_forward (f : Fin 2 → ℂ) :
    Transform.slepianForward (L := 1) oneFunction (fun c _ => c 0) (fun _ => 1) ⟨some f, none, some ![1, 0]⟩ none = .ok [2 * f 0] ∧
    Transform.slepianForward (L := 1) oneFunction (fun c _ => c 0) (fun _ => 1) ⟨some f, none, none⟩ none = .ok [f 0 + f 1] := by
  constructor
  · simp [Transform.slepianForward, Transform.decomposeAll, Transform.decompose, Transform.detectMethod, Transform.validateRank,
      Transform.integrateRegionMethod, Transform.integrateRegion, Transform.multiply, oneFunction, NumPy.item, List.range_succ, bind, Except.bind,
      pure, Except.pure]
    ring
  · simp [Transform.slepianForward, Transform.decomposeAll, Transform.decompose, Transform.detectMethod, Transform.validateRank,
      Transform.integrateSphere, Transform.integrateWhole, Transform.multiply, oneFunction, NumPy.item, List.range_succ, bind, Except.bind,
      pure, Except.pure]

/-- fields that differ outside the region have the same coefficients if the region is integrated, and others if the sphere is. -/
example : Transform.slepianForward (L := 1) oneFunction (fun c _ => c 0) (fun _ => 1) ⟨some ![3, 5], none, some ![1, 0]⟩ none = .ok [6] ∧
    Transform.slepianForward (L := 1) oneFunction (fun c _ => c 0) (fun _ => 1) ⟨some ![3, 7], none, some ![1, 0]⟩ none = .ok [6] ∧
    Transform.slepianForward (L := 1) oneFunction (fun c _ => c 0) (fun _ => 1) ⟨some ![3, 5], none, none⟩ none = .ok [8] ∧
    Transform.slepianForward (L := 1) oneFunction (fun c _ => c 0) (fun _ => 1) ⟨some ![3, 7], none, none⟩ none = .ok [10] := by
  refine ⟨?_, ?_, ?_, ?_⟩ <;> simp only [(oneFunction_forward _).1, (oneFunction_forward _).2] <;> norm_num

/-- a mesh with one basis function. -/
example : MeshT.slepianMeshInverse (⟨1, [fun _ : Fin 2 => 1], fun _ => true, 1, [1], [[1]]⟩ : MeshT.MeshSlepian (Fin 2)) [2] =
    .ok fun _ => 2 := by
  simp [MeshT.slepianMeshInverse, MeshT.computeSp, MeshT.meshInverse, NumPy.item, NumPy.broadcast, List.range_succ, bind, Except.bind, pure,
    Except.pure]

/-! ### wavelets -/

/-- C124. Axisymmetric wavelets: the analysis of signals of one length and the synthesis of coefficients of one shape. -/
theorem C124_axisym (L : ℕ) (wavelets : List (List ℂ)) (a b : ℂ) :
    (∀ f g : List ℂ, f.length = g.length → Sup (Each (Comb a b)) (Wavelets.axisymForward L f wavelets)
      (Wavelets.axisymForward L g wavelets) (Wavelets.axisymForward L (List.zipWith (fun x y => a * x + b * y) f g) wavelets)) ∧
    (∀ u v w : List (List ℂ), Each (Comb a b) u v w → Sup (Comb a b) (Wavelets.axisymInverse L u wavelets)
      (Wavelets.axisymInverse L v wavelets) (Wavelets.axisymInverse L w wavelets)) := by
  constructor
  · intro f g hl
    have h : Comb a b f g (List.zipWith (fun x y => a * x + b * y) f g) := ⟨hl, rfl⟩
    unfold Wavelets.axisymForward
    refine (Each.same (R := fun x y z => x = y ∧ y = z) wavelets fun _ => ⟨rfl, rfl⟩).mapM ?_
    rintro psi _ _ ⟨rfl, rfl⟩
    unfold Wavelets.forwardRow
    refine Sup.foldlM _ (fun ell _ u v w hr => ?_) (Comb.replicate _)
    refine Sup.step _ fun x => ?_
    refine Sup.foldlM _ (fun m _ u v w hr => ?_) hr
    exact (h.item _).bind fun x y z hz => hr.setItem _ (by rw [hz]; ring)
  · intro u v w h
    unfold Wavelets.axisymInverse
    refine Sup.foldlM _ (fun ell _ u' v' w' hr => ?_) (Comb.replicate _)
    refine Sup.step _ fun col => ?_
    refine Sup.foldlM _ (fun m _ u' v' w' hr => ?_) hr
    refine (h.mapM fun x y z hc => hc.item _).bind fun p q r hp => ?_
    refine ((comb_of_get hp).broadcast (· * ·) _ (T := fun x y z => z = a * x + b * y) fun x y c => by ring).bind fun p q r hp => ?_
    exact hr.setItem _ (comb_of_get hp).sum

/-- C124, partial: Slepian wavelets, if the same scales see the two signals and their combination.  The coefficients are
those of the conjugated signal, so the numbers are conjugated too. -/
theorem C124_slepian_wavelets_partial (wavelets : NumPy.Array2 ℂ) (hw : wavelets.WF) (n : ℕ) (hc : n ≤ wavelets.cols) (a b : ℂ)
    (f g h : List ℂ) (hl : n ≤ f.length) (hh : Comb a b f g h)
    (hs : ∀ psi ∈ wavelets.rows, (Seen f n psi ↔ Seen h n psi) ∧ (Seen g n psi ↔ Seen h n psi)) :
    Sup (fun u v w => u.cols = n ∧ v.cols = n ∧ w.cols = n ∧
        Each (Comb ((starRingEnd ℂ) a) ((starRingEnd ℂ) b)) u.rows v.rows w.rows)
      (Wavelets.slepianForward f wavelets n) (Wavelets.slepianForward g wavelets n) (Wavelets.slepianForward h wavelets n) := by
  classical
  have hg : n ≤ g.length := hh.1 ▸ hl
  have hhl : n ≤ h.length := by rw [hh.2]; simp [← hh.1, hl]
  rw [slepianForward_eq f wavelets hw n hl hc, slepianForward_eq g wavelets hw n hg hc, slepianForward_eq h wavelets hw n hhl hc]
  have e1 : (wavelets.rows.filter fun psi => decide (Seen f n psi)) = wavelets.rows.filter fun psi => decide (Seen h n psi) :=
    List.filter_congr fun psi hp => by simpa using (hs psi hp).1
  have e2 : (wavelets.rows.filter fun psi => decide (Seen g n psi)) = wavelets.rows.filter fun psi => decide (Seen h n psi) :=
    List.filter_congr fun psi hp => by simpa using (hs psi hp).2
  rw [e1, e2]
  refine .ok ⟨rfl, rfl, rfl, Each.maps _ _ _ _ fun psi _ => Comb.map _ _ _ _ fun p hp => ?_⟩
  have hp' : p < n := List.mem_range.1 hp
  rcases hh.get p with ⟨h1, -, -⟩ | ⟨x, y, h1, h2, h3⟩
  · exact absurd (List.getElem?_eq_none_iff.1 h1) (by omega)
  · simp only [List.getD_eq_getElem?_getD, h1, h2, h3, Option.getD_some, map_add, map_mul]
    ring

/-- C124, negative part. Slepian wavelets: analysis returns fewer rows for a signal that a scale does not see, so the coefficients of
a sum are not the sum of the coefficients, nor of their first rows. -/
theorem C124_slepian_wavelets_violation :
    Wavelets.slepianForward [1, 1] tiling (2 : ℕ) = .ok ⟨2, [[1, 0], [0, 1]]⟩ ∧
    Wavelets.slepianForward [-1, 0] tiling (2 : ℕ) = .ok ⟨2, [[-1, 0]]⟩ ∧
    Comb 1 1 [1, 1] [-1, 0] ([0, 1] : List ℂ) ∧
    Wavelets.slepianForward [0, 1] tiling (2 : ℕ) = .ok ⟨2, [[0, 1]]⟩ := by
  classical
  have key : ∀ x y : ℂ, Wavelets.slepianForward [x, y] tiling (2 : ℕ) =
      .ok ⟨2, (if x = 0 then [] else [[(starRingEnd ℂ) x, 0]]) ++ (if y = 0 then [] else [[0, (starRingEnd ℂ) y]])⟩ := by
    intro x y
    have s1 : Seen [x, y] 2 [1, 0] ↔ x ≠ 0 := by
      constructor
      · rintro ⟨p, hp, h⟩
        match p, hp with
        | 0, _ => simpa using h
        | 1, _ => simp at h
      · intro h; exact ⟨0, by norm_num, by simpa using h⟩
    have s2 : Seen [x, y] 2 [0, 1] ↔ y ≠ 0 := by
      constructor
      · rintro ⟨p, hp, h⟩
        match p, hp with
        | 0, _ => simp at h
        | 1, _ => simpa using h
      · intro h; exact ⟨1, by norm_num, by simpa using h⟩
    rw [slepianForward_eq _ tiling tiling_wf 2 le_rfl le_rfl]
    simp only [tiling, List.filter_cons, List.filter_nil, s1, s2]
    by_cases hx : x = 0 <;> by_cases hy : y = 0 <;> simp [hx, hy, waveletRow, List.range_succ]
  refine ⟨?_, ?_, ⟨rfl, by norm_num⟩, ?_⟩ <;> rw [key] <;> simp

end Sleplet.Props
