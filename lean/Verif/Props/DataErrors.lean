import Verif.Lemmas.Gram
import Verif.Props.MeshCoefficients
import Verif.Props.SlepianTransform

/-!
C128: how errors in the data reach Slepian coefficients and reconstructed fields.
-/
namespace Sleplet.Props

open Complex Sleplet.Spec Sleplet.Transform

section
variable {Pix : Type} [Fintype Pix] {L N : ℕ}

/-- The first `N` solutions `E`, `e` of the concentration problem of a mask, for samples on which the harmonics are orthonormal. -/
structure SolvesMask (sl : Transform.Slepian (L ^ 2)) (synth : (Fin (L ^ 2) → ℂ) → Pix → ℂ) (w mask : Pix → ℝ)
    (E : Fin N → Fin (L ^ 2) → ℂ) (e : Fin N → ℝ) : Prop where
  number : sl.N = N
  le : N ≤ L ^ 2
  rows : ∀ p : Fin N, sl.evecs[(p : ℕ)]? = some (E p)
  vals : ∀ p : Fin N, sl.evals[(p : ℕ)]? = some (e p)
  orthonormal : OrthonormalRows E
  harmonics : ∃ Y : Fin (L ^ 2) → Pix → ℂ, (∀ c x, synth c x = ∑ i, c i * Y i x) ∧
    (∀ i j, ∑ x, Y i x * (starRingEnd ℂ) (Y j x) * (w x : ℂ) = if i = j then 1 else 0) ∧
    ∀ p r, ∑ c, (∑ x, (starRingEnd ℂ) (Y r x) * Y c x * (w x : ℂ) * (mask x : ℂ)) * E p c = e p * E p r

variable {sl : Transform.Slepian (L ^ 2)} {synth : (Fin (L ^ 2) → ℂ) → Pix → ℂ} {w mask : Pix → ℝ} {E : Fin N → Fin (L ^ 2) → ℂ}
  {e : Fin N → ℝ}

private theorem gram (Y : Fin (L ^ 2) → Pix → ℂ) (μ : Pix → ℂ) (a b : Fin (L ^ 2) → ℂ) :
    ∑ x, (∑ i, a i * Y i x) * (starRingEnd ℂ) (∑ i, b i * Y i x) * μ x =
      ∑ r, (starRingEnd ℂ) (b r) * ∑ c, (∑ x, (starRingEnd ℂ) (Y r x) * Y c x * μ x) * a c := by
  calc ∑ x, (∑ i, a i * Y i x) * (starRingEnd ℂ) (∑ i, b i * Y i x) * μ x
      = ∑ x, ∑ r, ∑ c, (starRingEnd ℂ) (b r) * ((starRingEnd ℂ) (Y r x) * Y c x * μ x * a c) := by
        refine Finset.sum_congr rfl fun x _ => ?_
        rw [map_sum, mul_comm (∑ i, a i * Y i x), Finset.sum_mul_sum, Finset.sum_mul]
        refine Finset.sum_congr rfl fun r _ => ?_
        rw [Finset.sum_mul]
        exact Finset.sum_congr rfl fun c _ => by rw [map_mul]; ring
    _ = _ := by
        rw [Finset.sum_comm]
        refine Finset.sum_congr rfl fun r _ => ?_
        rw [Finset.sum_comm, Finset.mul_sum]
        refine Finset.sum_congr rfl fun c _ => ?_
        rw [Finset.sum_mul, Finset.mul_sum]

theorem SolvesMask.region (h : SolvesMask sl synth w mask E e) (p q : Fin N) :
    ∑ x, synth (E p) x * (starRingEnd ℂ) (synth (E q) x) * ((w x * mask x : ℝ) : ℂ) = if p = q then (e p : ℂ) else 0 := by
  obtain ⟨Y, hY, -, heig⟩ := h.harmonics
  simp only [hY]
  rw [gram Y (fun x => ((w x * mask x : ℝ) : ℂ))]
  have h1 : ∀ r c, ∑ x, (starRingEnd ℂ) (Y r x) * Y c x * ((w x * mask x : ℝ) : ℂ) =
      ∑ x, (starRingEnd ℂ) (Y r x) * Y c x * (w x : ℂ) * (mask x : ℂ) := fun r c =>
    Finset.sum_congr rfl fun x _ => by push_cast; ring
  simp only [h1, heig]
  calc ∑ r, (starRingEnd ℂ) (E q r) * (e p * E p r) = e p * ∑ r, E p r * (starRingEnd ℂ) (E q r) := by
        rw [Finset.mul_sum]
        exact Finset.sum_congr rfl fun r _ => by ring
    _ = _ := by
        rw [h.orthonormal p q]
        split <;> simp

theorem SolvesMask.whole (h : SolvesMask sl synth w mask E e) (p q : Fin N) :
    ∑ x, synth (E p) x * (starRingEnd ℂ) (synth (E q) x) * (w x : ℂ) = if p = q then ((1 : ℝ) : ℂ) else 0 := by
  obtain ⟨Y, hY, horth, -⟩ := h.harmonics
  simp only [hY]
  rw [gram Y (fun x => (w x : ℂ))]
  have h1 : ∀ r c, ∑ x, (starRingEnd ℂ) (Y r x) * Y c x * (w x : ℂ) = if c = r then 1 else 0 := fun r c => by
    rw [← horth c r]
    exact Finset.sum_congr rfl fun x _ => by ring
  simp only [h1, ite_mul, one_mul, zero_mul, Finset.sum_ite_eq', Finset.mem_univ, if_true]
  rw [ofReal_one, ← h.orthonormal p q]
  exact Finset.sum_congr rfl fun r _ => by ring

private theorem forward_values (h : SolvesMask sl synth w mask E e) (inp : Inputs (L ^ 2) Pix) (hm : ∃ m, detectMethod inp.f.isSome inp.flm.isSome inp.mask.isSome = .ok m)
    (F : Fin N → ℂ) (hF : ∀ p : Fin N, decompose sl synth w inp ((p : ℕ) : ℤ) = .ok (F p)) :
    slepianForward sl synth w inp none = .ok (List.ofFn F) := by
  obtain ⟨m, hm⟩ := hm
  unfold slepianForward
  simp only [hm, bind, Except.bind, Option.getD_none]
  rw [decomposeAll_ok sl synth w _ (fun r => if hr : r < N then F ⟨r, hr⟩ else 0)]
  · congr 1
    apply List.ext_getElem
    · simp [h.number]
    · intro i h1 h2
      simp at h2
      simp [h2]
  · intro r hr
    have hr : r < N := by rw [← h.number]; simpa using hr
    rw [hF ⟨r, hr⟩]
    simp [hr]

private theorem forward_region (h : SolvesMask sl synth w mask E e) (f : Pix → ℂ) :
    slepianForward sl synth w { f := some f, mask := some mask } none =
      .ok (List.ofFn fun p => (∑ x, f x * (starRingEnd ℂ) (synth (E p) x) * ((w x * mask x : ℝ) : ℂ)) / e p) := by
  refine forward_values h _ ⟨_, rfl⟩ _ fun p => ?_
  rw [((C33_method_selection sl synth w p (E p) (e p) (h.rows p) (h.vals p) (p.2.trans_le h.le)).2.1 f mask)]
  congr 2
  exact Finset.sum_congr rfl fun x _ => by push_cast; ring

private theorem forward_whole (h : SolvesMask sl synth w mask E e) (f : Pix → ℂ) :
    slepianForward sl synth w { f := some f } none =
      .ok (List.ofFn fun p => (∑ x, f x * (starRingEnd ℂ) (synth (E p) x) * (w x : ℂ)) / ((1 : ℝ) : ℂ)) := by
  refine forward_values h _ ⟨_, rfl⟩ _ fun p => ?_
  rw [((C33_method_selection sl synth w p (E p) (e p) (h.rows p) (h.vals p) (p.2.trans_le h.le)).2.2 f)]
  rw [ofReal_one, div_one]

omit [Fintype Pix] in
private theorem diff_comb (s : Fin N → Pix → ℂ) (a b : Fin N → ℂ) (x : Pix) :
    (∑ p, a p * s p x) - ∑ p, b p * s p x = ∑ p, (a p - b p) * s p x := by
  rw [← Finset.sum_sub_distrib]
  exact Finset.sum_congr rfl fun p _ => by ring

private theorem diff_coefficient {μ : Pix → ℂ} (s : Pix → ℂ) (f g : Pix → ℂ) (e : ℂ) :
    (∑ x, f x * s x * μ x) / e - (∑ x, g x * s x * μ x) / e = (∑ x, (f x - g x) * s x * μ x) / e := by
  rw [← sub_div, ← Finset.sum_sub_distrib]
  congr 1
  exact Finset.sum_congr rfl fun x _ => by ring

/-- C128. Integrating the region.  For two fields `f` and `g`, the coefficient of rank `p` differs by at most the energy of `f - g` in the
region over the eigenvalue, all ranks together.  The reconstructed fields differ by no more energy in the region than `f` and `g` do, and by
at most the energy over the least eigenvalue everywhere.  No combination of the Slepian functions is closer to `f` in the region than its
reconstruction. -/
theorem C128_region (h : SolvesMask sl synth w mask E e) (hw : ∀ x, 0 ≤ w x) (hm : ∀ x, 0 ≤ mask x) (he : ∀ p, 0 < e p) (f g : Pix → ℂ) :
    ∃ (F G : Fin N → ℂ) (u v : Pix → ℂ),
      slepianForward sl synth w { f := some f, mask := some mask } none = .ok (List.ofFn F) ∧ slepianInverse sl synth (List.ofFn F) = .ok u ∧
      slepianForward sl synth w { f := some g, mask := some mask } none = .ok (List.ofFn G) ∧ slepianInverse sl synth (List.ofFn G) = .ok v ∧
      ∑ p, e p * ‖F p - G p‖ ^ 2 ≤ ∑ x, w x * mask x * ‖f x - g x‖ ^ 2 ∧
      ∑ x, w x * mask x * ‖u x - v x‖ ^ 2 ≤ ∑ x, w x * mask x * ‖f x - g x‖ ^ 2 ∧
      (∀ least, (∀ p, least ≤ e p) → least * ∑ x, w x * ‖u x - v x‖ ^ 2 ≤ ∑ x, w x * mask x * ‖f x - g x‖ ^ 2) ∧
      ∀ a : Fin N → ℂ, ∑ x, w x * mask x * ‖f x - u x‖ ^ 2 ≤ ∑ x, w x * mask x * ‖f x - ∑ p, a p * synth (E p) x‖ ^ 2 := by
  have hμ : ∀ x, 0 ≤ w x * mask x := fun x => mul_nonneg (hw x) (hm x)
  have hne : ∀ p, e p ≠ 0 := fun p => (he p).ne'
  have hc : ∑ p, e p * ‖(∑ x, f x * (starRingEnd ℂ) (synth (E p) x) * ((w x * mask x : ℝ) : ℂ)) / e p -
      (∑ x, g x * (starRingEnd ℂ) (synth (E p) x) * ((w x * mask x : ℝ) : ℂ)) / e p‖ ^ 2 ≤ ∑ x, w x * mask x * ‖f x - g x‖ ^ 2 := by
    simp only [diff_coefficient]
    exact Gram.coefficients_le hμ hne h.region (fun x => f x - g x)
  refine ⟨_, _, _, _, forward_region h f, slepianInverse_ok sl synth E h.number h.rows _, forward_region h g,
    slepianInverse_ok sl synth E h.number h.rows _, hc, ?_, fun least hl => ?_, fun a => ?_⟩
  · simp only [diff_comb]
    rw [Gram.energy_eq h.region]
    exact hc
  · simp only [diff_comb]
    rw [Gram.energy_eq h.whole, Finset.mul_sum]
    refine le_trans (Finset.sum_le_sum fun p _ => ?_) hc
    rw [one_mul]
    exact mul_le_mul_of_nonneg_right (hl p) (sq_nonneg _)
  · rw [Gram.distance hne h.region f a]
    have : 0 ≤ ∑ p, e p * ‖(∑ x, f x * (starRingEnd ℂ) (synth (E p) x) * ((w x * mask x : ℝ) : ℂ)) / e p - a p‖ ^ 2 :=
      Finset.sum_nonneg fun p _ => mul_nonneg (he p).le (sq_nonneg _)
    linarith

/-- C128. The factor of the region is attained: an error that is a multiple `z` of the Slepian function of rank `q` changes the coefficient
of that rank by `z` and no other; its energy is `|z|²` times the eigenvalue in the region and `|z|²` everywhere. -/
theorem C128_region_attained (h : SolvesMask sl synth w mask E e) (he : ∀ p, 0 < e p) (f : Pix → ℂ) (q : Fin N) (z : ℂ) :
    ∃ F : Fin N → ℂ, slepianForward sl synth w { f := some f, mask := some mask } none = .ok (List.ofFn F) ∧
      slepianForward sl synth w { f := some fun x => f x + z * synth (E q) x, mask := some mask } none =
        .ok (List.ofFn fun p => if p = q then F p + z else F p) ∧
      ∑ x, w x * mask x * ‖z * synth (E q) x‖ ^ 2 = e q * ‖z‖ ^ 2 ∧ ∑ x, w x * ‖z * synth (E q) x‖ ^ 2 = ‖z‖ ^ 2 := by
  have hs : ∀ x, z * synth (E q) x = ∑ p, (if p = q then z else 0) * synth (E p) x := by
    intro x
    simp
  refine ⟨_, forward_region h f, ?_, ?_, ?_⟩
  · rw [forward_region h]
    congr 2
    funext p
    have hne : (e p : ℂ) ≠ 0 := by exact_mod_cast (he p).ne'
    have : ∑ x, (f x + z * synth (E q) x) * (starRingEnd ℂ) (synth (E p) x) * ((w x * mask x : ℝ) : ℂ) =
        (∑ x, f x * (starRingEnd ℂ) (synth (E p) x) * ((w x * mask x : ℝ) : ℂ)) + (if p = q then z else 0) * e p := by
      rw [← Gram.coefficient_comb h.region (fun p => if p = q then z else 0) p, ← Finset.sum_add_distrib]
      refine Finset.sum_congr rfl fun x _ => ?_
      rw [← hs]
      ring
    rw [this, add_div, mul_div_cancel_right₀ _ hne]
    split <;> simp
  · simp only [hs]
    rw [Gram.energy_eq h.region, Finset.sum_eq_single q (fun p _ hp => by simp [hp]) (by simp), if_pos rfl]
  · simp only [hs]
    rw [Gram.energy_eq h.whole, Finset.sum_eq_single q (fun p _ hp => by simp [hp]) (by simp), if_pos rfl, one_mul]

/-- C128. Integrating the whole sphere: neither the coefficients nor the reconstructed fields of two fields differ by more energy than the
fields do, and no combination of the Slepian functions is closer to a field than its reconstruction. -/
theorem C128_sphere (h : SolvesMask sl synth w mask E e) (hw : ∀ x, 0 ≤ w x) (f g : Pix → ℂ) :
    ∃ (F G : Fin N → ℂ) (u v : Pix → ℂ),
      slepianForward sl synth w { f := some f } none = .ok (List.ofFn F) ∧ slepianInverse sl synth (List.ofFn F) = .ok u ∧
      slepianForward sl synth w { f := some g } none = .ok (List.ofFn G) ∧ slepianInverse sl synth (List.ofFn G) = .ok v ∧
      ∑ p, ‖F p - G p‖ ^ 2 ≤ ∑ x, w x * ‖f x - g x‖ ^ 2 ∧ ∑ x, w x * ‖u x - v x‖ ^ 2 = ∑ p, ‖F p - G p‖ ^ 2 ∧
      ∀ a : Fin N → ℂ, ∑ x, w x * ‖f x - u x‖ ^ 2 ≤ ∑ x, w x * ‖f x - ∑ p, a p * synth (E p) x‖ ^ 2 := by
  have hc := Gram.coefficients_le hw (fun _ => one_ne_zero) h.whole (fun x => f x - g x)
  refine ⟨_, _, _, _, forward_whole h f, slepianInverse_ok sl synth E h.number h.rows _, forward_whole h g,
    slepianInverse_ok sl synth E h.number h.rows _, ?_, ?_, fun a => ?_⟩
  · simp only [diff_coefficient]
    simpa only [one_mul] using hc
  · simp only [diff_comb]
    rw [Gram.energy_eq h.whole]
    simp only [one_mul]
  · rw [Gram.distance (fun _ => one_ne_zero) h.whole f a]
    have : 0 ≤ ∑ p, (1 : ℝ) * ‖(∑ x, f x * (starRingEnd ℂ) (synth (E p) x) * (w x : ℂ)) / ((1 : ℝ) : ℂ) - a p‖ ^ 2 :=
      Finset.sum_nonneg fun p _ => mul_nonneg zero_le_one (sq_nonneg _)
    linarith

/-- C128. Summing harmonic coefficients: the Slepian coefficients of two signals differ by no more energy than the signals do. -/
theorem C128_harmonic (h : SolvesMask sl synth w mask E e) (flm glm : Fin (L ^ 2) → ℂ) :
    ∃ F G : Fin N → ℂ, slepianForward sl synth w { flm := some flm } none = .ok (List.ofFn F) ∧
      slepianForward sl synth w { flm := some glm } none = .ok (List.ofFn G) ∧ ∑ p, ‖F p - G p‖ ^ 2 ≤ ∑ i, ‖flm i - glm i‖ ^ 2 := by
  refine ⟨_, _, forward_flm sl synth w E h.number h.le h.rows flm, forward_flm sl synth w E h.number h.le h.rows glm, ?_⟩
  have hG : ∀ p q : Fin N, ∑ i, E p i * (starRingEnd ℂ) (E q i) * ((1 : ℝ) : ℂ) = if p = q then ((1 : ℝ) : ℂ) else 0 := by
    intro p q
    simpa using h.orthonormal p q
  have := Gram.coefficients_le (fun _ => zero_le_one) (fun _ => one_ne_zero) hG (fun i => flm i - glm i)
  simp only [ofReal_one, div_one, mul_one, one_mul] at this
  refine le_of_eq_of_le (Finset.sum_congr rfl fun p _ => ?_) this
  rw [← Finset.sum_sub_distrib]
  congr 2
  exact Finset.sum_congr rfl fun i _ => by ring

end

section mesh
open MeshT
variable {V : Type} [Fintype V] [DecidableEq V] {K : ℕ} {ms : MeshSlepian V} {φ : Fin K → V → ℝ} {ev : Fin K → ℝ} {S : Fin K → Fin K → ℝ}
  {rows : ℕ}

private theorem mesh_le (h : BuiltMesh ms φ ev S rows) : ms.N ≤ K := h.le_rows.trans h.rows_le

private theorem mesh_forward (h : BuiltMesh ms φ ev S rows) (inp : MeshT.Inputs V) (hm : ∃ m, MeshT.detectMethod inp.u.isSome inp.ui.isSome inp.mask = .ok m)
    (F : Fin ms.N → ℝ) (hF : ∀ p : Fin ms.N, MeshT.decompose ms inp ((p : ℕ) : ℤ) = .ok (F p)) :
    slepianMeshForward ms inp none = .ok (List.ofFn F) := by
  obtain ⟨m, hm⟩ := hm
  unfold slepianMeshForward
  simp only [hm, bind, Except.bind, Option.getD_none]
  rw [MeshT.decomposeAll_ok ms _ (fun r => if hr : r < ms.N then F ⟨r, hr⟩ else 0)]
  · congr 1
    apply List.ext_getElem
    · simp
    · intro i h1 h2
      simp at h2
      simp [h2]
  · intro r hr
    have hr : r < ms.N := by simpa using hr
    rw [hF ⟨r, hr⟩]
    simp [hr]

/-- the fields `s` of the first `N` rows of eigenvectors and their eigenvalues. -/
structure MeshPairs (ms : MeshSlepian V) (s : Fin ms.N → V → ℝ) (lam : Fin ms.N → ℝ) : Prop where
  vals : ∀ p : Fin ms.N, ms.evals[(p : ℕ)]? = some (lam p)
  rows : ∀ p : Fin ms.N, ∃ row, ms.evecs[(p : ℕ)]? = some row ∧ meshInverse ms.basis row = .ok (s p)

variable {s : Fin ms.N → V → ℝ} {lam : Fin ms.N → ℝ}

private theorem pair_values (h : BuiltMesh ms φ ev S rows) (hp : MeshPairs ms s lam) (p : Fin ms.N) :
    lam p = ev ⟨p, p.2.trans_le (mesh_le h)⟩ ∧ (s p = fun v => ∑ i, S ⟨p, p.2.trans_le (mesh_le h)⟩ i * φ i v) := by
  obtain ⟨h1, h2⟩ := h.row ⟨p, p.2.trans_le (mesh_le h)⟩ (p.2.trans_le h.le_rows)
  obtain ⟨row, h3, h4⟩ := hp.rows p
  have h5 := hp.vals p
  rw [h1] at h3
  rw [h2] at h5
  injection h3 with h3
  injection h5 with h5
  rw [← h3, h.basis, meshInverse_ofFn] at h4
  injection h4 with h4
  exact ⟨h5.symm, h4.symm⟩

private theorem pair_region (h : BuiltMesh ms φ ev S rows) (hp : MeshPairs ms s lam) (p q : Fin ms.N) :
    ∑ v, s p v * s q v * (if ms.region v then 1 else 0) = if p = q then lam p else 0 := by
  obtain ⟨h1, h2⟩ := pair_values h hp p
  obtain ⟨-, h3⟩ := pair_values h hp q
  have := (C50_mesh_energy_ratio ms φ ev S rows h).2.1 ⟨p, p.2.trans_le (mesh_le h)⟩ ⟨q, q.2.trans_le (mesh_le h)⟩
  rw [Finset.sum_filter] at this
  rw [h1, h2, h3]
  simp only [mul_ite, mul_one, mul_zero]
  rw [this]
  simp [Fin.ext_iff]

private theorem pair_whole (h : BuiltMesh ms φ ev S rows) (hp : MeshPairs ms s lam) (p q : Fin ms.N) :
    ∑ v, s p v * s q v * 1 = if p = q then 1 else 0 := by
  obtain ⟨-, h2⟩ := pair_values h hp p
  obtain ⟨-, h3⟩ := pair_values h hp q
  have := (C50_mesh_energy_ratio ms φ ev S rows h).1 ⟨p, p.2.trans_le (mesh_le h)⟩ ⟨q, q.2.trans_le (mesh_le h)⟩
  rw [h2, h3]
  simp only [mul_one]
  rw [this]
  simp [Fin.ext_iff]

private theorem pair_forward (h : BuiltMesh ms φ ev S rows) (hp : MeshPairs ms s lam) (u : V → ℝ) :
    slepianMeshForward ms { u := some u, mask := true } none =
      .ok (List.ofFn fun p => (∑ v, u v * s p v * if ms.region v then 1 else 0) / lam p) ∧
    slepianMeshForward ms { u := some u } none = .ok (List.ofFn fun p => (∑ v, u v * s p v * 1) / 1) := by
  refine ⟨mesh_forward h _ ⟨_, rfl⟩ _ fun p => ?_, mesh_forward h _ ⟨_, rfl⟩ _ fun p => ?_⟩
  all_goals
    obtain ⟨h1, h2⟩ := h.row ⟨p, p.2.trans_le (mesh_le h)⟩ (p.2.trans_le h.le_rows)
    obtain ⟨h3, h4⟩ := pair_values h hp p
    have := decompose_values ms φ h.basis p (by rw [h.number]; exact p.2.trans_le (mesh_le h)) _ _ h1 h2
  · rw [h3, h4]
    exact this.2.1 u
  · simp only [h4, mul_one, div_one]
    exact this.2.2 u

private theorem pair_inverse (h : BuiltMesh ms φ ev S rows) (hp : MeshPairs ms s lam) (a : Fin ms.N → ℝ) :
    slepianMeshInverse ms (List.ofFn a) = .ok fun v => ∑ p, a p * s p v := by
  rw [slepianMeshInverse_ok ms rfl φ h.basis (fun p => S ⟨p, p.2.trans_le (mesh_le h)⟩)
    (fun p => (h.row ⟨p, p.2.trans_le (mesh_le h)⟩ (p.2.trans_le h.le_rows)).1)]
  simp only [(pair_values h hp _).2]

omit [Fintype V] [DecidableEq V] in
private theorem real_diff_comb (a b : Fin ms.N → ℝ) (v : V) : (∑ p, a p * s p v) - ∑ p, b p * s p v = ∑ p, (a p - b p) * s p v := by
  rw [← Finset.sum_sub_distrib]
  exact Finset.sum_congr rfl fun p _ => by ring

omit [DecidableEq V] in
private theorem real_diff_coefficient {μ : V → ℝ} (s : V → ℝ) (f g : V → ℝ) (e : ℝ) :
    (∑ x, f x * s x * μ x) / e - (∑ x, g x * s x * μ x) / e = (∑ x, (f x - g x) * s x * μ x) / e := by
  rw [← sub_div, ← Finset.sum_sub_distrib]
  congr 1
  exact Finset.sum_congr rfl fun x _ => by ring

/-- C128. Integrating the region of a mesh: as on the sphere, for the meshes and Slepian functions that the library builds. -/
theorem C128_mesh_region (h : BuiltMesh ms φ ev S rows) (hp : MeshPairs ms s lam) (hpos : ∀ p, 0 < lam p) (f g : V → ℝ) :
    ∃ (F G : Fin ms.N → ℝ) (u u' : V → ℝ),
      slepianMeshForward ms { u := some f, mask := true } none = .ok (List.ofFn F) ∧ slepianMeshInverse ms (List.ofFn F) = .ok u ∧
      slepianMeshForward ms { u := some g, mask := true } none = .ok (List.ofFn G) ∧ slepianMeshInverse ms (List.ofFn G) = .ok u' ∧
      ∑ p, lam p * (F p - G p) ^ 2 ≤ ∑ v with ms.region v, (f v - g v) ^ 2 ∧
      ∑ v with ms.region v, (u v - u' v) ^ 2 ≤ ∑ v with ms.region v, (f v - g v) ^ 2 ∧
      (∀ least, (∀ p, least ≤ lam p) → least * ∑ v, (u v - u' v) ^ 2 ≤ ∑ v with ms.region v, (f v - g v) ^ 2) ∧
      ∀ a : Fin ms.N → ℝ, ∑ v with ms.region v, (f v - u v) ^ 2 ≤ ∑ v with ms.region v, (f v - ∑ p, a p * s p v) ^ 2 := by
  have hr : ∀ k : V → ℝ, ∑ v with ms.region v, k v = ∑ v, (if ms.region v then 1 else 0) * k v := by
    intro k
    rw [Finset.sum_filter]
    exact Finset.sum_congr rfl fun v _ => by split <;> simp
  simp only [hr]
  have hμ : ∀ v, (0 : ℝ) ≤ if ms.region v then 1 else 0 := fun v => by split <;> norm_num
  have hne : ∀ p, lam p ≠ 0 := fun p => (hpos p).ne'
  have hG := pair_region h hp
  have hW := pair_whole h hp
  have hc : ∑ p, lam p * ((∑ v, f v * s p v * if ms.region v then 1 else 0) / lam p -
      (∑ v, g v * s p v * if ms.region v then 1 else 0) / lam p) ^ 2 ≤ ∑ v, (if ms.region v then 1 else 0) * (f v - g v) ^ 2 := by
    simp only [real_diff_coefficient]
    exact Gram.real_coefficients_le hμ hne hG (fun v => f v - g v)
  refine ⟨_, _, _, _, (pair_forward h hp f).1, pair_inverse h hp _, (pair_forward h hp g).1, pair_inverse h hp _, hc, ?_,
    fun least hl => ?_, fun a => ?_⟩
  · simp only [real_diff_comb]
    rw [Gram.real_energy_eq hG]
    exact hc
  · simp only [real_diff_comb]
    have := Gram.real_energy_eq hW fun p => (∑ v, f v * s p v * if ms.region v then 1 else 0) / lam p -
      (∑ v, g v * s p v * if ms.region v then 1 else 0) / lam p
    simp only [one_mul] at this
    rw [this, Finset.mul_sum]
    exact le_trans (Finset.sum_le_sum fun p _ => mul_le_mul_of_nonneg_right (hl p) (sq_nonneg _)) hc
  · rw [Gram.real_distance hne hG f a]
    have : 0 ≤ ∑ p, lam p * ((∑ v, f v * s p v * if ms.region v then 1 else 0) / lam p - a p) ^ 2 :=
      Finset.sum_nonneg fun p _ => mul_nonneg (hpos p).le (sq_nonneg _)
    linarith

/-- C128. The factor of the region is attained on meshes. -/
theorem C128_mesh_region_attained (h : BuiltMesh ms φ ev S rows) (hp : MeshPairs ms s lam) (hpos : ∀ p, 0 < lam p) (f : V → ℝ)
    (q : Fin ms.N) (z : ℝ) :
    ∃ F : Fin ms.N → ℝ, slepianMeshForward ms { u := some f, mask := true } none = .ok (List.ofFn F) ∧
      slepianMeshForward ms { u := some fun v => f v + z * s q v, mask := true } none = .ok (List.ofFn fun p => if p = q then F p + z else F p) ∧
      ∑ v with ms.region v, (z * s q v) ^ 2 = lam q * z ^ 2 ∧ ∑ v, (z * s q v) ^ 2 = z ^ 2 := by
  have hG := pair_region h hp
  have hW := pair_whole h hp
  have hs : ∀ v, z * s q v = ∑ p, (if p = q then z else 0) * s p v := by
    intro x
    simp
  refine ⟨_, (pair_forward h hp f).1, ?_, ?_, ?_⟩
  · rw [(pair_forward h hp _).1]
    congr 2
    funext p
    have : ∑ v, (f v + z * s q v) * s p v * (if ms.region v then 1 else 0) =
        (∑ v, f v * s p v * if ms.region v then 1 else 0) + (if p = q then z else 0) * lam p := by
      rw [← Gram.real_coefficient_comb hG (fun p => if p = q then z else 0) p, ← Finset.sum_add_distrib]
      refine Finset.sum_congr rfl fun x _ => ?_
      rw [← hs]
      ring
    rw [this, add_div, mul_div_cancel_right₀ _ (hpos p).ne']
    split <;> simp
  · have := Gram.real_energy_eq hG fun p => if p = q then z else 0
    rw [Finset.sum_eq_single q (fun p _ hp => by simp [hp]) (by simp), if_pos rfl] at this
    rw [← this, Finset.sum_filter]
    refine Finset.sum_congr rfl fun v _ => ?_
    rw [← hs]
    split <;> simp
  · have := Gram.real_energy_eq hW fun p => if p = q then z else 0
    rw [Finset.sum_eq_single q (fun p _ hp => by simp [hp]) (by simp), if_pos rfl, one_mul] at this
    rw [← this]
    refine Finset.sum_congr rfl fun v _ => ?_
    rw [← hs, one_mul]

/-- C128. Integrating the whole mesh. -/
theorem C128_mesh_whole (h : BuiltMesh ms φ ev S rows) (hp : MeshPairs ms s lam) (f g : V → ℝ) :
    ∃ (F G : Fin ms.N → ℝ) (u u' : V → ℝ),
      slepianMeshForward ms { u := some f } none = .ok (List.ofFn F) ∧ slepianMeshInverse ms (List.ofFn F) = .ok u ∧
      slepianMeshForward ms { u := some g } none = .ok (List.ofFn G) ∧ slepianMeshInverse ms (List.ofFn G) = .ok u' ∧
      ∑ p, (F p - G p) ^ 2 ≤ ∑ v, (f v - g v) ^ 2 ∧ ∑ v, (u v - u' v) ^ 2 = ∑ p, (F p - G p) ^ 2 ∧
      ∀ a : Fin ms.N → ℝ, ∑ v, (f v - u v) ^ 2 ≤ ∑ v, (f v - ∑ p, a p * s p v) ^ 2 := by
  have hW := pair_whole h hp
  have hc := Gram.real_coefficients_le (fun _ => zero_le_one) (fun _ => one_ne_zero) hW (fun v => f v - g v)
  refine ⟨_, _, _, _, (pair_forward h hp f).2, pair_inverse h hp _, (pair_forward h hp g).2, pair_inverse h hp _, ?_, ?_, fun a => ?_⟩
  · simp only [real_diff_coefficient (μ := fun _ => 1)]
    simpa only [one_mul] using hc
  · simp only [real_diff_comb]
    have := Gram.real_energy_eq hW fun p => (∑ v, f v * s p v * 1) / 1 - (∑ v, g v * s p v * 1) / 1
    simpa only [one_mul] using this
  · have := Gram.real_distance (fun _ => one_ne_zero) hW f a
    simp only [one_mul] at this
    rw [this]
    have : 0 ≤ ∑ p, ((∑ v, f v * s p v * 1) / 1 - a p) ^ 2 := Finset.sum_nonneg fun p _ => sq_nonneg _
    linarith

/-- C128. Summing the harmonic coefficients of a mesh. -/
theorem C128_mesh_harmonic (h : BuiltMesh ms φ ev S rows) (a b : Fin K → ℝ) :
    ∃ F G : Fin ms.N → ℝ, slepianMeshForward ms { ui := some (List.ofFn a) } none = .ok (List.ofFn F) ∧
      slepianMeshForward ms { ui := some (List.ofFn b) } none = .ok (List.ofFn G) ∧ ∑ p, (F p - G p) ^ 2 ≤ ∑ i, (a i - b i) ^ 2 := by
  have hF : ∀ a : Fin K → ℝ, slepianMeshForward ms { ui := some (List.ofFn a) } none =
      .ok (List.ofFn fun p : Fin ms.N => (∑ i, a i * S ⟨p, p.2.trans_le (mesh_le h)⟩ i * 1) / 1) := fun a => by
    refine mesh_forward h _ ⟨_, rfl⟩ _ fun p => ?_
    obtain ⟨h1, h2⟩ := h.row ⟨p, p.2.trans_le (mesh_le h)⟩ (p.2.trans_le h.le_rows)
    simp only [mul_one, div_one]
    exact (decompose_values ms φ h.basis p (by rw [h.number]; exact p.2.trans_le (mesh_le h)) _ _ h1 h2).1 a none false
  have hG : ∀ p q : Fin ms.N, ∑ i, S ⟨p, p.2.trans_le (mesh_le h)⟩ i * S ⟨q, q.2.trans_le (mesh_le h)⟩ i * 1 = if p = q then 1 else 0 := by
    intro p q
    simp only [mul_one, h.eigen.2]
    simp [Fin.ext_iff]
  have := Gram.real_coefficients_le (fun _ => zero_le_one) (fun _ => one_ne_zero) hG (fun i => a i - b i)
  simp only [one_mul] at this
  refine ⟨_, _, hF a, hF b, ?_⟩
  simp only [real_diff_coefficient (μ := fun _ => 1)]
  exact this

end mesh

/-! ### hypotheses met -/

/-- two samples, one of them in the region: the field `(3, 5)` against `(1, 100)`. -/
example : ∃ (sl : Transform.Slepian (1 ^ 2)) (synth : (Fin (1 ^ 2) → ℂ) → Fin 2 → ℂ) (mask : Fin 2 → ℝ) (F G : Fin 1 → ℂ),
    slepianForward sl synth (fun _ => 1 / 2) { f := some ![3, 5], mask := some mask } none = .ok (List.ofFn F) ∧
    slepianForward sl synth (fun _ => 1 / 2) { f := some ![1, 100], mask := some mask } none = .ok (List.ofFn G) ∧
    ‖F 0 - G 0‖ ^ 2 ≤ 4 := by
  have h : SolvesMask (L := 1) (N := 1) ⟨1, [1 / 2], [fun _ => 1]⟩ (fun c (_ : Fin 2) => c 0 * I) (fun _ => 1 / 2) ![1, 0]
      (fun _ _ => 1) (fun _ => 1 / 2) := by
    refine ⟨rfl, by norm_num, fun p => ?_, fun p => ?_, fun p q => ?_, fun _ _ => I, fun c x => ?_, fun i j => ?_, fun p r => ?_⟩
    · fin_cases p; rfl
    · fin_cases p; rfl
    · simp [Subsingleton.elim p q]
    · exact (Fin.sum_univ_one (fun p : Fin 1 => c p * I)).symm
    · have : i = j := Fin.ext (by have := i.2; have := j.2; omega)
      simp [this]
    · simp [Fin.sum_univ_two]
  obtain ⟨F, G, -, -, h1, -, h2, -, h3, -⟩ := C128_region h (fun _ => by norm_num) (fun x => by fin_cases x <;> simp)
    (fun _ => by norm_num) ![3, 5] ![1, 100]
  refine ⟨_, _, _, F, G, h1, h2, ?_⟩
  rw [Fin.sum_univ_one, Fin.sum_univ_two] at h3
  norm_num at h3
  linarith

/-- a mesh of three vertices with two Slepian functions. -/
example : ∃ (e : MeshClasses.MEnv (Fin 3)) (F G : Fin e.slepian.N → ℝ), e.slepian.N = 2 ∧
    MeshT.slepianMeshForward e.slepian { u := some ![3, 5, 7], mask := true } none = .ok (List.ofFn F) ∧
    MeshT.slepianMeshForward e.slepian { u := some ![3, 5, 6], mask := true } none = .ok (List.ofFn G) ∧ ∑ p, (F p - G p) ^ 2 ≤ 1 := by
  obtain ⟨e, φ, S, hN, -, hg⟩ := goodMesh_exists (⟨"", false, [], ⟨0, [], fun _ => true, 0, [], []⟩, fun _ => 1, fun _ => "",
    fun K _ _ => [List.replicate K 1, List.replicate K 2], fun _ _ _ => 0, fun _ _ => 0⟩ : MeshClasses.MEnv (Fin 3))
  have hp : MeshPairs e.slepian (fun p v => ∑ i, S ⟨p, p.2.trans_le hg.le_K⟩ i * φ i v) (fun _ => 1) := by
    refine ⟨fun p => ?_, fun p => ⟨_, (hg.built.row ⟨p, p.2.trans_le hg.le_K⟩ (p.2.trans_le hg.built.le_rows)).1, ?_⟩⟩
    · rw [(hg.built.row ⟨p, p.2.trans_le hg.le_K⟩ (p.2.trans_le hg.built.le_rows)).2]
      have : (p : ℕ) < 2 := hN ▸ p.2
      obtain ⟨p, hp⟩ := p
      congr 1
      change p < 2 at this
      interval_cases p <;> rfl
    · rw [hg.built.basis, MeshT.meshInverse_ofFn]
  obtain ⟨F, G, u, u', h1, -, h2, -, h3, -⟩ := C128_mesh_region hg.built hp (fun _ => one_pos) ![3, 5, 7] ![3, 5, 6]
  refine ⟨e, F, G, hN, h1, h2, ?_⟩
  simp only [one_mul] at h3
  refine h3.trans ?_
  rw [Finset.sum_filter, Fin.sum_univ_three]
  have : (if e.slepian.region 2 = true then ((1 : ℝ)) else 0) ≤ 1 := by split <;> norm_num
  simp only [Matrix.cons_val_zero, Matrix.cons_val_one, Matrix.cons_val_two, Matrix.head_cons, Matrix.tail_cons, sub_self]
  norm_num
  exact this

end Sleplet.Props
