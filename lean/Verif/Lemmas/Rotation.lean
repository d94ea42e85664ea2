import Mathlib.Analysis.InnerProductSpace.PiL2
import Verif.Lemmas.Convolution
import Verif.Spec.Rotation

/-!
Rotations of bandlimited fields: they exist, are unique and are unitary within every degree.
-/
namespace Sleplet.Gaunt

open Complex Sleplet.Spec Sleplet.LatLon

/-! ### rotations of space -/

def dot (v w : Vec) : ℝ := v.1 * w.1 + v.2.1 * w.2.1 + v.2.2 * w.2.2

theorem dot_rotZ (a : ℝ) (v w : Vec) : dot (rotZ a v) (rotZ a w) = dot v w := by
  unfold dot rotZ
  linear_combination (v.1 * w.1 + v.2.1 * w.2.1) * Real.sin_sq_add_cos_sq a

theorem dot_rotY (a : ℝ) (v w : Vec) : dot (rotY a v) (rotY a w) = dot v w := by
  unfold dot rotY
  linear_combination (v.1 * w.1 + v.2.2 * w.2.2) * Real.sin_sq_add_cos_sq a

theorem dot_euler (a b c : ℝ) (v w : Vec) : dot (euler a b c v) (euler a b c w) = dot v w := by
  unfold euler
  rw [dot_rotZ, dot_rotY, dot_rotZ]

theorem rotZ_add (a b : ℝ) (v : Vec) : rotZ a (rotZ b v) = rotZ (a + b) v := by
  unfold rotZ
  rw [Real.cos_add, Real.sin_add]
  ext <;> dsimp only <;> ring

theorem rotY_add (a b : ℝ) (v : Vec) : rotY a (rotY b v) = rotY (a + b) v := by
  unfold rotY
  rw [Real.cos_add, Real.sin_add]
  ext <;> dsimp only <;> ring

theorem rotZ_zero (v : Vec) : rotZ 0 v = v := by
  unfold rotZ; simp

theorem rotY_zero (v : Vec) : rotY 0 v = v := by
  unfold rotY; simp

theorem euler_undo (a b c : ℝ) (v : Vec) : euler (-c) (-b) (-a) (euler a b c v) = v := by
  unfold euler
  rw [rotZ_add (-a) a, neg_add_cancel, rotZ_zero, rotY_add, neg_add_cancel, rotY_zero, rotZ_add, neg_add_cancel, rotZ_zero]

theorem euler_redo (a b c : ℝ) (v : Vec) : euler a b c (euler (-c) (-b) (-a) v) = v := by
  have := euler_undo (-c) (-b) (-a) v
  rwa [neg_neg, neg_neg, neg_neg] at this

theorem dot_point (th ph th' ph' : ℝ) : dot (point th ph) (point th' ph') =
    Real.cos th * Real.cos th' + Real.sin th * Real.sin th' * Real.cos (ph - ph') := by
  unfold dot point
  rw [Real.cos_sub]
  ring

theorem dot_point_self (th ph : ℝ) : dot (point th ph) (point th ph) = 1 := by
  rw [dot_point, sub_self, Real.cos_zero]
  linear_combination Real.sin_sq_add_cos_sq th

theorem exists_point {v : Vec} (h : dot v v = 1) : ∃ th ∈ Set.Icc 0 Real.pi, ∃ ph, point th ph = v := by
  obtain ⟨x, y, z⟩ := v
  unfold dot at h
  dsimp only at h
  refine ⟨Real.arccos z, ⟨Real.arccos_nonneg z, Real.arccos_le_pi z⟩, (⟨x, y⟩ : ℂ).arg, ?_⟩
  have hn : ‖(⟨x, y⟩ : ℂ)‖ = Real.sqrt (1 - z ^ 2) := by
    rw [← Real.sqrt_sq (norm_nonneg _), ← Complex.normSq_eq_norm_sq, Complex.normSq_apply]
    congr 1
    dsimp only
    linarith
  have h1 := Complex.norm_mul_cos_arg (⟨x, y⟩ : ℂ)
  have h2 := Complex.norm_mul_sin_arg (⟨x, y⟩ : ℂ)
  unfold point
  rw [Real.sin_arccos, ← hn, h1, h2, Real.cos_arccos (by nlinarith) (by nlinarith)]

/-! ### families of vectors with the same inner products -/

theorem exists_isometry {E ι : Type*} [NormedAddCommGroup E] [InnerProductSpace ℂ E] [FiniteDimensional ℂ E] (u v : ι → E)
    (h : ∀ i j, inner ℂ (u i) (u j) = inner ℂ (v i) (v j)) (hs : Submodule.span ℂ (Set.range u) = ⊤) :
    ∃ D : E ≃ₗᵢ[ℂ] E, ∀ i, D (u i) = v i := by
  have hn : ∀ c : ι →₀ ℂ, ‖Finsupp.linearCombination ℂ u c‖ = ‖Finsupp.linearCombination ℂ v c‖ := by
    intro c
    have hi : ∀ w : ι → E, inner ℂ (Finsupp.linearCombination ℂ w c) (Finsupp.linearCombination ℂ w c) =
        ∑ i ∈ c.support, ∑ j ∈ c.support, (starRingEnd ℂ) (c i) * (c j * inner ℂ (w i) (w j)) := by
      intro w
      rw [Finsupp.linearCombination_apply]
      unfold Finsupp.sum
      rw [sum_inner]
      refine Finset.sum_congr rfl fun i _ => ?_
      rw [inner_sum]
      refine Finset.sum_congr rfl fun j _ => ?_
      rw [inner_smul_left, inner_smul_right]
    have he : inner ℂ (Finsupp.linearCombination ℂ u c) (Finsupp.linearCombination ℂ u c) =
        inner ℂ (Finsupp.linearCombination ℂ v c) (Finsupp.linearCombination ℂ v c) := by
      rw [hi, hi]
      exact Finset.sum_congr rfl fun i _ => Finset.sum_congr rfl fun j _ => by rw [h i j]
    rw [inner_self_eq_norm_sq_to_K, inner_self_eq_norm_sq_to_K] at he
    have he' : ‖Finsupp.linearCombination ℂ u c‖ ^ 2 = ‖Finsupp.linearCombination ℂ v c‖ ^ 2 := by exact_mod_cast he
    exact (sq_eq_sq₀ (norm_nonneg _) (norm_nonneg _)).1 he'
  have hr : LinearMap.range (Finsupp.linearCombination ℂ u) = ⊤ := by rw [Finsupp.range_linearCombination, hs]
  obtain ⟨g, hg⟩ := LinearMap.exists_rightInverse_of_surjective _ hr
  have hg' : ∀ w, Finsupp.linearCombination ℂ u (g w) = w := fun w => LinearMap.congr_fun hg w
  let D : E →ₗᵢ[ℂ] E := ⟨Finsupp.linearCombination ℂ v ∘ₗ g, fun w => by
    change ‖Finsupp.linearCombination ℂ v (g w)‖ = ‖w‖
    rw [← hn, hg']⟩
  refine ⟨D.toLinearIsometryEquiv rfl, fun i => ?_⟩
  change Finsupp.linearCombination ℂ v (g (u i)) = v i
  have h0 : Finsupp.linearCombination ℂ u (g (u i) - Finsupp.single i 1) = 0 := by
    rw [map_sub, hg', Finsupp.linearCombination_single, one_smul, sub_self]
  have h1 := hn (g (u i) - Finsupp.single i 1)
  rw [h0, norm_zero] at h1
  have h2 := norm_eq_zero.1 h1.symm
  rw [map_sub, Finsupp.linearCombination_single, one_smul] at h2
  exact sub_eq_zero.1 h2

/-! ### one degree -/

/-- the values at a point of the harmonics of degree `l`. -/
noncomputable def values (l : ℕ) (th ph : ℝ) : EuclideanSpace ℂ (Fin (2 * l + 1)) :=
  WithLp.toLp 2 fun k : Fin (2 * l + 1) => harm (l ^ 2 + k) th ph

theorem ind2elm_degree (l : ℕ) (k : Fin (2 * l + 1)) : ind2elm (l ^ 2 + k) = (l, (k : ℤ) - l) := by
  have hk := k.2
  have h : |((k : ℕ) : ℤ) - l| ≤ l := by rw [abs_le]; omega
  have h1 : elm2ind l ((k : ℕ) - l : ℤ) = l ^ 2 + k := by
    rw [← index_eq h]
    have : (l : ℤ) ^ 2 = ((l ^ 2 : ℕ) : ℤ) := by push_cast; ring
    omega
  rw [← h1]
  exact ind2elm_elm2ind h

/-- the orders of a degree. -/
theorem sum_orders {M : Type*} [AddCommMonoid M] (l : ℕ) (F : ℤ → M) :
    ∑ m ∈ Finset.Icc (-(l : ℤ)) l, F m = ∑ k : Fin (2 * l + 1), F ((k : ℤ) - l) := by
  rw [Fin.sum_univ_eq_sum_range (fun k : ℕ => F ((k : ℤ) - l))]
  symm
  refine Finset.sum_bij (fun (k : ℕ) _ => (k : ℤ) - l) ?_ ?_ ?_ ?_
  · intro k hk
    rw [Finset.mem_range] at hk
    rw [Finset.mem_Icc]; omega
  · intro a _ b _ hab; omega
  · intro m hm
    rw [Finset.mem_Icc] at hm
    exact ⟨(m + l).toNat, by rw [Finset.mem_range]; omega, by omega⟩
  · intro k _; rfl

theorem inner_values (l : ℕ) {th th' : ℝ} (h : th ∈ Set.Icc 0 Real.pi) (h' : th' ∈ Set.Icc 0 Real.pi) (ph ph' : ℝ) :
    inner ℂ (values l th ph) (values l th' ph') =
      (((2 * l + 1) / (4 * Real.pi) * assocLegendre l 0 (dot (point th' ph') (point th ph)) : ℝ) : ℂ) := by
  rw [dot_point, ← sphHarm_addition l h' h ph' ph, sum_orders]
  rw [PiLp.inner_apply]
  refine Finset.sum_congr rfl fun k _ => ?_
  simp only [values, RCLike.inner_apply, harm, ind2elm_degree]

theorem continuous_values (l : ℕ) (k : Fin (2 * l + 1)) : Continuous fun x : ℝ × ℝ => harm (l ^ 2 + k) x.1 x.2 := continuous_harm _

theorem span_values {ι : Type*} (l : ℕ) (q : ι → ℝ × ℝ) (hq : ∀ th ∈ Set.Icc 0 Real.pi, ∀ ph, ∃ i, values l (q i).1 (q i).2 = values l th ph) :
    Submodule.span ℂ (Set.range fun i => values l (q i).1 (q i).2) = ⊤ := by
  rw [← Submodule.orthogonal_eq_bot_iff, Submodule.eq_bot_iff]
  intro w hw
  have h0 : ∀ th ∈ Set.Icc 0 Real.pi, ∀ ph, ∑ k : Fin (2 * l + 1), (starRingEnd ℂ) (w k) * harm (l ^ 2 + k) th ph = 0 := by
    intro th hth ph
    obtain ⟨i, hi⟩ := hq th hth ph
    have := (Submodule.mem_orthogonal' _ _).1 hw (values l (q i).1 (q i).2) (Submodule.subset_span ⟨i, rfl⟩)
    rw [hi, PiLp.inner_apply] at this
    rw [← this]
    refine Finset.sum_congr rfl fun k _ => ?_
    simp only [values, RCLike.inner_apply]
    ring
  have h1 : sphereInner (fun th ph => ∑ k : Fin (2 * l + 1), (starRingEnd ℂ) (w k) * harm (l ^ 2 + k) th ph)
      (fun th ph => ∑ k : Fin (2 * l + 1), (starRingEnd ℂ) (w k) * harm (l ^ 2 + k) th ph) = 0 := by
    rw [sphereInner_congr (f' := fun _ _ => 0) (g' := fun _ _ => 0) h0 h0]
    unfold sphereInner surface
    simp
  have h2 : sphereInner (fun th ph => ∑ k : Fin (2 * l + 1), (starRingEnd ℂ) (w k) * harm (l ^ 2 + k) th ph)
      (fun th ph => ∑ k : Fin (2 * l + 1), (starRingEnd ℂ) (w k) * harm (l ^ 2 + k) th ph) = ((∑ k, ‖w k‖ ^ 2 : ℝ) : ℂ) := by
    unfold sphereInner
    rw [surface_synth (fun k : Fin (2 * l + 1) => harm (l ^ 2 + k)) (fun k => continuous_harm _), ofReal_sum]
    refine Finset.sum_congr rfl fun r _ => ?_
    have : ∀ c : Fin (2 * l + 1), surface 0 Real.pi 0 (2 * Real.pi) (fun th ph => harm (l ^ 2 + c) th ph * (starRingEnd ℂ) (harm (l ^ 2 + r) th ph)) *
        (starRingEnd ℂ) (w c) = if c = r then (starRingEnd ℂ) (w c) else 0 := by
      intro c
      have h := harm_orthonormal (l ^ 2 + c) (l ^ 2 + r)
      unfold sphereInner at h
      rw [h]
      by_cases hcr : c = r
      · simp [hcr]
      · have : ¬ l ^ 2 + (c : ℕ) = l ^ 2 + r := fun h => hcr (Fin.ext (by omega))
        rw [if_neg this, if_neg hcr, zero_mul]
    rw [Finset.sum_congr rfl fun c _ => this c]
    simp only [Finset.sum_ite_eq', Finset.mem_univ, if_true, conj_conj]
    rw [Complex.mul_conj, Complex.normSq_eq_norm_sq]
  rw [h1] at h2
  have h3 : ∑ k, ‖w k‖ ^ 2 = 0 := by exact_mod_cast h2.symm
  rw [Finset.sum_eq_zero_iff_of_nonneg (fun _ _ => sq_nonneg _)] at h3
  ext k
  have := h3 k (Finset.mem_univ k)
  simpa using this

/-! ### all degrees -/

/-- unitary maps of the degrees. -/
abbrev Unitaries := ∀ l : ℕ, EuclideanSpace ℂ (Fin (2 * l + 1)) ≃ₗᵢ[ℂ] EuclideanSpace ℂ (Fin (2 * l + 1))

/-- the coefficients of degree `l`, conjugated. -/
noncomputable def degreePart (c : List ℂ) (l : ℕ) : EuclideanSpace ℂ (Fin (2 * l + 1)) :=
  WithLp.toLp 2 fun k : Fin (2 * l + 1) => (starRingEnd ℂ) (c.getD (l ^ 2 + k) 0)

theorem order_lt (i : ℕ) : i - (ind2elm i).1 ^ 2 < 2 * (ind2elm i).1 + 1 := by
  have h := ind2elm_abs_le i
  have h2 := index_eq h
  rw [elm2ind_ind2elm] at h2
  rw [abs_le] at h
  have : ((ind2elm i).1 : ℤ) ^ 2 = (((ind2elm i).1 ^ 2 : ℕ) : ℤ) := by push_cast; ring
  omega

noncomputable def rotEntry (U : Unitaries) (c : List ℂ) (i : ℕ) : ℂ :=
  (starRingEnd ℂ) (U (ind2elm i).1 (degreePart c (ind2elm i).1) ⟨i - (ind2elm i).1 ^ 2, order_lt i⟩)

noncomputable def rotList (U : Unitaries) (L : ℕ) (c : List ℂ) : List ℂ := (List.range (L ^ 2)).map (rotEntry U c)

theorem rotList_length (U : Unitaries) (L : ℕ) (c : List ℂ) : (rotList U L c).length = L ^ 2 := by simp [rotList]

theorem degree_lt {L l : ℕ} (hl : l < L) (k : Fin (2 * l + 1)) : l ^ 2 + k < L ^ 2 := by
  have := k.2
  nlinarith

theorem rotList_getD (U : Unitaries) {L l : ℕ} (hl : l < L) (c : List ℂ) (k : Fin (2 * l + 1)) :
    (rotList U L c).getD (l ^ 2 + k) 0 = (starRingEnd ℂ) (U l (degreePart c l) k) := by
  have hi := degree_lt hl k
  have h1 : (rotList U L c).getD (l ^ 2 + k) 0 = rotEntry U c (l ^ 2 + k) := by
    unfold rotList
    simp [List.getD_eq_getElem?_getD, hi]
  rw [h1, rotEntry]
  congr 1
  have h2 : (ind2elm (l ^ 2 + k)).1 = l := by rw [ind2elm_degree]
  have : ∀ (a : ℕ) (ha : a = l) (hb : l ^ 2 + (k : ℕ) - a ^ 2 < 2 * a + 1),
      U a (degreePart c a) ⟨l ^ 2 + k - a ^ 2, hb⟩ = U l (degreePart c l) k := by
    intro a ha hb
    subst ha
    have e : (⟨a ^ 2 + k - a ^ 2, hb⟩ : Fin (2 * a + 1)) = k := Fin.ext (Nat.add_sub_cancel_left _ _)
    rw [e]
  exact this _ h2 _

theorem degreePart_rotList (U : Unitaries) {L l : ℕ} (hl : l < L) (c : List ℂ) :
    degreePart (rotList U L c) l = U l (degreePart c l) := by
  ext k
  unfold degreePart
  simp only
  rw [rotList_getD U hl, conj_conj]
  rfl

theorem synthesis_degrees (L : ℕ) (c : List ℂ) (th ph : ℝ) :
    synthesis L c th ph = ∑ l ∈ Finset.range L, inner ℂ (degreePart c l) (values l th ph) := by
  unfold synthesis
  refine Finset.sum_congr rfl fun l _ => ?_
  rw [sum_orders, PiLp.inner_apply]
  refine Finset.sum_congr rfl fun k _ => ?_
  simp only [values, degreePart, RCLike.inner_apply, conj_conj, harm, ind2elm_degree]
  have : ((l : ℤ) ^ 2 + l + ((k : ℕ) - l)).toNat = l ^ 2 + (k : ℕ) := by
    have : (l : ℤ) ^ 2 = ((l ^ 2 : ℕ) : ℤ) := by push_cast; ring
    omega
  rw [this]
  ring

/-- every rotation of space is realised. -/
theorem exists_unitaries (R Q : Vec → Vec) (hR : ∀ v w, dot (R v) (R w) = dot v w) (hQ : ∀ v w, dot (Q v) (Q w) = dot v w)
    (hRQ : ∀ v, R (Q v) = v) : ∃ U : Unitaries, ∀ (L : ℕ) (c : List ℂ), IsMoved R (synthesis L c) (synthesis L (rotList U L c)) := by
  let ι := {p : (ℝ × ℝ) × (ℝ × ℝ) // p.1.1 ∈ Set.Icc 0 Real.pi ∧ p.2.1 ∈ Set.Icc 0 Real.pi ∧
    point p.2.1 p.2.2 = R (point p.1.1 p.1.2)}
  have hU : ∀ l, ∃ U : EuclideanSpace ℂ (Fin (2 * l + 1)) ≃ₗᵢ[ℂ] EuclideanSpace ℂ (Fin (2 * l + 1)),
      ∀ i : ι, U (values l i.1.2.1 i.1.2.2) = values l i.1.1.1 i.1.1.2 := by
    intro l
    refine exists_isometry _ _ (fun i j => ?_) (span_values l (fun i : ι => i.1.2) fun th hth ph => ?_)
    · rw [inner_values l i.2.2.1 j.2.2.1, inner_values l i.2.1 j.2.1, i.2.2.2, j.2.2.2, hR]
    · obtain ⟨th', hth', ph', h⟩ := exists_point (v := Q (point th ph)) (by rw [hQ, dot_point_self])
      exact ⟨⟨((th', ph'), (th, ph)), hth', hth, by rw [h, hRQ]⟩, rfl⟩
  choose U hU using hU
  refine ⟨fun l => (U l).symm, fun L c th hth ph th' hth' ph' h => ?_⟩
  rw [synthesis_degrees, synthesis_degrees]
  refine Finset.sum_congr rfl fun l hl => ?_
  rw [Finset.mem_range] at hl
  rw [degreePart_rotList _ hl, ← hU l ⟨((th, ph), (th', ph')), hth, hth', h⟩]
  rw [LinearIsometryEquiv.inner_map_eq_flip, LinearIsometryEquiv.symm_symm]

/-- the coefficients of a field are determined by it. -/
theorem synthesis_injective {L : ℕ} {c d : List ℂ} (hc : c.length = L ^ 2) (hd : d.length = L ^ 2)
    (h : ∀ th ∈ Set.Icc 0 Real.pi, ∀ ph, synthesis L c th ph = synthesis L d th ph) : c = d := by
  have key : ∀ (e : List ℂ) (i : Fin (L ^ 2)), sphereInner (synthesis L e) (synthesis L (List.ofFn fun j : Fin (L ^ 2) => if j = i then (1 : ℂ) else 0)) =
      e.getD i 0 := by
    intro e i
    rw [inner_synthesis, Finset.sum_eq_single i]
    · simp [List.getD_eq_getElem?_getD]
    · intro j _ hj
      simp [List.getD_eq_getElem?_getD, hj]
    · simp
  refine List.ext_getElem (by rw [hc, hd]) fun i h1 h2 => ?_
  have hi : i < L ^ 2 := by omega
  have e1 := key c ⟨i, hi⟩
  rw [sphereInner_congr h (fun _ _ _ => rfl), key d ⟨i, hi⟩] at e1
  rw [List.getD_eq_getElem _ _ h1, List.getD_eq_getElem _ _ h2] at e1
  exact e1.symm

theorem moved_unique {R Q : Vec → Vec} (hQ : ∀ v w, dot (Q v) (Q w) = dot v w) (hRQ : ∀ v, R (Q v) = v) {L : ℕ} {f : ℝ → ℝ → ℂ}
    {c d : List ℂ} (hc : c.length = L ^ 2) (hd : d.length = L ^ 2) (h1 : IsMoved R f (synthesis L c)) (h2 : IsMoved R f (synthesis L d)) :
    c = d := by
  refine synthesis_injective hc hd fun th hth ph => ?_
  obtain ⟨th', hth', ph', h⟩ := exists_point (v := Q (point th ph)) (by rw [hQ, dot_point_self])
  have hp : point th ph = R (point th' ph') := by rw [h, hRQ]
  rw [h1 th' hth' ph' th hth ph hp, h2 th' hth' ph' th hth ph hp]

end Sleplet.Gaunt
