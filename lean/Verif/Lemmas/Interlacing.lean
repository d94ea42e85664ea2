import Verif.Lemmas.CompareConcentration

/-! Numbers of a concentration problem among fewer fields. -/
namespace Sleplet

open Spec

variable {𝕜 X : Type*} [RCLike 𝕜] [AddCommGroup X] [Module 𝕜 X]
variable {V V' : Set X} {inner : X → X → 𝕜} {R R' : X → ℝ} {n n' : ℕ} {s : Fin n → X} {e : Fin n → ℝ} {s' : Fin n' → X} {e' : Fin n' → ℝ}

/-- more fields than conditions: some combination satisfies them all. -/
theorem exists_zero {k : ℕ} (A : Fin (k + 1) → Fin k → 𝕜) : ∃ b : Fin (k + 1) → 𝕜, b ≠ 0 ∧ ∀ j, ∑ i, b i * A i j = 0 := by
  let T : (Fin (k + 1) → 𝕜) →ₗ[𝕜] (Fin k → 𝕜) :=
    { toFun := fun b j => ∑ i, b i * A i j
      map_add' := fun b c => by
        funext j
        simp only [Pi.add_apply, add_mul, Finset.sum_add_distrib]
      map_smul' := fun r b => by
        funext j
        simp only [Pi.smul_apply, smul_eq_mul, RingHom.id_apply, Finset.mul_sum, mul_assoc] }
  have hker : LinearMap.ker T ≠ ⊥ := LinearMap.ker_ne_bot_of_finrank_lt (by simp)
  obtain ⟨b, hb, hne⟩ := Submodule.exists_mem_ne_zero_of_ne_bot hker
  exact ⟨b, hne, fun j => congrFun (LinearMap.mem_ker.1 hb) j⟩

/-- if fields of one problem satisfying `d` linear conditions are fields of another with no less energy in its region, the numbers of
the first, moved by `d` places, are no greater than those of the second. -/
theorem interlacing_conditions (h : BestConcentrated V inner R s e) (h' : BestConcentrated V' inner R' s' e') (hV' : LinearOn V' inner)
    (hsub : V ⊆ V') {d : ℕ} (ℓ : Fin d → X → 𝕜)
    (hℓ : ∀ (j : Fin d) (m : ℕ) (a : Fin m → 𝕜) (u : Fin m → X), (∀ i, u i ∈ V') → ℓ j (∑ i, a i • u i) = ∑ i, a i * ℓ j (u i))
    (hcut : ∀ f ∈ V', (∀ j, ℓ j f = 0) → f ∈ V ∧ R' f ≤ R f)
    (k : ℕ) (hk : k < n) (hk' : k + d < n') : e' ⟨k + d, hk'⟩ ≤ e ⟨k, hk⟩ := by
  have hlt : ∀ i : Fin (k + d + 1), (i : ℕ) < n' := fun i => by omega
  let c : Fin (k + d) → X → 𝕜 := fun j f => if hj : j.val < k then inner f (s ⟨j, by omega⟩) else ℓ ⟨j - k, by omega⟩ f
  obtain ⟨b, hb, hz⟩ := exists_zero fun (i : Fin (k + d + 1)) j => c j (s' ⟨i, hlt i⟩)
  obtain ⟨hm, -, h2, hpos⟩ := h'.comb hV' (fun i : Fin (k + d + 1) => ⟨i, hlt i⟩) (fun i j hij => Fin.ext (by simpa using hij)) b hb
  set f := ∑ i, b i • s' ⟨i, hlt i⟩ with hf
  have hperp : ∀ j, c j f = 0 := by
    intro j
    rw [← hz j]
    dsimp only [c]
    split
    · exact hV'.lin _ _ _ (fun i => h'.mem _) (hsub (h.mem _))
    · exact hℓ _ _ _ _ fun i => h'.mem _
  have hfV := hcut f hm fun j => by
    have := hperp ⟨k + j, by omega⟩
    simpa [c] using this
  have hlow := h'.lower hm (e' ⟨k + d, hk'⟩) fun p => by
    by_cases hp : (p : ℕ) ≤ k + d
    · exact Or.inr (h'.antitone (by rw [Fin.le_def]; exact hp))
    · exact Or.inl (h2 p fun i hi => hp (by rw [← hi]; show (i : ℕ) ≤ k + d; omega))
  have hup := h.best ⟨k, hk⟩ f hfV.1 fun p hp => by
    have hp' : (p : ℕ) < k := hp
    have := hperp ⟨p, by omega⟩
    simpa [c, hp'] using this
  have := hfV.2
  by_contra hlt'
  push Not at hlt'
  have := mul_lt_mul_of_pos_right hlt' hpos
  linarith

/-- if `d` conditions single out the fields of one problem among those of another, the numbers are moved by at most `d` places. -/
theorem interlacing (h : BestConcentrated V inner R s e) (h' : BestConcentrated V' inner R s' e') (hV' : LinearOn V' inner) (hsub : V ⊆ V')
    {d : ℕ} (g : Fin d → X) (hg : ∀ j, g j ∈ V') (hcut : ∀ f ∈ V', (∀ j, inner f (g j) = 0) → f ∈ V)
    (k : ℕ) (hk : k < n) (hk' : k + d < n') : e' ⟨k + d, hk'⟩ ≤ e ⟨k, hk⟩ :=
  interlacing_conditions h h' hV' hsub (fun j f => inner f (g j)) (fun j m a u hu => hV'.lin a u (g j) hu (hg j))
    (fun f hf hz => ⟨hcut f hf hz, le_rfl⟩) k hk hk'

/-- the numbers of a region covered by two others. -/
theorem cover_numbers {R'' : X → ℝ} {n'' : ℕ} {s'' : Fin n'' → X} {e'' : Fin n'' → ℝ} (h : BestConcentrated V inner R s e)
    (h' : BestConcentrated V inner R' s' e') (h'' : BestConcentrated V inner R'' s'' e'') (hV : LinearOn V inner)
    (hR : ∀ f ∈ V, R'' f ≤ R f + R' f) (j k : ℕ) (hj : j < n) (hk : k < n') (hjk : j + k < n'') :
    e'' ⟨j + k, hjk⟩ ≤ e ⟨j, hj⟩ + e' ⟨k, hk⟩ := by
  have hlt : ∀ i : Fin (j + k + 1), (i : ℕ) < n'' := fun i => by omega
  let c : Fin (j + k) → X := fun i => if hi : i.val < j then s ⟨i, by omega⟩ else s' ⟨i - j, by omega⟩
  have hc : ∀ i, c i ∈ V := by
    intro i
    dsimp only [c]
    split
    · exact h.mem _
    · exact h'.mem _
  obtain ⟨b, hb, hperp⟩ := exists_perp hV (fun i : Fin (j + k + 1) => s'' ⟨i, hlt i⟩) c (fun i => h''.mem _) hc
  obtain ⟨hm, -, h2, hpos⟩ := h''.comb hV (fun i : Fin (j + k + 1) => ⟨i, hlt i⟩) (fun i j hij => Fin.ext (by simpa using hij)) b hb
  set f := ∑ i, b i • s'' ⟨i, hlt i⟩ with hf
  have hlow := h''.lower hm (e'' ⟨j + k, hjk⟩) fun p => by
    by_cases hp : (p : ℕ) ≤ j + k
    · exact Or.inr (h''.antitone (by rw [Fin.le_def]; exact hp))
    · exact Or.inl (h2 p fun i hi => hp (by rw [← hi]; show (i : ℕ) ≤ j + k; omega))
  have hup := h.best ⟨j, hj⟩ f hm fun p hp => by
    have hp' : (p : ℕ) < j := hp
    have := hperp ⟨p, by omega⟩
    simpa [c, hp'] using this
  have hup' := h'.best ⟨k, hk⟩ f hm fun p hp => by
    have hp' : (p : ℕ) < k := hp
    have := hperp ⟨j + p, by omega⟩
    simpa [c] using this
  have := hR f hm
  by_contra hlt'
  push Not at hlt'
  have := mul_lt_mul_of_pos_right hlt' hpos
  linarith

/-- likewise for the sums of the greatest of them. -/
theorem cover_sums {R'' : X → ℝ} {s s' s'' : Fin n → X} {e e' e'' : Fin n → ℝ} (h : BestConcentrated V inner R s e)
    (h' : BestConcentrated V inner R' s' e') (h'' : BestConcentrated V inner R'' s'' e'')
    (hR : ∀ f ∈ V, R'' f ≤ R f + R' f) (k : ℕ) (hk : k ≤ n) :
    ∑ p : Fin n with p.val < k, e'' p ≤ (∑ p : Fin n with p.val < k, e p) + ∑ p : Fin n with p.val < k, e' p := by
  have e1 : ∑ p : Fin n with p.val < k, e'' p = ∑ i : Fin k, R'' (s'' (i.castLE hk)) := by
    refine (Finset.sum_bij (fun (i : Fin k) _ => i.castLE hk) (fun i _ => ?_) (fun i _ j _ hij => ?_) (fun p hp => ?_) (fun i _ => ?_)).symm
    · simp
    · exact Fin.castLE_injective hk hij
    · exact ⟨⟨p, by simpa using hp⟩, Finset.mem_univ _, rfl⟩
    · exact h''.attained _
  have orth : ∀ i j : Fin k, inner (s'' (i.castLE hk)) (s'' (j.castLE hk)) = if i = j then (1 : 𝕜) else 0 := by
    intro i j
    rw [h''.orthonormal]
    simp [Fin.ext_iff]
  have a := h.family k (fun i => s'' (i.castLE hk)) (fun i => h''.mem _) orth
  have b := h'.family k (fun i => s'' (i.castLE hk)) (fun i => h''.mem _) orth
  have c : ∑ i : Fin k, R'' (s'' (i.castLE hk)) ≤ ∑ i : Fin k, (R (s'' (i.castLE hk)) + R' (s'' (i.castLE hk))) :=
    Finset.sum_le_sum fun i _ => hR _ (h''.mem _)
  rw [Finset.sum_add_distrib] at c
  rw [e1]
  linarith

end Sleplet
