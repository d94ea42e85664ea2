import Verif.Spec.Convolution

/-!
Independent vocabulary: fields made of Slepian functions.
-/
namespace Sleplet.Spec

/-- `Σ_{p < N} c_p S_p`, where `S p` are the harmonic coefficients of the Slepian function of rank `p`. -/
noncomputable def slepianField {L : ℕ} (S : Fin (L ^ 2) → Fin (L ^ 2) → ℂ) (N : ℕ) (c : ℕ → ℂ) : ℝ → ℝ → ℂ := fun th ph =>
  ∑ p : Fin (L ^ 2) with p.val < N, c p * synthesis L (List.ofFn (S p)) th ph

/-- The translation of such a field to the point `(θ', φ')` used in the sifting convolution, which takes `S_p` to `S_p(θ', φ') S_p`. -/
noncomputable def slepianTranslated {L : ℕ} (S : Fin (L ^ 2) → Fin (L ^ 2) → ℂ) (N : ℕ) (c : ℕ → ℂ) (th' ph' : ℝ) : ℝ → ℝ → ℂ := fun th ph =>
  ∑ p : Fin (L ^ 2) with p.val < N, c p * (synthesis L (List.ofFn (S p)) th' ph' * synthesis L (List.ofFn (S p)) th ph)

end Sleplet.Spec
