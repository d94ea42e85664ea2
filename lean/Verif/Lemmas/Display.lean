import Mathlib.Order.Bounds.Basic
import Verif.Props.Upsampling

/-!
What `PlotSphere` shows of an upsampled field, entry by entry.
-/
namespace Sleplet.Plot

open Sleplet.Props (at2 prepareField_ok at2_rows C43_closing C43_masking)

theorem at2_closedRows {α : Type} {a b : ℕ} (F : Fin a → Fin (b + 1) → α) (t : Fin a) :
    (∀ p : Fin (b + 1), at2 (closedRows F) t p = some (F t p)) ∧ at2 (closedRows F) t (b + 1) = some (F t 0) := by
  have h : (closedRows F)[(t : ℕ)]? = some (List.ofFn (F t) ++ [F t 0]) := by simp [closedRows]
  constructor
  · intro p
    simp only [at2, h, Option.bind_some]
    rw [List.getElem?_append_left (by rw [List.length_ofFn]; exact p.isLt), List.getElem?_ofFn, dif_pos p.isLt]
  · simp only [at2, h, Option.bind_some]
    rw [List.getElem?_append_right (by simp)]
    simp

/-- the largest absolute value is that of the smallest or of the largest value. -/
theorem greatest_abs {ι : Type} (F : ι → ℝ) (mn mx : ℝ) (h1 : ∃ i, F i = mn) (h2 : ∃ i, F i = mx)
    (h : ∀ i, mn ≤ F i ∧ F i ≤ mx) : IsGreatest (Set.range fun i => |F i|) (max |mn| |mx|) := by
  obtain ⟨i, rfl⟩ := h1
  obtain ⟨j, rfl⟩ := h2
  constructor
  · rcases max_choice |F i| |F j| with h' | h' <;> rw [h']
    · exact ⟨i, rfl⟩
    · exact ⟨j, rfl⟩
  · rintro _ ⟨k, rfl⟩
    obtain ⟨a1, a2⟩ := h k
    simp only
    rcases abs_cases (F k) with ⟨h, _⟩ | ⟨h, _⟩
    · rw [h]; exact le_max_of_le_right (a2.trans (le_abs_self _))
    · rw [h]; exact le_max_of_le_left ((neg_le_neg a1).trans (neg_le_abs _))

/-- the field before the meridian is closed, given what normalisation does to the values. -/
theorem prepare_scaled (forward : ℕ → List (List ℂ) → List ℂ) (inverse : ℕ → List ℂ → List (List ℂ)) (s : SphereSettings)
    (f : List (List ℂ)) {a b : ℕ} (B : Fin a → Fin b → ℂ)
    (hB : boostField forward inverse f s.L s.resolution s.upsample = .ok (rows B)) (g : ℂ → ℝ)
    (hg : plotTypeFun s.plotType = .ok g) (scale : ℝ → ℝ)
    (hs : normaliseFunction (rows fun t p => g (B t p)).flatten s.normalise =
      .ok ((rows fun t p => g (B t p)).flatten.map fun x => some (scale x))) :
    prepareField forward inverse s f = .ok (some (rows fun t p => scale (g (B t p)))) := by
  have e : (rows B).map (fun r => r.map g) = rows fun t p => g (B t p) := by
    simp only [rows, List.map_ofFn, Function.comp_def]
  have e2 : ((rows fun t p => g (B t p)).flatten.map fun x => some (scale x)) =
      ((rows fun t p => g (B t p)).flatten.map scale).map some := by
    rw [List.map_map]; rfl
  simp only [prepareField, hB, hg, bind, Except.bind, e, hs, e2, mapM_id_map_some, pure, Except.pure, Option.map_some, unflatten_map]
  simp only [rows, List.map_ofFn, Function.comp_def]

/-- The plot of a field whose upsampled samples are `B`: each colour is `scale` of the part asked for, or 'unseen' outside the region;
the last meridian repeats the first; and the range of the colours. -/
theorem execute_spec (forward : ℕ → List (List ℂ) → List ℂ) (inverse : ℕ → List ℂ → List (List ℂ)) (s : SphereSettings)
    (f : List (List ℂ)) (R : ℕ) (hR : 1 ≤ R) (hsR : s.resolution = R) (B : Fin (R + 1) → Fin (2 * R) → ℂ)
    (hB : boostField forward inverse f s.L s.resolution s.upsample = .ok (rows B)) (g : ℂ → ℝ)
    (hg : plotTypeFun s.plotType = .ok g) (scale : ℝ → ℝ)
    (hs : normaliseFunction (rows fun t p => g (B t p)).flatten s.normalise =
      .ok ((rows fun t p => g (B t p)).flatten.map fun x => some (scale x)))
    (M : Fin (R + 1) → Fin (2 * R) → Bool) (hM : ∀ mask, s.mask = some mask → mask R = rows M) :
    ∃ fig A, executeSphere forward inverse s f = .ok (some fig) ∧ fig.colours.length = R + 1 ∧
      (∀ (t : Fin (R + 1)) (p : Fin (2 * R)),
        at2 fig.colours t p = some (if s.mask.isNone || M t p then scale (g (B t p)) else sphereUnseen)) ∧
      (∀ t : Fin (R + 1), at2 fig.colours t (2 * R) = at2 fig.colours t 0) ∧
      IsGreatest (Set.range fun x : Fin (R + 1) × Fin (2 * R) => |scale (g (B x.1 x.2))|) A ∧
      fig.cmin = (if s.normalise then 0 else -(s.amplitude.getD A)) ∧ fig.cmax = (if s.normalise then 1 else s.amplitude.getD A) := by
  obtain ⟨b, hb⟩ : ∃ b, 2 * R = b + 1 := ⟨2 * R - 1, by omega⟩
  have hp := prepare_scaled forward inverse s f B hB g hg scale hs
  clear hs hB
  revert B M
  rw [hb]
  intro B M hM hp
  obtain ⟨S, hS, hS1, h1, h2, h3⟩ := C43_closing R hb fun t p => scale (g (B t p))
  have hgr := greatest_abs (fun x : Fin (R + 1) × Fin (b + 1) => scale (g (B x.1 x.2))) S.vmin S.vmax
    (by obtain ⟨t, p, h⟩ := h1; exact ⟨(t, p), h⟩) (by obtain ⟨t, p, h⟩ := h2; exact ⟨(t, p), h⟩) (fun x => h3 x.1 x.2)
  have htick : createTickMark S.vmin S.vmax s.amplitude = s.amplitude.getD (max |S.vmin| |S.vmax|) := by cases s.amplitude <;> rfl
  have hclosed : ∀ F : Fin (R + 1) → Fin (b + 1) → ℝ, (closedRows F).length = R + 1 ∧
      ∀ t : Fin (R + 1), at2 (closedRows F) t (b + 1) = at2 (closedRows F) t 0 := by
    intro F
    refine ⟨by simp [closedRows], fun t => ?_⟩
    rw [(at2_closedRows F t).2]
    exact ((at2_closedRows F t).1 0).symm
  cases hm : s.mask with
  | none =>
    refine ⟨⟨S.fPlot, if s.normalise then 0 else -createTickMark S.vmin S.vmax s.amplitude,
      if s.normalise then 1 else createTickMark S.vmin S.vmax s.amplitude⟩, _, ?_, ?_, ?_, ?_, hgr, ?_, ?_⟩
    · simp only [executeSphere, hp, bind, Except.bind, hsR, hS, hm, pure, Except.pure]
    · rw [hS1]; exact (hclosed _).1
    · intro t p
      rw [hS1, (at2_closedRows _ t).1 p]
      simp
    · rw [hS1]; exact (hclosed _).2
    · rw [htick]
    · rw [htick]
  | some mask =>
    have hw := C43_masking R hb (fun t p => scale (g (B t p))) M
    refine ⟨⟨closedRows fun t p => if M t p then scale (g (B t p)) else sphereUnseen,
      if s.normalise then 0 else -createTickMark S.vmin S.vmax s.amplitude,
      if s.normalise then 1 else createTickMark S.vmin S.vmax s.amplitude⟩, _, ?_, (hclosed _).1, ?_, (hclosed _).2, hgr, ?_, ?_⟩
    · simp only [executeSphere, hp, bind, Except.bind, hsR, hS, hm, hM mask hm, hS1, hw, pure, Except.pure]
    · intro t p
      rw [(at2_closedRows _ t).1 p]
      simp
    · rw [htick]
    · rw [htick]

end Sleplet.Plot
