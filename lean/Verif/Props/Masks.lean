import Verif.Model.Classes
import Verif.Model.Masks
import Verif.Lemmas.Names

/-!
C73: named masks: what they are, and that it does not matter what was loaded before.
-/
namespace Sleplet.Props

open Masks

/-- The samples within `cap` degrees of the pole whose elevation is not negative after turning the Earth by the three angles. -/
def LandWithin (S : Sphere) (L : ℕ) (flm : List ℂ) (alpha beta gamma cap : ℝ) (m : Mask) : Prop :=
  m.shape = S.shape L ∧ ∀ i j, m.val i j = true ↔
    (S.theta L i j ≤ cap * Real.pi / 180 ∧
      0 ≤ S.inverseReal L (S.rotate L flm (alpha * Real.pi / 180) (beta * Real.pi / 180) (gamma * Real.pi / 180)) i j)

/-- `m` is the mask of that name, if the name is that of a continent. -/
def IsContinent (S : Sphere) (x : String) (L : ℕ) (m : Mask) : Prop :=
  ∀ flm, earth S L none = .ok flm →
    (x = "africa" → LandWithin S L flm 44 87 341 41 m) ∧ (x = "south_america" → LandWithin S L flm 54 108 63 40 m)

/-- the file of a mask. -/
def maskFile (x : String) (L : ℕ) : String := "slepian_masks_" ++ (x ++ "_L" ++ toString L ++ ".npy")

/-- The files named after continents hold their masks (for instance, there are none). -/
def MasksConsistent (S : Sphere) (st : Store) : Prop :=
  ∀ x L m, (st.published (maskFile x L) = some m ∨ st.user (maskFile x L) = some m) → IsContinent S x L m

/-- What happens to the files: a region's mask is made, or the user puts a mask there. -/
inductive MaskStep
  | make (L : ℕ) (r : Region.Obj)
  | put (x : String) (L : ℕ) (m : Mask)

/-- The files after a step. -/
noncomputable def maskStep (S : Sphere) (st : Store) : MaskStep → Store
  | .make L r => match maskRegion S L r st with
    | .ok (_, st') => st'
    | .error _ => st
  | .put x L m => { st with user := fun n => if n = maskFile x L then some m else st.user n }

/-- The user's own masks are not called after continents. -/
def OwnName : MaskStep → Prop
  | .make _ _ => True
  | .put x _ _ => x ≠ "africa" ∧ x ≠ "south_america"

private theorem str_append_cancel_left {a b c : String} : a ++ b = a ++ c ↔ b = c := by
  constructor
  · intro h
    have := congrArg String.toList h
    simp only [String.toList_append, List.append_cancel_left_eq] at this
    exact String.toList_injective this
  · rintro rfl; rfl

private theorem str_append_cancel_right {a b c : String} : b ++ a = c ++ a ↔ b = c := by
  constructor
  · intro h
    have := congrArg String.toList h
    simp only [String.toList_append, List.append_cancel_right_eq] at this
    exact String.toList_injective this
  · rintro rfl; rfl

private theorem digits_only (n : ℕ) : ∀ c ∈ (toString n).toList, c ≠ 'L' ∧ c ≠ '_' := by
  intro c hc
  have h : c.isDigit = true := by
    have h2 : (toString n).toList = Nat.toDigits 10 n := by
      change (Nat.repr n).toList = _
      simp [Nat.repr]
    rw [h2] at hc
    exact Nat.isDigit_of_mem_toDigits (by norm_num) (by norm_num) hc
  constructor <;> rintro rfl <;> exact absurd h (by decide)

private theorem nat_str_inj {m n : ℕ} (h : toString m = toString n) : m = n := Nat.repr_injective h

/-- the last occurrence of a character outside the suffix is where it is. -/
private theorem split_unique {α : Type} [DecidableEq α] (c : α) : ∀ (a b d e : List α), c ∉ d → c ∉ e → a ++ c :: d = b ++ c :: e →
    a = b ∧ d = e := by
  intro a
  induction a with
  | nil =>
    intro b d e hd he h
    cases b with
    | nil => simpa using h
    | cons y b =>
      simp only [List.nil_append, List.cons_append, List.cons.injEq] at h
      exact absurd (h.2 ▸ List.mem_append_right _ List.mem_cons_self) hd
  | cons x a ih =>
    intro b d e hd he h
    cases b with
    | nil =>
      simp only [List.nil_append, List.cons_append, List.cons.injEq] at h
      exact absurd (h.2 ▸ List.mem_append_right _ List.mem_cons_self) he
    | cons y b =>
      simp only [List.cons_append, List.cons.injEq] at h
      obtain ⟨h1, h2⟩ := ih b d e hd he h.2
      exact ⟨by rw [h.1, h1], h2⟩

/-- the file names determine mask name and bandlimit. -/
theorem maskFile_inj {x y : String} {L K : ℕ} (h : maskFile x L = maskFile y K) : x = y ∧ L = K := by
  unfold maskFile at h
  rw [str_append_cancel_left, str_append_cancel_right] at h
  have h2 := congrArg String.toList h
  simp only [String.toList_append] at h2
  have e : "_L".toList = ['_', 'L'] := rfl
  simp only [e, List.append_assoc, List.cons_append, List.nil_append] at h2
  have h3 : (x.toList ++ ['_']) ++ 'L' :: (toString L).toList = (y.toList ++ ['_']) ++ 'L' :: (toString K).toList := by
    simpa using h2
  obtain ⟨h4, h5⟩ := split_unique 'L' _ _ _ _ (fun hc => (digits_only L _ hc).1 rfl) (fun hc => (digits_only K _ hc).1 rfl) h3
  exact ⟨String.toList_injective (List.append_cancel_right h4), nat_str_inj (String.toList_injective h5)⟩

private theorem find_cases {st : Store} {n : String} {m : Mask} (h : st.find n = some m) : st.published n = some m ∨ st.user n = some m := by
  unfold Store.find at h
  cases hp : st.published n with
  | none => rw [hp] at h; exact Or.inr (by simpa using h)
  | some q => rw [hp] at h; exact Or.inl (by simpa using h)

private theorem deg (x : ℝ) : Py.deg2rad x = x * Real.pi / 180 := by
  unfold Py.deg2rad
  ring

private theorem africa_is (S : Sphere) (L : ℕ) (flm : List ℂ) : LandWithin S L flm 44 87 341 41 (africaMask S L flm) := by
  refine ⟨rfl, fun i j => ?_⟩
  simp only [africaMask, rotateToAfrica, Bool.and_eq_true, decide_eq_true_eq, deg, ge_iff_le]

private theorem southAmerica_is (S : Sphere) (L : ℕ) (flm : List ℂ) : LandWithin S L flm 54 108 63 40 (southAmericaMask S L flm) := by
  refine ⟨rfl, fun i j => ?_⟩
  simp only [southAmericaMask, rotateToSouthAmerica, Bool.and_eq_true, decide_eq_true_eq, deg, ge_iff_le]

private theorem name_africa {x : String} {L : ℕ} :
    (x ++ "_L" ++ toString L ++ ".npy" = "africa_L" ++ toString L ++ ".npy") ↔ x = "africa" := by
  have : "africa_L" ++ toString L ++ ".npy" = "africa" ++ "_L" ++ toString L ++ ".npy" := rfl
  rw [this, str_append_cancel_right, str_append_cancel_right, str_append_cancel_right]

private theorem name_southAmerica {x : String} {L : ℕ} :
    (x ++ "_L" ++ toString L ++ ".npy" = "south_america_L" ++ toString L ++ ".npy") ↔ x = "south_america" := by
  have : "south_america_L" ++ toString L ++ ".npy" = "south_america" ++ "_L" ++ toString L ++ ".npy" := rfl
  rw [this, str_append_cancel_right, str_append_cancel_right, str_append_cancel_right]

/-- what creating a mask does. -/
private theorem create_cases (S : Sphere) (L : ℕ) (x : String) (st : Store) :
    (∃ e, createMask S L (x ++ "_L" ++ toString L ++ ".npy") st = .error e) ∨
    (∃ m, createMask S L (x ++ "_L" ++ toString L ++ ".npy") st = .ok (m, st.save (maskFile x L) m) ∧ m.shape = S.shape L ∧
      IsContinent S x L m) := by
  unfold createMask
  simp only [name_africa, name_southAmerica]
  cases he : earth S L none with
  | error e => exact Or.inl ⟨e, rfl⟩
  | ok flm =>
    simp only [bind, Except.bind]
    split_ifs with h1 h2
    · subst h1
      refine Or.inr ⟨_, rfl, rfl, fun flm' h => ?_⟩
      rw [he] at h
      cases h
      exact ⟨fun _ => africa_is S L flm, fun h => absurd h (by decide)⟩
    · subst h2
      refine Or.inr ⟨_, rfl, rfl, fun flm' h => ?_⟩
      rw [he] at h
      cases h
      exact ⟨fun h => absurd h (by decide), fun _ => southAmerica_is S L flm⟩
    · exact Or.inl ⟨_, rfl⟩

private theorem save_consistent {S : Sphere} {st : Store} (h : MasksConsistent S st) {x : String} {L : ℕ} {m : Mask}
    (hm : IsContinent S x L m) : MasksConsistent S (st.save (maskFile x L) m) := by
  intro y K q hq
  rcases hq with hq | hq
  · exact h y K q (Or.inl hq)
  · simp only [Store.save] at hq
    split_ifs at hq with hc
    · cases hq
      obtain ⟨rfl, rfl⟩ := maskFile_inj hc
      exact hm
    · exact h y K q (Or.inr hq)

private theorem load_cases {S : Sphere} {st : Store} (h : MasksConsistent S st) (L : ℕ) (x : String) :
    (∃ e, loadMask S L (x ++ "_L" ++ toString L ++ ".npy") st = .error e) ∨
    (∃ m st', loadMask S L (x ++ "_L" ++ toString L ++ ".npy") st = .ok (m, st') ∧ IsContinent S x L m ∧ MasksConsistent S st') := by
  unfold loadMask
  cases hf : st.find ("slepian_masks_" ++ (x ++ "_L" ++ toString L ++ ".npy")) with
  | some m => exact Or.inr ⟨m, st, rfl, h x L m (find_cases hf), h⟩
  | none =>
    rcases create_cases S L x st with ⟨e, he⟩ | ⟨m, hm, -, hc⟩
    · exact Or.inl ⟨e, he⟩
    · exact Or.inr ⟨m, _, hm, hc, save_consistent h hc⟩

private theorem step_consistent {S : Sphere} {st : Store} (h : MasksConsistent S st) (s : MaskStep) (hs : OwnName s) :
    MasksConsistent S (maskStep S st s) := by
  cases s with
  | put x L m =>
    exact save_consistent h (fun _ _ => ⟨fun hx => absurd hx hs.1, fun hx => absurd hx hs.2⟩)
  | make L r =>
    simp only [maskStep, maskRegion]
    split_ifs with hr
    · rcases load_cases h L r.args.maskName with ⟨e, he⟩ | ⟨m, st', hm, -, hc⟩
      · simp only [he, bind, Except.bind]; exact h
      · simp only [hm, bind, Except.bind]
        by_cases hsh : m.shape = S.shape L
        · simp only [if_pos hsh, pure, Except.pure]; exact hc
        · simp only [if_neg hsh]; exact h
    · exact h

/-- C73.  Whatever masks were made or put there before, the mask of a continental region is the land within its cap: 41 degrees
around the centre of Africa, 40 degrees around that of South America. -/
theorem C73_masks (S : Sphere) (st : Store) (hst : MasksConsistent S st) (steps : List MaskStep) (hs : ∀ s ∈ steps, OwnName s)
    (L : ℕ) (flm : List ℂ) (he : earth S L none = .ok flm) (r : Region.Obj) (hr : r.regionType = "arbitrary") :
    (r.args.maskName = "africa" → ∃ m st', maskRegion S L r (steps.foldl (maskStep S) st) = .ok (m, st') ∧
      LandWithin S L flm 44 87 341 41 m) ∧
    (r.args.maskName = "south_america" → ∃ m st', maskRegion S L r (steps.foldl (maskStep S) st) = .ok (m, st') ∧
      LandWithin S L flm 54 108 63 40 m) := by
  have hcons : MasksConsistent S (steps.foldl (maskStep S) st) := by
    induction steps generalizing st with
    | nil => exact hst
    | cons s steps ih =>
      exact ih _ (step_consistent hst s (hs s List.mem_cons_self)) (fun s' hs' => hs s' (List.mem_cons_of_mem _ hs'))
  generalize steps.foldl (maskStep S) st = st₁ at hcons ⊢
  have key : (r.args.maskName = "africa" ∨ r.args.maskName = "south_america") →
      ∃ m st', loadMask S L (r.args.maskName ++ "_L" ++ toString L ++ ".npy") st₁ = .ok (m, st') ∧ IsContinent S r.args.maskName L m := by
    intro hx
    rcases load_cases hcons L r.args.maskName with ⟨e, hl⟩ | ⟨m, st', hm, hc, -⟩
    · exfalso
      unfold loadMask at hl
      split at hl
      · cases hl
      · unfold createMask at hl
        simp only [he, bind, Except.bind, name_africa, name_southAmerica] at hl
        rcases hx with hx | hx
        · rw [if_pos hx] at hl; cases hl
        · rw [if_neg (by rw [hx]; decide), if_pos hx] at hl; cases hl
    · exact ⟨m, st', hm, hc⟩
  constructor
  · intro hx
    obtain ⟨m, st', hm, hc⟩ := key (Or.inl hx)
    have hl := (hc flm he).1 hx
    refine ⟨m, st', ?_, hl⟩
    simp only [maskRegion, if_pos hr, hm, bind, Except.bind, if_pos hl.1, pure, Except.pure]
  · intro hx
    obtain ⟨m, st', hm, hc⟩ := key (Or.inr hx)
    have hl := (hc flm he).2 hx
    refine ⟨m, st', ?_, hl⟩
    simp only [maskRegion, if_pos hr, hm, bind, Except.bind, if_pos hl.1, pure, Except.pure]

/-- C73.  Other masks: the file the user provides if it has the shape of the grid, `AssertionError` if it has another shape, and
`ValueError` without a file; the files stay as they are. -/
theorem C73_custom (S : Sphere) (st : Store) (L : ℕ) (r : Region.Obj) (hr : r.regionType = "arbitrary")
    (h1 : r.args.maskName ≠ "africa") (h2 : r.args.maskName ≠ "south_america") (hp : st.published (maskFile r.args.maskName L) = none) :
    (∀ m, st.user (maskFile r.args.maskName L) = some m → m.shape = S.shape L → maskRegion S L r st = .ok (m, st)) ∧
    (∀ m, st.user (maskFile r.args.maskName L) = some m → m.shape ≠ S.shape L → maskRegion S L r st = .error .runtimeError) ∧
    (st.user (maskFile r.args.maskName L) = none → ∀ flm, earth S L none = .ok flm → maskRegion S L r st = .error .valueError) := by
  have hf : st.find ("slepian_masks_" ++ (r.args.maskName ++ "_L" ++ toString L ++ ".npy")) = st.user (maskFile r.args.maskName L) := by
    unfold Store.find
    change ((st.published (maskFile r.args.maskName L)).orElse fun _ => st.user (maskFile r.args.maskName L)) = _
    rw [hp]; rfl
  refine ⟨fun m hm hs => ?_, fun m hm hs => ?_, fun hn flm he => ?_⟩
  · simp only [maskRegion, if_pos hr, loadMask, hf, hm, bind, Except.bind, if_pos hs, pure, Except.pure]
  · simp only [maskRegion, if_pos hr, loadMask, hf, hm, bind, Except.bind, if_neg hs]
  · simp only [maskRegion, if_pos hr, loadMask, hf, hn, createMask, he, bind, Except.bind, name_africa, name_southAmerica, if_neg h1,
      if_neg h2]

/-- C73.  The maps of the continents: the elevation, smoothed if asked for, at the samples of the mask (which is made from the
elevation without smoothing), and zero elsewhere. -/
theorem C73_maps (e : Classes.Env) (hst : MasksConsistent e.S e.store) (L : ℕ) (smoothing : Option ℤ) (flm flm' : List ℂ)
    (he : earth e.S L none = .ok flm) (he' : earth e.S L smoothing = .ok flm') :
    (∃ m, LandWithin e.S L flm 44 87 341 41 m ∧ Classes.africaMap e L smoothing = .ok (e.S.forward L true 0 fun i j =>
      ((if m.val i j then e.S.inverseReal L (e.S.rotate L flm' (44 * Real.pi / 180) (87 * Real.pi / 180) (341 * Real.pi / 180)) i j
        else 0 : ℝ) : ℂ))) ∧
    (∃ m, LandWithin e.S L flm 54 108 63 40 m ∧ Classes.southAmericaMap e L smoothing = .ok (e.S.forward L true 0 fun i j =>
      ((if m.val i j then e.S.inverseReal L (e.S.rotate L flm' (54 * Real.pi / 180) (108 * Real.pi / 180) (63 * Real.pi / 180)) i j
        else 0 : ℝ) : ℂ))) := by
  have key : ∀ x, (x = "africa" ∨ x = "south_america") →
      ∃ m st', loadMask e.S L (x ++ "_L" ++ toString L ++ ".npy") e.store = .ok (m, st') ∧ IsContinent e.S x L m := by
    intro x hx
    rcases load_cases hst L x with ⟨y, hl⟩ | ⟨m, st', hm, hc, -⟩
    · exfalso
      unfold loadMask at hl
      split at hl
      · cases hl
      · unfold createMask at hl
        simp only [he, bind, Except.bind, name_africa, name_southAmerica] at hl
        rcases hx with hx | hx
        · rw [if_pos hx] at hl; cases hl
        · rw [if_neg (by rw [hx]; decide), if_pos hx] at hl; cases hl
    · exact ⟨m, st', hm, hc⟩
  have n1 : Strings.snake "Africa" = "africa" := by decide +kernel
  have n2 : Strings.snake "SouthAmerica" = "south_america" := by decide +kernel
  constructor
  · obtain ⟨m, st', hm, hc⟩ := key "africa" (Or.inl rfl)
    have hl := (hc flm he).1 rfl
    refine ⟨m, hl, ?_⟩
    simp only [Classes.africaMap, Classes.land, n1, he', hm, bind, Except.bind, if_pos hl.1, pure, Except.pure, rotateToAfrica, deg]
  · obtain ⟨m, st', hm, hc⟩ := key "south_america" (Or.inr rfl)
    have hl := (hc flm he).2 rfl
    refine ⟨m, hl, ?_⟩
    simp only [Classes.southAmericaMap, Classes.land, n2, he', hm, bind, Except.bind, if_pos hl.1, pure, Except.pure,
      rotateToSouthAmerica, deg]

/-- the hypotheses of C73 are met, at bandlimit 1 without any files. -/
example : ∃ (S : Sphere) (flm : List ℂ) (r : Region.Obj), MasksConsistent S ⟨fun _ => none, fun _ => none⟩ ∧
    earth S 1 none = .ok flm ∧ flm.length = 1 ∧ r.regionType = "arbitrary" ∧ r.args.maskName = "africa" ∧
    OwnName (.make 1 r) ∧ OwnName (.put "mine" 1 ⟨(2, 2), fun _ _ => true⟩) := by
  refine ⟨{ shape := fun _ => (2, 2), theta := fun _ i _ => i, phi := fun _ _ j => j, inverseReal := fun _ _ _ _ => 1,
            forward := fun _ _ _ _ => [], rotate := fun _ f _ _ _ => f, smooth := fun f _ _ => f, earthFile := [1] }, [1],
    ⟨{ maskName := "africa" }, "africa", "arbitrary"⟩, ?_, ?_, rfl, rfl, rfl, trivial, by decide, by decide⟩
  · intro x L m h
    simp at h
  · simp [earth, Noise.createEarth]

end Sleplet.Props
