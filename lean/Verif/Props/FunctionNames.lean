import Verif.Model.Ranks
import Verif.Props.Strings
import Verif.Props.FunctionObjects

/-!
C67: the names of function objects.
-/
namespace Sleplet.Props

open Sleplet.Functions Sleplet.Strings Sleplet.Names

/-- `w` is one of the words of `name`, which are separated by underscores. -/
def IsWord (w : String) (name : String) : Prop :=
  ∃ pre suf : List Char, name.toList = pre ++ w.toList ++ suf ∧ (pre = [] ∨ ∃ p, pre = p ++ ['_']) ∧ (suf = [] ∨ ∃ s, suf = '_' :: s)

private theorem exists_first {c : Char} : ∀ {l : List Char}, c ∈ l → ∃ a b, l = a ++ c :: b ∧ c ∉ a
  | [], h => by simp at h
  | x :: l, h => by
    by_cases hx : x = c
    · exact ⟨[], l, by simp [hx], by simp⟩
    · obtain ⟨a, b, e, ha⟩ := exists_first (l := l) (by simpa [Ne.symm hx] using h)
      exact ⟨x :: a, b, by simp [e], by simp [Ne.symm hx, ha]⟩

private theorem mem_splitOn {w : List Char} (hw : '_' ∉ w) (l : List Char) : w ∈ l.splitOn '_' ↔
    ∃ pre suf : List Char, l = pre ++ w ++ suf ∧ (pre = [] ∨ ∃ p, pre = p ++ ['_']) ∧ (suf = [] ∨ ∃ s, suf = '_' :: s) := by
  constructor
  · induction hn : l.length using Nat.strong_induction_on generalizing l with
    | _ n ih =>
      intro h
      by_cases hl : '_' ∈ l
      · obtain ⟨a, b, e, ha⟩ := exists_first hl
        rw [e, List.splitOn_append_cons_self_of_not_mem ha] at h
        rcases List.mem_cons.1 h with h | h
        · exact ⟨[], '_' :: b, by simp [e, h], Or.inl rfl, Or.inr ⟨b, rfl⟩⟩
        · obtain ⟨pre, suf, e', hp, hs⟩ := ih b.length (by rw [← hn, e]; simp; omega) b rfl h
          refine ⟨a ++ '_' :: pre, suf, by simp [e, e'], Or.inr ?_, hs⟩
          rcases hp with rfl | ⟨p, rfl⟩
          · exact ⟨a, rfl⟩
          · exact ⟨a ++ '_' :: p, by simp⟩
      · rw [List.splitOn_eq_singleton hl, List.mem_singleton] at h
        exact ⟨[], [], by simp [h], Or.inl rfl, Or.inl rfl⟩
  · rintro ⟨pre, suf, rfl, hp, hs⟩
    have h1 : w ∈ (w ++ suf).splitOn '_' := by
      rcases hs with rfl | ⟨s, rfl⟩
      · simp [List.splitOn_eq_singleton hw]
      · simp [List.splitOn_append_cons_self, List.splitOn_eq_singleton hw]
    rcases hp with rfl | ⟨p, rfl⟩
    · simpa using h1
    · rw [List.append_assoc, List.append_assoc, List.singleton_append, List.splitOn_append_cons_self]
      exact List.mem_append_right _ h1

theorem namesSlepian_iff (name : String) : namesSlepian name = true ↔
    IsWord "slepian" name ∨ IsWord "south" name ∨ IsWord "america" name := by
  unfold namesSlepian notMasked IsWord
  simp only [List.any_cons, List.any_nil, Bool.or_false, Bool.or_eq_true, List.contains_iff_mem]
  rw [mem_splitOn (by decide), mem_splitOn (by decide), mem_splitOn (by decide)]

open Classical in
/-- C67.  Whatever the class (its methods), the settings and the kind of noise: the name of the object is the name of the
function, then the region unless a word of the name is `slepian`, `south` or `america`, then the noise, the smoothing and the
bandlimit. -/
theorem C67_name (limDen : ℚ → ℚ) (h : Hooks) (s : Settings)
    (addNoise : List ℂ → Noise.World → Except Err (Noised × Noise.World)) (w w' : Noise.World) (o : Obj)
    (ho : postInit limDen h s addNoise w = .ok (o, w')) :
    o.name = h.name
      ++ (match s.region with
          | some r => if IsWord "slepian" h.name ∨ IsWord "south" h.name ∨ IsWord "america" h.name then "" else "_" ++ r.nameEnding
          | none => "")
      ++ (match s.noise with | some n => filenameArgs limDen n "noise" | none => "")
      ++ (match s.smoothing with | some n => filenameArgs limDen n "smoothed" | none => "")
      ++ "_L" ++ toString s.L := by
  have hname : o.name = addDetails limDen s h.name := by
    unfold postInit at ho
    cases h1 : h.setupArgs with
    | error e => simp [h1, bind, Except.bind] at ho
    | ok u =>
      cases h2 : h.create w with
      | error e => simp [h1, h2, bind, Except.bind] at ho
      | ok p =>
        cases h3 : addNoise p.1 p.2 with
        | error e => simp [h1, h2, h3, bind, Except.bind] at ho
        | ok q =>
          simp only [h1, h2, h3, bind, Except.bind, pure, Except.pure, Except.ok.injEq, Prod.mk.injEq] at ho
          rw [← ho.1]
  rw [hname]
  unfold addDetails
  have hs := namesSlepian_iff h.name
  cases s.region with
  | none => cases s.noise <;> cases s.smoothing <;> simp
  | some r =>
    by_cases hn : namesSlepian h.name = true
    · have := hs.1 hn
      cases s.noise <;> cases s.smoothing <;> simp [hn, this]
    · have h3 : ¬ _ := fun h => hn (hs.2 h)
      simp only [hn, if_neg h3]
      cases s.noise <;> cases s.smoothing <;> simp

/-- a value whose name records it exactly (see C44 for the others). -/
def Recorded (v : ℚ) : Prop := v.den ≤ 1000000 ∧ (v.den = 1 ∨ |v| < 1)

theorem noise_ne_smoothed (limDen : ℚ → ℚ) (v w : ℚ) {r s : List Char} :
    (filenameArgs limDen v "noise").toList ++ r ≠ (filenameArgs limDen w "smoothed").toList ++ s := by
  intro h
  rw [filenameArgs_toList, filenameArgs_toList] at h
  have e1 : ("noise" : String).toList = ['n', 'o', 'i', 's', 'e'] := rfl
  have e2 : ("smoothed" : String).toList = ['s', 'm', 'o', 'o', 't', 'h', 'e', 'd'] := rfl
  simp only [e1, e2, List.cons_append, List.append_assoc, List.cons.injEq, true_and] at h
  -- the first letter after the number
  have key : ∀ {a b : List Char} {c d : Char} {x y : List Char}, (∀ z ∈ a, z = '-' ∨ z.isDigit) → (∀ z ∈ b, z = '-' ∨ z.isDigit) →
      ¬ (c = '-' ∨ c.isDigit) → ¬ (d = '-' ∨ d.isDigit) → a ++ c :: x = b ++ d :: y → c = d := by
    intro a
    induction a with
    | nil =>
      intro b c d x y _ hb hc _ h
      cases b with
      | nil => simp at h; exact h.1
      | cons z b =>
        simp at h
        exact absurd (h.1 ▸ hb z (by simp)) hc
    | cons z a ih =>
      intro b c d x y ha hb hc hd h
      cases b with
      | nil =>
        simp at h
        exact absurd (h.1 ▸ ha z (by simp)) hd
      | cons z' b =>
        simp only [List.cons_append, List.cons.injEq] at h
        exact ih (fun q hq => ha q (by simp [hq])) (fun q hq => hb q (by simp [hq])) hc hd h.2
  have := key (int_chars _) (int_chars _) (by decide) (by decide) h
  exact absurd this (by decide)

private theorem fragment_shape (limDen : ℚ → ℚ) (v : ℚ) (arg : String) : ∃ t, filenameArgs limDen v arg = "_" ++ t := by
  unfold filenameArgs
  exact ⟨_, by rw [String.append_assoc]⟩

/-- the noise and smoothing fragments can be read back. -/
private theorem parts_inj (limDen : ℚ → ℚ) (hlim : LimitDenominator limDen) (n n' : Option ℚ) (m m' : Option ℤ)
    (hn : ∀ v ∈ n, Recorded v) (hn' : ∀ v ∈ n', Recorded v)
    (h : (match n with | some n => filenameArgs limDen n "noise" | none => "") ++
        (match m with | some n => filenameArgs limDen n "smoothed" | none => "") =
      (match n' with | some n => filenameArgs limDen n "noise" | none => "") ++
        (match m' with | some n => filenameArgs limDen n "smoothed" | none => "")) : n = n' ∧ m = m' := by
  have hA : ArgName "noise" := ⟨'n', _, rfl, rfl⟩
  have hS : ArgName "smoothed" := ⟨'s', _, rfl, rfl⟩
  have hshape : ∀ m : Option ℤ, (match m with | some n => filenameArgs limDen n "smoothed" | none => "") = "" ∨
      ∃ t, (match m with | some n => filenameArgs limDen n "smoothed" | none => "") = "_" ++ t := by
    intro m
    cases m with
    | none => exact Or.inl rfl
    | some k => exact Or.inr (fragment_shape limDen k "smoothed")
  have hm : ∀ m m' : Option ℤ, (match m with | some n => filenameArgs limDen n "smoothed" | none => "") =
      (match m' with | some n => filenameArgs limDen n "smoothed" | none => "") → m = m' := by
    intro m m' h
    cases m with
    | none =>
      cases m' with
      | none => rfl
      | some k =>
        obtain ⟨t, ht⟩ := fragment_shape limDen k "smoothed"
        have := congrArg String.toList (h.trans ht)
        simp at this
    | some j =>
      cases m' with
      | none =>
        obtain ⟨t, ht⟩ := fragment_shape limDen j "smoothed"
        have := congrArg String.toList (h.symm.trans ht)
        simp at this
      | some k =>
        have := (C44_names_partial limDen hlim "smoothed" hS j k (by simp) (by simp) (by simp) (by simp) "" ""
          (Or.inl rfl) (Or.inl rfl) (by simpa using h)).1
        rw [Int.cast_injective this]
  cases n with
  | none =>
    cases n' with
    | none => exact ⟨rfl, hm m m' (by simpa using h)⟩
    | some v =>
      exfalso
      cases m with
      | none =>
        obtain ⟨t, ht⟩ := fragment_shape limDen v "noise"
        have := congrArg String.toList h
        simp only [ht] at this
        simp at this
      | some k =>
        refine noise_ne_smoothed limDen v k (r := (match m' with | some n => filenameArgs limDen n "smoothed" | none => "").toList) (s := []) ?_
        have := congrArg String.toList h
        simp only [String.toList_append] at this
        rw [← this]
        simp
  | some v =>
    cases n' with
    | none =>
      exfalso
      cases m' with
      | none =>
        obtain ⟨t, ht⟩ := fragment_shape limDen v "noise"
        have := congrArg String.toList h
        simp only [ht] at this
        simp at this
      | some k =>
        refine noise_ne_smoothed limDen v k (r := (match m with | some n => filenameArgs limDen n "smoothed" | none => "").toList) (s := []) ?_
        have := congrArg String.toList h
        simp only [String.toList_append] at this
        rw [this]
        simp
    | some v' =>
      have h1 := hn v rfl
      have h2 := hn' v' rfl
      obtain ⟨h3, h4⟩ := C44_names_partial limDen hlim "noise" hA v v' h1.1 h2.1 h1.2 h2.2 _ _ (hshape m) (hshape m') h
      exact ⟨by rw [h3], hm m m' h4⟩

/-- C67.  Two objects with the same name have the same bandlimit, whatever their classes, regions, noise and smoothing. -/
theorem C67_name_determines_bandlimit (limDen : ℚ → ℚ) (h h' : Hooks) (s s' : Settings)
    (addNoise addNoise' : List ℂ → Noise.World → Except Err (Noised × Noise.World)) (w₁ w₂ w₁' w₂' : Noise.World) (o o' : Obj)
    (ho : postInit limDen h s addNoise w₁ = .ok (o, w₂)) (ho' : postInit limDen h' s' addNoise' w₁' = .ok (o', w₂'))
    (hname : o.name = o'.name) : s.L = s'.L := by
  rw [C67_name limDen h s addNoise w₁ w₂ o ho, C67_name limDen h' s' addNoise' w₁' w₂' o' ho'] at hname
  have h1 := congrArg String.toList hname
  have e : ("_L" : String).toList = ['_', 'L'] := rfl
  simp only [String.toList_append, e, List.append_assoc, List.cons_append, List.nil_append] at h1
  simp only [← List.append_assoc] at h1
  have h2 := (split_last (c := '_') (by simpa using not_mem_nat rfl) (by simpa using not_mem_nat rfl) h1).2
  exact nat_inj (List.cons.inj h2).2

/-- C67.  Two objects of one class and one region with the same name have the same bandlimit, noise and smoothing, if the
noise levels are integers or less than one. -/
theorem C67_name_determines_settings (limDen : ℚ → ℚ) (hlim : LimitDenominator limDen) (h h' : Hooks) (hh : h.name = h'.name)
    (s s' : Settings) (hr : s.region = s'.region) (hs : ∀ v ∈ s.noise, Recorded v) (hs' : ∀ v ∈ s'.noise, Recorded v)
    (addNoise addNoise' : List ℂ → Noise.World → Except Err (Noised × Noise.World)) (w₁ w₂ w₁' w₂' : Noise.World) (o o' : Obj)
    (ho : postInit limDen h s addNoise w₁ = .ok (o, w₂)) (ho' : postInit limDen h' s' addNoise' w₁' = .ok (o', w₂'))
    (hname : o.name = o'.name) : s.L = s'.L ∧ s.noise = s'.noise ∧ s.smoothing = s'.smoothing := by
  have hL := C67_name_determines_bandlimit limDen h h' s s' addNoise addNoise' w₁ w₂ w₁' w₂' o o' ho ho' hname
  refine ⟨hL, ?_⟩
  rw [C67_name limDen h s addNoise w₁ w₂ o ho, C67_name limDen h' s' addNoise' w₁' w₂' o' ho', hh, hr, hL] at hname
  apply parts_inj limDen hlim _ _ _ _ hs hs'
  have h1 := congrArg String.toList hname
  simp only [String.toList_append, List.append_assoc] at h1
  simp only [← List.append_assoc] at h1
  have h2 := List.append_cancel_right (List.append_cancel_right h1)
  simp only [List.append_assoc] at h2
  have h3 := List.append_cancel_left (List.append_cancel_left h2)
  apply String.toList_injective
  simpa only [String.toList_append] using h3

/-- a Dirac delta with a region and noise. -/
example (limDen : ℚ → ℚ) (r : Region.Obj) (normals : ℕ → ℕ → ℝ) (w : Noise.World) :
    ∃ o w', flm limDen normals (diracHooks 4) ⟨4, none, some r, none⟩ w = .ok (o, w') ∧
      o.name = "dirac_delta_" ++ r.nameEnding ++ "_L4" := by
  obtain ⟨c, hc, -⟩ := C55_dirac_delta 4
  have : flm limDen normals (diracHooks 4) ⟨4, none, some r, none⟩ w =
      .ok (⟨4, addDetails limDen ⟨4, none, some r, none⟩ "dirac_delta", 0, true, c, none, none⟩, w) := by
    simp only [flm, postInit, diracHooks, hc, bind, Except.bind, Except.map, flmNoise, addNoiseWith, pure, Except.pure]
  refine ⟨_, w, this, ?_⟩
  have hn : namesSlepian "dirac_delta" = false := by decide +kernel
  apply String.toList_injective
  simp [addDetails, hn]
  decide

/-- the words are found: no region is added to the name of the South America map. -/
example : IsWord "south" "south_america" ∧ ¬ IsWord "slepian" "south_america" := by
  refine ⟨⟨[], "_america".toList, by decide, Or.inl rfl, Or.inr ⟨_, rfl⟩⟩, ?_⟩
  unfold IsWord
  rw [← mem_splitOn (by decide)]
  decide +kernel

/-! ### meshes -/

open Classical in
/-- C67 for functions on meshes: the region unless the name of the mesh contains `slepian`, the noise, and the zoom. -/
theorem C67_mesh_name (limDen : ℚ → ℚ) (normals : ℕ → ℕ → ℝ) (h : Ranks.Hooks) (s : Ranks.Settings) (w w' : Noise.World)
    (o : Ranks.Obj) (ho : Ranks.meshFunction limDen normals h s w = .ok (o, w')) :
    ∃ base, h.name = .ok base ∧ o.name = base
      ++ (if s.region ∧ ¬ (∃ p q, s.meshName = p ++ "slepian" ++ q) then "_region" else "")
      ++ (match s.noise with | some n => filenameArgs limDen n "noise" | none => "")
      ++ (if s.zoom then "_zoom" else "") := by
  unfold Ranks.meshFunction at ho
  cases h1 : h.setupArgs with
  | error e => simp [h1, bind, Except.bind] at ho
  | ok u =>
    cases h2 : h.name with
    | error e => simp [h1, h2, bind, Except.bind] at ho
    | ok base =>
      cases h3 : h.create w with
      | error e => simp [h1, h2, h3, bind, Except.bind] at ho
      | ok p =>
        have hname : o.name = Ranks.addDetails limDen s base := by
          simp only [h1, h2, h3, bind, Except.bind] at ho
          cases hs : s.noise with
          | none =>
            simp only [hs, pure, Except.pure, Except.ok.injEq, Prod.mk.injEq] at ho
            rw [← ho.1]
          | some v =>
            simp only [hs] at ho
            cases h4 : Noise.createMeshNoise normals (p.1.map fun (x : ℝ) => (x : ℂ)) (v : ℝ) p.2 with
            | error e => simp [h4] at ho
            | ok q =>
              simp only [h4] at ho
              cases h5 : NumPy.broadcast (· + ·) p.1 q.1 with
              | error e => simp [h5] at ho
              | ok c =>
                simp only [h5, pure, Except.pure, Except.ok.injEq, Prod.mk.injEq] at ho
                rw [← ho.1]
        refine ⟨base, rfl, hname.trans ?_⟩
        have hc : contains "slepian" s.meshName = true ↔ ∃ p q, s.meshName = p ++ "slepian" ++ q := by
          unfold contains
          rw [decide_eq_true_iff]
          constructor
          · rintro ⟨a, b, e⟩
            refine ⟨String.ofList a, String.ofList b, String.toList_injective ?_⟩
            simp only [String.toList_append, String.toList_ofList]
            exact e.symm
          · rintro ⟨p, q, e⟩
            exact ⟨p.toList, q.toList, by rw [e]; simp only [String.toList_append]⟩
        unfold Ranks.addDetails
        by_cases hx : s.region = true ∧ ¬ ∃ p q, s.meshName = p ++ "slepian" ++ q
        · have hb : contains "slepian" s.meshName = false := by
            rw [Bool.eq_false_iff]; exact fun h => hx.2 (hc.1 h)
          rw [if_pos hx]
          simp only [hx.1, hb, Bool.not_false, Bool.and_self, if_true]
          cases s.noise <;> cases s.zoom <;> simp
        · have hb : (s.region && !contains "slepian" s.meshName) = false := by
            rw [Bool.eq_false_iff]
            intro h
            rw [Bool.and_eq_true, Bool.not_eq_true'] at h
            refine hx ⟨h.1, fun he => ?_⟩
            rw [hc.2 he] at h
            exact absurd h.2 (by simp)
          rw [if_neg hx]
          simp only [hb]
          cases s.noise <;> cases s.zoom <;> simp

/-- a field on a zoomed mesh with a region. -/
example (limDen : ℚ → ℚ) (normals : ℕ → ℕ → ℝ) (w : Noise.World) :
    ∃ o w', Ranks.meshFunction limDen normals ⟨.ok (), .ok "bunny_field", fun w => .ok ([1], w)⟩ ⟨"bunny", true, none, true⟩ w =
      .ok (o, w') ∧ o.name = "bunny_field_region_zoom" := by
  refine ⟨⟨_, [1], none, none⟩, w, rfl, ?_⟩
  have : contains "slepian" "bunny" = false := by decide +kernel
  simp [Ranks.addDetails, this]

end Sleplet.Props
