import Verif.Model.MeshClasses
import Verif.Props.ClassArgs
import Verif.Props.ClassNames

/-!
C77: the list of extra arguments of a class of functions on meshes, and what its name tells.
-/
namespace Sleplet.Props

open Classes MeshClasses Strings Names

/-- The rank given as a keyword is not negative. -/
def MAdmissible : MFn → Prop
  | .basisFunctions r | .slepianFunctions r => 0 ≤ r
  | _ => True

/-- What a list of extra arguments means for each class that takes one, on a mesh with `K` eigenvalues.  (The rank `K` does not
exist, see C48.) -/
inductive MMeans (jMax : JMax) (K : ℕ) : MFn → List ℤ → MFn → Prop
  | basis (a r : ℤ) (h : 0 ≤ r) (hK : r ≤ K) : MMeans jMax K (.basisFunctions a) [r] (.basisFunctions r)
  | slepian (a r : ℤ) (h : 0 ≤ r) : MMeans jMax K (.slepianFunctions a) [r] (.slepianFunctions r)
  | noise (a x) : MMeans jMax K (.noiseField a) [x] (.noiseField x)
  | slepianNoise (a x) : MMeans jMax K (.slepianNoiseField a) [x] (.slepianNoiseField x)
  | coefficients (w B jMin) (j : ℕ) (h : ScaleExists jMax K B jMin j) :
      MMeans jMax K (.slepianWaveletCoefficients w) [B, jMin, j] (.slepianWaveletCoefficients ⟨B, jMin, some j⟩)
  | wavelets (w B jMin) (j : ℕ) (h : ScaleExists jMax K B jMin j) :
      MMeans jMax K (.slepianWavelets w) [B, jMin, j] (.slepianWavelets ⟨B, jMin, some j⟩)

/-- The mesh classes without parameters. -/
def MParameterless (fn : MFn) : Prop := fn.className ∈ ["MeshField", "MeshSlepianField"]

private theorem map_ok {α β : Type} (f : α → β) (x : Except Err α) (b : β) : x.map f = .ok b ↔ ∃ a, x = .ok a ∧ f a = b := by
  cases x <;> simp [Except.map]

private theorem map_error {α β : Type} (f : α → β) (x : Except Err α) (e : Err) : x.map f = .error e ↔ x = .error e := by
  cases x <;> simp [Except.map]

private theorem checkRank_ok {r : ℤ} (h : 0 ≤ r) : Ranks.checkRank r = .ok () := by
  unfold Ranks.checkRank; rw [if_neg (by omega)]

private theorem setupRank_ok (rank r : ℤ) (args : List ℤ) :
    Ranks.setupRank rank (some args) = .ok r ↔ args = [r] ∧ 0 ≤ r := by
  match args with
  | [] => simp [Ranks.setupRank]
  | [x] =>
    simp only [Ranks.setupRank, Ranks.checkRank, List.cons.injEq, and_true]
    split_ifs with h
    · simp only [bind, Except.bind, reduceCtorEq, false_iff, not_and]; intro h1; omega
    · simp only [bind, Except.bind, pure, Except.pure, Except.ok.injEq]
      exact ⟨fun h1 => ⟨h1, by omega⟩, fun h1 => h1.1⟩
  | _ :: _ :: _ => simp [Ranks.setupRank]

private theorem setupRank_error (rank : ℤ) (args : List ℤ) (e : Err) :
    Ranks.setupRank rank (some args) = .error e → e = .valueError := by
  match args with
  | [] => simp +contextual [Ranks.setupRank, eq_comm]
  | [x] =>
    simp only [Ranks.setupRank, Ranks.checkRank]
    split_ifs <;> simp +contextual [bind, Except.bind, pure, Except.pure, eq_comm]
  | _ :: _ :: _ => simp +contextual [Ranks.setupRank, eq_comm]

/-- C77. A list of extra arguments of a mesh class is accepted exactly when it is a list of parameters in the documented order,
and then those are the parameters of the object. -/
theorem C77_args (jMax : JMax) (K : ℕ) (fn fn' : MFn) (hfn : MAdmissible fn) (args : List ℤ) :
    fn.setupArgs jMax K (some args) = .ok fn' ↔ MMeans jMax K fn args fn' := by
  constructor
  · intro h
    cases fn <;> simp only [MFn.setupArgs, noArgs, reduceCtorEq, snrArg_ok, map_ok, waveArgs_ok] at h
    case basisFunctions a =>
      rw [checkRank_ok hfn] at h
      simp only [bind, Except.bind] at h
      match args with
      | [] => simp [Ranks.validateBasis] at h
      | x :: t =>
        simp only [Ranks.validateBasis] at h
        split_ifs at h with hx
        simp only [map_ok, setupRank_ok] at h
        obtain ⟨r, ⟨h1, h2⟩, rfl⟩ := h
        rw [h1]
        simp only [List.cons.injEq] at h1
        exact .basis a r h2 (by omega)
    case slepianFunctions a =>
      rw [checkRank_ok hfn] at h
      simp only [bind, Except.bind, map_ok, setupRank_ok] at h
      obtain ⟨r, ⟨rfl, h2⟩, rfl⟩ := h
      exact .slepian a r h2
    case noiseField a => obtain ⟨x, rfl, rfl⟩ := h; constructor
    case slepianNoiseField a => obtain ⟨x, rfl, rfl⟩ := h; constructor
    all_goals (obtain ⟨_, ⟨B, jMin, n, rfl, h, rfl⟩, rfl⟩ := h; constructor; exact h)
  · intro h
    cases h
    case basis a r h hK =>
      have hK : ¬ r > (K : ℤ) := by omega
      simp only [MFn.setupArgs, checkRank_ok hfn, Ranks.validateBasis, if_neg hK, bind, Except.bind, map_ok, setupRank_ok]
      exact ⟨r, ⟨rfl, h⟩, rfl⟩
    case slepian a r h =>
      simp only [MFn.setupArgs, checkRank_ok hfn, bind, Except.bind, map_ok, setupRank_ok]
      exact ⟨r, ⟨rfl, h⟩, rfl⟩
    case noise => rfl
    case slepianNoise => rfl
    all_goals
      rename_i h
      simp only [MFn.setupArgs, map_ok, waveArgs_ok]
      exact ⟨_, ⟨_, _, _, rfl, h, rfl⟩, rfl⟩

/-- C77. A rejected list raises `TypeError` for a class without parameters; `IndexError` for an empty list given to the basis
functions, whose check reads the first element before counting; and `ValueError` otherwise. -/
theorem C77_errors (jMax : JMax) (K : ℕ) (fn : MFn) (hfn : MAdmissible fn) (args : List ℤ) (e : Err)
    (h : fn.setupArgs jMax K (some args) = .error e) :
    (MParameterless fn ∧ e = .typeError) ∨
    (fn.className = "MeshBasisFunctions" ∧ args = [] ∧ e = .indexError) ∨
    (¬ MParameterless fn ∧ ¬ (fn.className = "MeshBasisFunctions" ∧ args = []) ∧ e = .valueError) := by
  cases fn
  case basisFunctions a =>
    simp only [MFn.setupArgs, checkRank_ok hfn, bind, Except.bind] at h
    match args with
    | [] =>
      simp only [Ranks.validateBasis, Except.error.injEq] at h
      exact Or.inr (Or.inl ⟨rfl, rfl, h.symm⟩)
    | x :: t =>
      refine Or.inr (Or.inr ⟨by simp [MParameterless, MFn.className], by simp, ?_⟩)
      simp only [Ranks.validateBasis] at h
      split_ifs at h with hx
      · cases h; rfl
      · exact setupRank_error _ _ _ ((map_error _ _ _).1 h)
  case slepianFunctions a =>
    simp only [MFn.setupArgs, checkRank_ok hfn, bind, Except.bind, map_error] at h
    exact Or.inr (Or.inr ⟨by simp [MParameterless, MFn.className], by simp [MFn.className], setupRank_error _ _ _ h⟩)
  case noiseField =>
    exact Or.inr (Or.inr ⟨by simp [MParameterless, MFn.className], by simp [MFn.className], snrArg_error _ _ _ _ h⟩)
  case slepianNoiseField =>
    exact Or.inr (Or.inr ⟨by simp [MParameterless, MFn.className], by simp [MFn.className], snrArg_error _ _ _ _ h⟩)
  case slepianWaveletCoefficients =>
    exact Or.inr (Or.inr ⟨by simp [MParameterless, MFn.className], by simp [MFn.className],
      waveArgs_error _ _ _ _ _ ((map_error _ _ _).1 h)⟩)
  case slepianWavelets =>
    exact Or.inr (Or.inr ⟨by simp [MParameterless, MFn.className], by simp [MFn.className],
      waveArgs_error _ _ _ _ _ ((map_error _ _ _).1 h)⟩)
  case field => cases h; exact Or.inl ⟨by simp [MParameterless, MFn.className], rfl⟩
  case slepianField => cases h; exact Or.inl ⟨by simp [MParameterless, MFn.className], rfl⟩

/-- without extra arguments the keywords stand. -/
private theorem no_args (jMax : JMax) (K : ℕ) (fn : MFn) (hfn : MAdmissible fn) : fn.setupArgs jMax K none = .ok fn := by
  cases fn <;> try rfl
  all_goals
    simp only [MFn.setupArgs, checkRank_ok hfn, bind, Except.bind, Ranks.validateBasis, Ranks.setupRank]
    rfl

/-- C77. A list of extra arguments gives the same object as the keywords it stands for. -/
theorem C77_list_is_keywords {V : Type} [Fintype V] (limDen : ℚ → ℚ) (e : MEnv V) (fn fn' : MFn) (hfn : MAdmissible fn)
    (args : List ℤ) (h : MMeans e.jMax e.meshEvals.length fn args fn') (noise : Option ℚ) (region : Bool) (w : Noise.World) :
    fn.construct limDen e (some args) noise region w = fn'.construct limDen e none noise region w := by
  have h1 := (C77_args e.jMax _ fn fn' hfn args).2 h
  have h2 : fn'.setupArgs e.jMax e.meshEvals.length none = .ok fn' := by
    apply no_args
    cases h <;> first | trivial | assumption
  unfold MFn.construct
  rw [h1, h2]

/-- C77. A negative rank is rejected. -/
theorem C77_negative_rank (jMax : JMax) (K : ℕ) (r : ℤ) (hr : r < 0) (extra : Option (List ℤ)) :
    (MFn.basisFunctions r).setupArgs jMax K extra = .error .valueError ∧
    (MFn.slepianFunctions r).setupArgs jMax K extra = .error .valueError := by
  have : Ranks.checkRank r = .error .valueError := by unfold Ranks.checkRank; rw [if_pos hr]
  simp [MFn.setupArgs, this, bind, Except.bind]

/-- C77. The classes are those that the command offers, in its order, with one object for each. -/
theorem C77_classes : defaults.map MFn.className = Strings.MESH_COEFFICIENTS := by decide

/-- C77. The names of the objects made with the default parameters. -/
theorem C77_default_names {V : Type} (limDen : ℚ → ℚ) (hlim : LimitDenominator limDen) (e : MEnv V) :
    (defaults.map fun f => f.name limDen e) =
      [(NumPy.item e.meshEvals 0).map fun x => tidy (e.meshName ++ "_rank0_lam" ++ e.fmtE x), .ok (e.meshName ++ "_field"),
       .ok (e.meshName ++ "_noise_field_10snr"), .ok ("slepian_" ++ e.meshName ++ "_field"),
       (NumPy.item e.slepian.evals 0).map fun x => tidy ("slepian_" ++ e.meshName ++ "_rank0_lam" ++ e.fmtE x),
       .ok ("slepian_" ++ e.meshName ++ "_noise_field_-5snr"),
       .ok ("slepian_wavelet_coefficients_" ++ e.meshName ++ "_3B_2jmin_scaling"),
       .ok ("slepian_wavelets_" ++ e.meshName ++ "_3B_2jmin_scaling")] := by
  have hf : ∀ (v : ℤ) (a : String), Strings.filenameArgs limDen (v : ℚ) a = Strings.filenameArgs id (v : ℚ) a := by
    intro v a
    simp only [Strings.filenameArgs, Strings.angleNumDem, hlim (v : ℚ) (by simp), id]
  have h1 : Strings.filenameArgs limDen 10 "snr" = "_10snr" := (hf 10 "snr").trans (by decide +kernel)
  have h2 : Strings.filenameArgs limDen (-5) "snr" = "_-5snr" := by
    have := hf (-5) "snr"
    push_cast at this
    exact this.trans (by decide +kernel)
  have h3 : waveName limDen {} = "_3B_2jmin_scaling" := by
    have : waveName limDen {} = Strings.filenameArgs limDen ((3 : ℤ) : ℚ) "B" ++ Strings.filenameArgs limDen ((2 : ℤ) : ℚ) "jmin" ++
      "_scaling" := rfl
    rw [this, hf, hf]
    decide +kernel
  have ha : ∀ b x y : String, b ++ x ++ y = b ++ (x ++ y) := fun b x y => String.append_assoc
  simp only [defaults, List.map_cons, List.map_nil, MFn.name, h1, h2, h3, ha]
  rfl

/-! ### names -/

/-- The meshes that come with the package. -/
def meshNames : List String := ["bird", "cheetah", "cube", "dragon", "homer", "teapot"]

/-- The parameters are recorded exactly in a name. -/
def MNameRecords : MFn → Prop
  | .noiseField a | .slepianNoiseField a => Recorded a
  | _ => True

/-- a word of the name ends at the first separator. -/
private theorem word {a b r s : String} (ha : '_' ∉ a.toList) (hb : '_' ∉ b.toList) (hr : NameTail r) (hs : NameTail s)
    (h : a ++ r = b ++ s) : a = b ∧ r = s := by
  have h1 := congrArg String.toList h
  rw [String.toList_append, String.toList_append] at h1
  have e : ∀ t : String, ("_" ++ t).toList = '_' :: t.toList := fun t => by rw [String.toList_append]; rfl
  rcases hr with rfl | ⟨t, rfl⟩ <;> rcases hs with rfl | ⟨u, rfl⟩
  · exact ⟨by simpa using h, rfl⟩
  · exfalso
    apply ha
    rw [e] at h1
    simp only [String.toList_empty, List.append_nil] at h1
    rw [h1]; simp
  · exfalso
    apply hb
    rw [e] at h1
    simp only [String.toList_empty, List.append_nil] at h1
    rw [← h1]; simp
  · rw [e, e] at h1
    obtain ⟨h2, h3⟩ := split_first ha hb h1
    exact ⟨String.toList_injective h2, by rw [String.toList_injective h3]⟩

private theorem cancel {x r s : String} (h : x ++ r = x ++ s) : r = s := by
  have h1 := congrArg String.toList h
  simp only [String.toList_append] at h1
  exact String.toList_injective (List.append_cancel_left h1)

private theorem tail_append {a : String} (ha : NameTail a) {x : String} (hx : NameTail x) : NameTail (a ++ x) := by
  rcases ha with rfl | ⟨t, rfl⟩
  · rwa [String.empty_append]
  · exact Or.inr ⟨t ++ x, by rw [String.append_assoc]⟩

private theorem tail_mk (t : String) : NameTail ("_" ++ t) := Or.inr ⟨t, rfl⟩

private theorem tidy_append (a b : String) : tidy (a ++ b) = tidy a ++ tidy b := by
  simp [tidy, String.toList_append, ← String.ofList_append]

private theorem tidy_self (a : String) (h : ∀ c ∈ a.toList, c ≠ '.' ∧ c ≠ '+') : tidy a = a := by
  have h1 : (a.toList.map fun c => if c = '.' then '-' else c) = a.toList := by
    conv_rhs => rw [← List.map_id a.toList]
    exact List.map_congr_left fun c hc => by simp [(h c hc).1]
  unfold tidy
  rw [h1, List.filter_eq_self.2 (fun c hc => by simp [(h c hc).2]), String.ofList_toList]

private theorem tidy_no_underscore (a : String) (h : '_' ∉ a.toList) : '_' ∉ (tidy a).toList := by
  intro hc
  simp only [tidy, String.toList_ofList, List.mem_filter, List.mem_map] at hc
  obtain ⟨⟨c, h1, h2⟩, -⟩ := hc
  split_ifs at h2
  · exact absurd h2 (by decide)
  · exact h (h2 ▸ h1)

private theorem meshNames_plain : ∀ m ∈ meshNames, '_' ∉ m.toList ∧ (∀ c ∈ m.toList, c ≠ '.' ∧ c ≠ '+') ∧ m ≠ "slepian" ∧
    m ≠ "wavelet" ∧ m ≠ "wavelets" ∧ Functions.contains "slepian" m = false := by decide +kernel

/-- The first word, the second word and the rest of a name. -/
private inductive Parts (limDen : ℚ → ℚ) (M : String) : MFn → String → String → String → Prop
  | basis (r : ℤ) (h : 0 ≤ r) (E : String) (hE : '_' ∉ E.toList) :
      Parts limDen M (.basisFunctions r) M ("rank" ++ toString r) ("_" ++ ("lam" ++ E))
  | field : Parts limDen M .field M "field" ""
  | noise (x) : Parts limDen M (.noiseField x) M "noise" ("_field" ++ filenameArgs limDen x "snr")
  | slepianField : Parts limDen M .slepianField "slepian" M "_field"
  | slepian (r : ℤ) (h : 0 ≤ r) (E : String) (hE : '_' ∉ E.toList) :
      Parts limDen M (.slepianFunctions r) "slepian" M ("_" ++ ("rank" ++ toString r ++ ("_" ++ ("lam" ++ E))))
  | slepianNoise (x) : Parts limDen M (.slepianNoiseField x) "slepian" M ("_noise_field" ++ filenameArgs limDen x "snr")
  | coefficients (w) : Parts limDen M (.slepianWaveletCoefficients w) "slepian" "wavelet"
      ("_" ++ ("coefficients" ++ ("_" ++ (M ++ waveName limDen w))))
  | wavelets (w) : Parts limDen M (.slepianWavelets w) "slepian" "wavelets" ("_" ++ (M ++ waveName limDen w))

private theorem item_mem {α : Type} {l : List α} {i : ℕ} {x : α} (h : NumPy.item l i = .ok x) : x ∈ l := by
  unfold NumPy.item at h
  cases h1 : l[i]? with
  | none => rw [h1] at h; cases h
  | some y => rw [h1] at h; cases h; exact List.mem_of_getElem? h1

private theorem rank_chars {r : ℤ} (h : 0 ≤ r) : '_' ∉ (toString r).toList ∧ ∀ c ∈ (toString r).toList, c ≠ '.' ∧ c ≠ '+' :=
  ⟨not_mem_int_of_nonneg h rfl, fun c hc => ⟨by rintro rfl; exact not_mem_int_of_nonneg h rfl hc,
    by rintro rfl; exact not_mem_int_of_nonneg h rfl hc⟩⟩

private theorem name_parts {V : Type} (limDen : ℚ → ℚ) (e : MEnv V) (hM : e.meshName ∈ meshNames)
    (hE : ∀ x, '_' ∉ (e.fmtE x).toList) (f : MFn) (hf : MAdmissible f) (base : String) (h : f.name limDen e = .ok base) :
    ∃ a b c, Parts limDen e.meshName f a b c ∧ base = a ++ ("_" ++ b ++ c) := by
  obtain ⟨-, hm, -⟩ := meshNames_plain _ hM
  have t1 : tidy "_rank" = "_" ++ "rank" := by decide +kernel
  have t2 : tidy "_lam" = "_" ++ "lam" := by decide +kernel
  have t3 : tidy "slepian_" = "slepian" ++ "_" := by decide +kernel
  cases f
  case basisFunctions r =>
    simp only [MFn.name, bind, Except.bind] at h
    split at h
    · cases h
    · rename_i x hx
      simp only [pure, Except.pure, Except.ok.injEq] at h
      refine ⟨_, _, _, .basis r hf (tidy (e.fmtE x)) (tidy_no_underscore _ (hE x)), ?_⟩
      rw [← h]
      simp only [tidy_append, tidy_self _ hm, tidy_self _ (rank_chars hf).2, t1, t2, String.append_assoc]
  case slepianFunctions r =>
    simp only [MFn.name, bind, Except.bind] at h
    split at h
    · cases h
    · rename_i x hx
      simp only [pure, Except.pure, Except.ok.injEq] at h
      refine ⟨_, _, _, .slepian r hf (tidy (e.fmtE x)) (tidy_no_underscore _ (hE x)), ?_⟩
      rw [← h]
      simp only [tidy_append, tidy_self _ hm, tidy_self _ (rank_chars hf).2, t1, t2, t3, String.append_assoc]
  all_goals
    simp only [MFn.name, Except.ok.injEq] at h
    refine ⟨_, _, _, by constructor, ?_⟩
    rw [← h]
    apply String.toList_injective
    simp [String.toList_append]

private theorem wave_tail (limDen : ℚ → ℚ) (w : Wave) (r : String) : NameTail (waveName limDen w ++ r) := by
  unfold waveName
  rw [String.append_assoc, String.append_assoc]
  exact fragment_tail _ _ _ _

private theorem rest_tail {limDen : ℚ → ℚ} {M : String} {f : MFn} {a b c : String} (h : Parts limDen M f a b c) : NameTail c := by
  cases h
  case field => exact Or.inl rfl
  case noise x => exact Or.inr ⟨"field" ++ filenameArgs limDen x "snr", by rw [← String.append_assoc]; rfl⟩
  case slepianField => exact Or.inr ⟨"field", rfl⟩
  case slepianNoise x => exact Or.inr ⟨"noise_field" ++ filenameArgs limDen x "snr", by rw [← String.append_assoc]; rfl⟩
  all_goals exact tail_mk _

private theorem words_plain {limDen : ℚ → ℚ} {M : String} (hM : '_' ∉ M.toList) {f : MFn} {a b c : String}
    (h : Parts limDen M f a b c) : '_' ∉ a.toList ∧ '_' ∉ b.toList := by
  have e : ∀ x : String, ("rank" ++ x).toList = ['r', 'a', 'n', 'k'] ++ x.toList := fun x => by rw [String.toList_append]; rfl
  cases h
  case basis r h E hE =>
    refine ⟨hM, ?_⟩
    rw [e, List.mem_append, not_or]
    exact ⟨by decide, (rank_chars h).1⟩
  all_goals first | exact ⟨hM, by decide⟩ | exact ⟨by decide, hM⟩ | exact ⟨by decide, by decide⟩

private theorem rank_word {r r' : ℤ} (h : "rank" ++ toString r = "rank" ++ toString r') : r = r' :=
  int_inj (congrArg String.toList (cancel h))

private theorem parts_inj {limDen : ℚ → ℚ} (hlim : LimitDenominator limDen) {M M' : String} (hM : M ∈ meshNames) (hM' : M' ∈ meshNames)
    {f g : MFn} (hf : MNameRecords f) (hg : MNameRecords g) {a b c a' b' c' : String} (h : Parts limDen M f a b c)
    (h' : Parts limDen M' g a' b' c') {r s : String} (hr : NameTail r) (hs : NameTail s)
    (heq0 : a ++ ("_" ++ b ++ c) ++ r = a' ++ ("_" ++ b' ++ c') ++ s) : M = M' ∧ f = g ∧ r = s := by
  obtain ⟨m1, -, m2, m3, m4, -⟩ := meshNames_plain _ hM
  obtain ⟨m1', -, m2', m3', m4', -⟩ := meshNames_plain _ hM'
  obtain ⟨p1, p2⟩ := words_plain m1 h
  obtain ⟨p1', p2'⟩ := words_plain m1' h'
  have hsnr : ArgName "snr" := ⟨'s', _, rfl, rfl⟩
  simp only [String.append_assoc] at heq0
  obtain ⟨e1, heq1⟩ := word p1 p1' (tail_mk _) (tail_mk _) heq0
  obtain ⟨e2, heq⟩ := word p2 p2' (tail_append (rest_tail h) hr) (tail_append (rest_tail h') hs) (cancel heq1)
  clear heq0 heq1
  have chars : ∀ {x y : String}, x = y → x.toList = y.toList := fun h => congrArg _ h
  have lam : ∀ {E E' : String}, '_' ∉ E.toList → '_' ∉ E'.toList →
      "_" ++ ("lam" ++ E) ++ r = "_" ++ ("lam" ++ E') ++ s → r = s := by
    intro E E' hE hE' h
    simp only [String.append_assoc] at h
    exact (word hE hE' hr hs (cancel (cancel h))).2
  cases h <;> cases h' <;>
    first
    | (exact absurd e1 m2) | (exact absurd e1.symm m2') | (exact absurd e2 m3) | (exact absurd e2.symm m3')
    | (exact absurd e2 m4) | (exact absurd e2.symm m4')
    | (exfalso; have := chars e2; simp [String.toList_append] at this; done)
    | (exfalso; have := chars heq; simp [String.toList_append] at this; done)
    | skip
  case basis.basis r₁ h₁ E hE r₂ h₂ E' hE' =>
    rw [rank_word e2]
    exact ⟨e1, rfl, lam hE hE' heq⟩
  case field.field => exact ⟨e1, rfl, by simpa using heq⟩
  case noise.noise x y =>
    rw [String.append_assoc, String.append_assoc] at heq
    obtain ⟨rfl, h9⟩ := fragment_inj limDen hlim "snr" hsnr x y hf hg r s hr hs (cancel heq)
    exact ⟨e1, rfl, h9⟩
  case slepianField.slepianField => exact ⟨e2, rfl, cancel heq⟩
  case slepian.slepian r₁ h₁ E hE r₂ h₂ E' hE' =>
    simp only [String.append_assoc] at heq
    obtain ⟨h1, h2⟩ := word (rank_chars h₁).1 (rank_chars h₂).1 (tail_mk _) (tail_mk _) (cancel (cancel heq))
    have : r₁ = r₂ := int_inj (congrArg String.toList h1)
    subst this
    exact ⟨e2, rfl, lam hE hE' (by simpa only [String.append_assoc] using h2)⟩
  case slepianNoise.slepianNoise x y =>
    rw [String.append_assoc, String.append_assoc] at heq
    obtain ⟨rfl, h9⟩ := fragment_inj limDen hlim "snr" hsnr x y hf hg r s hr hs (cancel heq)
    exact ⟨e2, rfl, h9⟩
  case coefficients.coefficients w w' =>
    simp only [String.append_assoc] at heq
    have h1 := cancel (cancel (cancel heq))
    obtain ⟨h2, h3⟩ := word m1 m1' (wave_tail _ _ _) (wave_tail _ _ _) h1
    obtain ⟨rfl, h9⟩ := waveName_inj limDen hlim w w' r s hr hs h3
    exact ⟨h2, rfl, h9⟩
  case wavelets.wavelets w w' =>
    simp only [String.append_assoc] at heq
    have h1 := cancel heq
    obtain ⟨h2, h3⟩ := word m1 m1' (wave_tail _ _ _) (wave_tail _ _ _) h1
    obtain ⟨rfl, h9⟩ := waveName_inj limDen hlim w w' r s hr hs h3
    exact ⟨h2, rfl, h9⟩

section
variable {V : Type} [Fintype V]

/-- C77. The name of an object: the name of the function (which tells the mesh), then the region, the noise and the zoom — for
Slepian functions too, as the test is on the name of the mesh. -/
theorem C77_name (limDen : ℚ → ℚ) (e : MEnv V) (hM : e.meshName ∈ meshNames) (f : MFn) (hf : MAdmissible f) (noise : Option ℚ)
    (region : Bool) (w w' : Noise.World) (o : Ranks.Obj) (ho : f.construct limDen e none noise region w = .ok (o, w')) :
    ∃ base, f.name limDen e = .ok base ∧ o.name = base ++ (if region then "_region" else "")
      ++ (noise.elim "" fun n => filenameArgs limDen n "noise") ++ (if e.zoom then "_zoom" else "") := by
  obtain ⟨-, -, -, -, -, hc⟩ := meshNames_plain _ hM
  have hd : ∀ base, Ranks.addDetails limDen ⟨e.meshName, e.zoom, noise, region⟩ base = base ++ (if region then "_region" else "")
      ++ (noise.elim "" fun n => filenameArgs limDen n "noise") ++ (if e.zoom then "_zoom" else "") := by
    intro base
    simp only [Ranks.addDetails, hc, Bool.not_false, Bool.and_true]
    cases region <;> cases noise <;> cases e.zoom <;> simp
  unfold MFn.construct at ho
  rw [no_args _ _ f hf] at ho
  simp only [bind, Except.bind] at ho
  cases hn : f.name limDen e with
  | error x =>
    exfalso
    split_ifs at ho
    · simp [slepianFunction, hn, bind, Except.bind] at ho
    · simp [Ranks.meshFunction, hn, bind, Except.bind] at ho
  | ok base =>
    refine ⟨base, rfl, ?_⟩
    rw [← hd]
    cases hcr : f.create e w with
    | error x =>
      exfalso
      split_ifs at ho
      · simp [slepianFunction, hn, hcr, bind, Except.bind] at ho
      · simp [Ranks.meshFunction, hn, hcr, bind, Except.bind] at ho
    | ok p =>
      split_ifs at ho
      · simp only [slepianFunction, hn, hcr, bind, Except.bind] at ho
        cases noise with
        | none =>
          simp only [pure, Except.pure, Except.ok.injEq, Prod.mk.injEq] at ho
          rw [← ho.1]
        | some v =>
          dsimp only at ho
          split at ho
          · cases ho
          · split at ho
            · cases ho
            · simp only [pure, Except.pure, Except.ok.injEq, Prod.mk.injEq] at ho
              rw [← ho.1]
      · simp only [Ranks.meshFunction, hn, hcr, bind, Except.bind] at ho
        cases noise with
        | none =>
          simp only [pure, Except.pure, Except.ok.injEq, Prod.mk.injEq] at ho
          rw [← ho.1]
        | some v =>
          dsimp only at ho
          split at ho
          · cases ho
          · split at ho
            · cases ho
            · simp only [pure, Except.pure, Except.ok.injEq, Prod.mk.injEq] at ho
              rw [← ho.1]

/-- C77 is violated: the region is meant to be added to names of functions other than Slepian functions, but the test looks for
`slepian` in the name of the mesh, so Slepian functions get it too. -/
theorem C77_slepian_region_violation (limDen : ℚ → ℚ) (e : MEnv V) (hM : e.meshName ∈ meshNames) (hz : e.zoom = false)
    (w w' : Noise.World) (o : Ranks.Obj) (ho : MFn.slepianField.construct limDen e none none true w = .ok (o, w')) :
    o.name = "slepian_" ++ e.meshName ++ "_field_region" := by
  obtain ⟨base, h1, h2⟩ := C77_name limDen e hM .slepianField trivial none true w w' o ho
  cases h1
  rw [h2, hz]
  apply String.toList_injective
  simp [String.toList_append]

/-- a fragment starts with a digit, a sign or the name of its argument. -/
private theorem fragment_ne (limDen : ℚ → ℚ) (v : ℚ) {x : String} {c : Char} {t : List Char} (hx : x.toList = '_' :: c :: t)
    (hc : c ≠ '-' ∧ c.isDigit = false ∧ c ≠ 'n') (r s : String) : x ++ r ≠ filenameArgs limDen v "noise" ++ s := by
  intro h
  have h1 := congrArg String.toList h
  rw [String.toList_append, String.toList_append, filenameArgs_toList, hx] at h1
  simp only [List.cons_append, List.cons.injEq, true_and] at h1
  cases hd : (toString (limDen v).num).toList with
  | nil =>
    rw [hd] at h1
    have e2 : ("noise" : String).toList = ['n', 'o', 'i', 's', 'e'] := rfl
    simp [e2] at h1
    exact hc.2.2 h1.1
  | cons d ds =>
    have h2 := int_chars (limDen v).num d (by rw [hd]; simp)
    rw [hd] at h1
    simp only [List.cons_append, List.cons.injEq] at h1
    rw [← h1.1] at h2
    rcases h2 with h2 | h2
    · exact hc.1 h2
    · rw [hc.2.1] at h2; cases h2

private theorem details_inj (limDen : ℚ → ℚ) (hlim : LimitDenominator limDen) (b b' z z' : Bool) (n n' : Option ℚ)
    (h : (if b then "_region" else "") ++ ((n.elim "" fun n => filenameArgs limDen n "noise") ++
        (if z then "_zoom" else "")) =
      (if b' then "_region" else "") ++ ((n'.elim "" fun n => filenameArgs limDen n "noise") ++
        (if z' then "_zoom" else "")))
    (hn : ∀ v ∈ n, Recorded v) (hn' : ∀ v ∈ n', Recorded v) : b = b' ∧ n = n' ∧ z = z' := by
  have hA : ArgName "noise" := ⟨'n', _, rfl, rfl⟩
  have zt : ∀ z : Bool, NameTail (if z = true then "_zoom" else "") := by
    intro z; cases z
    · exact Or.inl rfl
    · exact Or.inr ⟨"zoom", rfl⟩
  have noise_end : ∀ (n n' : Option ℚ) (z z' : Bool), (∀ v ∈ n, Recorded v) → (∀ v ∈ n', Recorded v) →
      (n.elim "" fun n => filenameArgs limDen n "noise") ++ (if z then "_zoom" else "") =
        (n'.elim "" fun n => filenameArgs limDen n "noise") ++ (if z' then "_zoom" else "") →
      n = n' ∧ z = z' := by
    intro n n' z z' hn hn' h
    cases n with
    | none =>
      cases n' with
      | none =>
        refine ⟨rfl, ?_⟩
        rw [Option.elim_none, String.empty_append, String.empty_append] at h
        revert h
        cases z <;> cases z' <;> decide
      | some v =>
        exfalso
        rw [Option.elim_none, String.empty_append] at h
        cases z
        · have h1 := congrArg String.toList h
          rw [String.toList_append, Option.elim_some, filenameArgs_toList] at h1
          simp at h1
        · exact fragment_ne limDen v (x := "_zoom") (c := 'z') (t := "oom".toList) rfl (by decide) "" _
            (by simpa using h)
    | some v =>
      cases n' with
      | none =>
        exfalso
        rw [Option.elim_none, String.empty_append] at h
        cases z'
        · have h1 := congrArg String.toList h
          rw [String.toList_append, Option.elim_some, filenameArgs_toList] at h1
          simp at h1
        · exact fragment_ne limDen v (x := "_zoom") (c := 'z') (t := "oom".toList) rfl (by decide) "" _
            (by simpa using h.symm)
      | some v' =>
        obtain ⟨rfl, h2⟩ := fragment_inj limDen hlim "noise" hA v v' (hn v rfl) (hn' v' rfl) _ _ (zt z) (zt z') h
        refine ⟨rfl, ?_⟩
        revert h2; cases z <;> cases z' <;> decide
  have ne : ∀ (n : Option ℚ) (z : Bool) (r : String), "_region" ++ r ≠
      (n.elim "" fun n => filenameArgs limDen n "noise") ++ (if z then "_zoom" else "") := by
    intro n z r h
    cases n with
    | none =>
      rw [Option.elim_none, String.empty_append] at h
      cases z <;> (have h1 := congrArg String.toList h; simp at h1)
    | some v => exact fragment_ne limDen v (x := "_region") (c := 'r') (t := "egion".toList) rfl (by decide) _ _ h
  cases b <;> cases b'
  · exact ⟨rfl, noise_end n n' z z' hn hn' (by simpa using h)⟩
  · exact absurd (by simpa using h.symm) (ne n z _)
  · exact absurd (by simpa using h) (ne n' z' _)
  · exact ⟨rfl, noise_end n n' z z' hn hn' (cancel (x := "_region") (by simpa using h))⟩

/-- C77. The name of an object on one of the meshes of the package determines everything given to its construction: the mesh and
its zoom, the class and its parameters, the noise and whether a region was set — provided the signal-to-noise ratios are integers
or small fractions, and `format(·, "e")` writes no underscore. -/
theorem C77_name_determines_object_partial (limDen : ℚ → ℚ) (hlim : LimitDenominator limDen) (e e' : MEnv V)
    (hM : e.meshName ∈ meshNames) (hM' : e'.meshName ∈ meshNames) (hE : ∀ x, '_' ∉ (e.fmtE x).toList)
    (hE' : ∀ x, '_' ∉ (e'.fmtE x).toList) (f g : MFn) (hf : MAdmissible f) (hg : MAdmissible g) (hfr : MNameRecords f)
    (hgr : MNameRecords g) (noise noise' : Option ℚ) (hn : ∀ v ∈ noise, Recorded v) (hn' : ∀ v ∈ noise', Recorded v)
    (region region' : Bool) (w₁ w₂ w₁' w₂' : Noise.World) (o o' : Ranks.Obj)
    (ho : f.construct limDen e none noise region w₁ = .ok (o, w₂))
    (ho' : g.construct limDen e' none noise' region' w₁' = .ok (o', w₂')) (hname : o.name = o'.name) :
    e.meshName = e'.meshName ∧ e.zoom = e'.zoom ∧ f = g ∧ noise = noise' ∧ region = region' := by
  obtain ⟨base, hb, h1⟩ := C77_name limDen e hM f hf noise region w₁ w₂ o ho
  obtain ⟨base', hb', h1'⟩ := C77_name limDen e' hM' g hg noise' region' w₁' w₂' o' ho'
  obtain ⟨a, b, c, hp, rfl⟩ := name_parts limDen e hM hE f hf base hb
  obtain ⟨a', b', c', hp', rfl⟩ := name_parts limDen e' hM' hE' g hg base' hb'
  have tail : ∀ (r z : Bool) (n : Option ℚ), NameTail ((if r then "_region" else "") ++
      ((n.elim "" fun n => filenameArgs limDen n "noise") ++ (if z then "_zoom" else ""))) := by
    intro r z n
    refine tail_append ?_ (tail_append ?_ ?_)
    · cases r
      · exact Or.inl rfl
      · exact Or.inr ⟨"region", rfl⟩
    · cases n with
      | none => exact Or.inl rfl
      | some v => simpa using fragment_tail limDen v "noise" ""
    · cases z
      · exact Or.inl rfl
      · exact Or.inr ⟨"zoom", rfl⟩
  rw [h1, h1'] at hname
  obtain ⟨r1, r2, r3⟩ := parts_inj hlim hM hM' hfr hgr hp hp' (tail region e.zoom noise) (tail region' e'.zoom noise')
    (by simpa only [String.append_assoc] using hname)
  obtain ⟨r4, r5, r6⟩ := details_inj limDen hlim _ _ _ _ _ _ r3 hn hn'
  exact ⟨r1, r6, r2, r5, r4⟩

end

/-- two extra argument lists, one accepted and one rejected. -/
example (jMax : JMax) (h : jMax 3 10 2 = 4) :
    (MFn.slepianWavelets {}).setupArgs jMax 10 (some [3, 2, 1]) = .ok (.slepianWavelets ⟨3, 2, some 1⟩) ∧
    (MFn.slepianFunctions 0).setupArgs jMax 10 (some [-1]) = .error .valueError := by
  refine ⟨(C77_args jMax 10 (.slepianWavelets {}) _ trivial _).2 (.wavelets _ 3 2 1 ⟨by norm_num, by rw [h]; norm_num⟩), rfl⟩

/-- the names of one Slepian function with a region, noise and zoom. -/
example (e : MEnv (Fin 1)) (h : e.meshName = "bird") (limDen : ℚ → ℚ) (hz : e.zoom = true) :
    MFn.slepianField.name limDen e = .ok "slepian_bird_field" ∧
    Ranks.addDetails limDen ⟨e.meshName, e.zoom, none, true⟩ "slepian_bird_field" = "slepian_bird_field_region_zoom" := by
  refine ⟨by simp [MFn.name, h], ?_⟩
  rw [h, hz]
  simp only [Ranks.addDetails]
  decide +kernel

end Sleplet.Props
