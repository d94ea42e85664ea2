import Verif.Props.MeshScript
import Verif.Props.ClassNames

/-!
C119: the name under which the mesh command saves a figure determines the figure.
-/
namespace Sleplet.Props

open NumPy Classes MeshClasses MeshScript Strings Names

/-! ### words -/

/-- words with an underscore before each. -/
private def joined (ws : List (List Char)) : List Char := ws.flatMap ('_' :: ·)

private theorem joined_cons (w : List Char) (ws : List (List Char)) : joined (w :: ws) = '_' :: (w ++ joined ws) := by simp [joined]

private theorem joined_append (a b : List (List Char)) : joined (a ++ b) = joined a ++ joined b := by simp [joined]

private theorem joined_shape (ws : List (List Char)) : joined ws = [] ∨ ∃ t, joined ws = '_' :: t := by
  cases ws with
  | nil => exact .inl rfl
  | cons w ws => exact .inr ⟨_, joined_cons w ws⟩

private theorem word_split : ∀ {a b x y : List Char}, '_' ∉ a → '_' ∉ b → (x = [] ∨ ∃ t, x = '_' :: t) → (y = [] ∨ ∃ t, y = '_' :: t) →
    a ++ x = b ++ y → a = b ∧ x = y := by
  intro a
  induction a with
  | nil =>
    intro b x y _ hb hx hy h
    cases b with
    | nil => exact ⟨rfl, h⟩
    | cons c b =>
      rcases hx with rfl | ⟨t, rfl⟩
      · cases h
      · simp only [List.nil_append, List.cons_append, List.cons.injEq] at h
        exact absurd (by rw [h.1]; simp) hb
  | cons c a ih =>
    intro b x y ha hb hx hy h
    cases b with
    | nil =>
      rcases hy with rfl | ⟨t, rfl⟩
      · cases h
      · simp only [List.nil_append, List.cons_append, List.cons.injEq] at h
        exact absurd (by rw [h.1]; simp) ha
    | cons d b =>
      simp only [List.cons_append, List.cons.injEq] at h
      obtain ⟨h1, h2⟩ := ih (fun h => ha (List.mem_cons_of_mem _ h)) (fun h => hb (List.mem_cons_of_mem _ h)) hx hy h.2
      exact ⟨by rw [h.1, h1], h2⟩

private theorem joined_inj : ∀ {a b : List (List Char)}, (∀ w ∈ a, '_' ∉ w) → (∀ w ∈ b, '_' ∉ w) → joined a = joined b → a = b := by
  intro a
  induction a with
  | nil =>
    intro b _ _ h
    cases b with
    | nil => rfl
    | cons w b => rw [joined_cons] at h; cases h
  | cons w a ih =>
    intro b ha hb h
    cases b with
    | nil => rw [joined_cons] at h; cases h
    | cons v b =>
      rw [joined_cons, joined_cons] at h
      obtain ⟨h1, h2⟩ := word_split (ha w (by simp)) (hb v (by simp)) (joined_shape _) (joined_shape _) (List.cons.inj h).2
      rw [h1, ih (fun w h => ha w (by simp [h])) (fun w h => hb w (by simp [h])) h2]

/-! ### the words of a name -/

/-- an integer with the name of the argument. -/
private def number (n : ℤ) (arg : String) : List Char := (toString n).toList ++ arg.toList

private theorem number_word (limDen : ℚ → ℚ) (hlim : LimitDenominator limDen) (n : ℤ) (arg : String) :
    (filenameArgs limDen (n : ℚ) arg).toList = '_' :: number n arg := by
  rw [filenameArgs_toList, hlim _ (by simp)]
  have : ¬ (|(n : ℚ)| < 1 ∧ (n : ℚ) ≠ 0) := by
    rintro ⟨h1, h2⟩
    rw [← Int.cast_abs] at h1
    have h3 : |n| < 1 := by exact_mod_cast h1
    rw [Int.abs_lt_one_iff] at h3
    exact h2 (by rw [h3]; rfl)
  rw [if_neg this]
  simp [number]

private theorem number_inj {n n' : ℤ} {arg : String} (h : number n arg = number n' arg) : n = n' :=
  int_inj (List.append_cancel_right h)

private theorem number_plain (n : ℤ) {arg : String} (h : '_' ∉ arg.toList) : '_' ∉ number n arg := by
  intro hm
  rcases List.mem_append.1 hm with hm | hm
  · rcases int_chars n _ hm with h | h <;> revert h <;> decide
  · exact h hm

/-- it begins with a digit or a minus sign. -/
private theorem number_begins (n : ℤ) (arg : String) : ∃ c t, number n arg = c :: t ∧ (c = '-' ∨ c.isDigit = true) := by
  cases h : (toString n).toList with
  | nil =>
    exfalso
    cases n with
    | ofNat m => exact nat_toList_ne_nil m h
    | negSucc m =>
      have : toString (Int.negSucc m) = "-" ++ toString (m + 1) := rfl
      rw [this, String.toList_append] at h
      cases h
  | cons c t => exact ⟨c, t ++ arg.toList, by rw [number, h]; rfl, int_chars n c (by rw [h]; simp)⟩

/-- the words for the details. -/
private def details (region : Bool) (noise : Option ℤ) (zoom norm : Bool) : List (List Char) :=
  (if region then ["region".toList] else []) ++ ((match noise with | some n => [number n "noise"] | none => []) ++
    ((if zoom then ["zoom".toList] else []) ++ (if norm then ["norm".toList] else [])))

private theorem details_inj {r r' z z' m m' : Bool} {n n' : Option ℤ} (h : details r n z m = details r' n' z' m') : n = n' ∧ z = z' ∧ m = m' := by
  have nb : ∀ (n : ℤ) (w : List Char), w ∈ ["region".toList, "zoom".toList, "norm".toList] → number n "noise" ≠ w := by
    intro n w hw h
    obtain ⟨c, t, h1, h2⟩ := number_begins n "noise"
    rw [h1] at h
    simp only [List.mem_cons, List.not_mem_nil, or_false] at hw
    have e1 : "region".toList = ['r', 'e', 'g', 'i', 'o', 'n'] := rfl
    have e2 : "zoom".toList = ['z', 'o', 'o', 'm'] := rfl
    have e3 : "norm".toList = ['n', 'o', 'r', 'm'] := rfl
    rw [e1, e2, e3] at hw
    rcases hw with rfl | rfl | rfl <;> rw [(List.cons.inj h).1] at h2 <;> revert h2 <;> decide
  have n1 := fun n => nb n "region".toList (by simp)
  have n2 := fun n => nb n "zoom".toList (by simp)
  have n3 := fun n => nb n "norm".toList (by simp)
  have d1 : "region".toList ≠ "zoom".toList := by decide
  have d2 : "region".toList ≠ "norm".toList := by decide
  have d3 : "zoom".toList ≠ "norm".toList := by decide
  have inj : ∀ {a b : ℤ}, number a "noise" = number b "noise" → a = b := number_inj
  clear nb
  unfold details at h
  generalize "region".toList = R at *
  generalize "zoom".toList = Z at *
  generalize "norm".toList = N at *
  have n1' := fun n => (n1 n).symm
  have n2' := fun n => (n2 n).symm
  have n3' := fun n => (n3 n).symm
  cases r <;> cases r' <;> cases z <;> cases z' <;> cases m <;> cases m' <;> cases n <;> cases n' <;>
    simp only [Bool.false_eq_true, if_false, if_true, List.nil_append, List.append_nil, List.cons_append, List.cons.injEq, reduceCtorEq, and_false,
      false_and, d1, d2, d3, d1.symm, d2.symm, d3.symm, n1, n2, n3, n1', n2', n3', and_true, true_and] at h ⊢ <;>
    first
    | exact congrArg some (inj h)
    | trivial

private theorem details_plain (r : Bool) (n : Option ℤ) (z m : Bool) : ∀ w ∈ details r n z m, '_' ∉ w := by
  intro w hw
  have hr : '_' ∉ "region".toList := by decide
  have hz : '_' ∉ "zoom".toList := by decide
  have hm : '_' ∉ "norm".toList := by decide
  have hn : ∀ k, '_' ∉ number k "noise" := fun k => number_plain k (by decide)
  cases r <;> cases n <;> cases z <;> cases m <;>
    simp only [details, Bool.false_eq_true, if_false, if_true, List.nil_append, List.append_nil, List.cons_append, List.mem_cons, List.not_mem_nil, or_false] at hw
  all_goals first
    | exact hw.elim
    | (rcases hw with rfl | rfl | rfl | rfl <;> first | exact hr | exact hz | exact hm | exact hn _)
    | (rcases hw with rfl | rfl | rfl <;> first | exact hr | exact hz | exact hm | exact hn _)
    | (rcases hw with rfl | rfl <;> first | exact hr | exact hz | exact hm | exact hn _)
    | (subst hw; first | exact hr | exact hz | exact hm | exact hn _)

/-- details of a name, as words. -/
private theorem details_words (limDen : ℚ → ℚ) (hlim : LimitDenominator limDen) (M : String) (hM : M ∈ meshNames) (r z m : Bool) (n : Option ℤ) (X : String) :
    (if m then Ranks.addDetails limDen ⟨M, z, n.map fun x : ℤ => (x : ℚ), r⟩ X ++ "_norm"
      else Ranks.addDetails limDen ⟨M, z, n.map fun x : ℤ => (x : ℚ), r⟩ X).toList = X.toList ++ joined (details r n z m) := by
  have hc : Functions.contains "slepian" M = false := by
    simp only [meshNames, List.mem_cons, List.not_mem_nil, or_false] at hM
    rcases hM with rfl | rfl | rfl | rfl | rfl | rfl <;> decide +kernel
  have hn : ∀ k : ℤ, (filenameArgs limDen (k : ℚ) "noise").toList = '_' :: number k "noise" := fun k => number_word limDen hlim k _
  have e1 : "_region".toList = '_' :: "region".toList := rfl
  have e2 : "_zoom".toList = '_' :: "zoom".toList := rfl
  have e3 : "_norm".toList = '_' :: "norm".toList := rfl
  unfold Ranks.addDetails details
  cases r <;> cases n <;> cases z <;> cases m <;> simp [hc, joined, hn, e1, e2, e3]

/-- the words of the end of the name of a wavelet. -/
private def waveWords (v : Wave) : List (List Char) :=
  [number v.B "B", number v.jMin "jmin", match v.j with | none => "scaling".toList | some j => number (j + v.jMin) "j"]

private theorem waveWords_eq (limDen : ℚ → ℚ) (hlim : LimitDenominator limDen) (v : Wave) : (waveName limDen v).toList = joined (waveWords v) := by
  unfold waveName waveWords
  rw [String.toList_append, String.toList_append, number_word limDen hlim, number_word limDen hlim]
  cases h : v.j with
  | none =>
    have : "_scaling".toList = '_' :: "scaling".toList := rfl
    simp [waveletEnding, joined, this]
  | some j =>
    simp only [Option.map_some, waveletEnding]
    rw [number_word limDen hlim]
    simp [joined]

private theorem waveWords_inj {v v' : Wave} (h : waveWords v = waveWords v') : v = v' := by
  have nb : ∀ (n : ℤ), number n "j" ≠ "scaling".toList := by
    intro n h
    obtain ⟨c, t, h1, h2⟩ := number_begins n "j"
    have e : "scaling".toList = ['s', 'c', 'a', 'l', 'i', 'n', 'g'] := rfl
    rw [h1, e] at h
    rw [(List.cons.inj h).1] at h2
    revert h2
    decide
  rcases v with ⟨B, jm, j⟩
  rcases v' with ⟨B', jm', j'⟩
  simp only [waveWords, List.cons.injEq, and_true] at h
  obtain ⟨h1, h2, h3⟩ := h
  have := number_inj h1
  have := number_inj h2
  subst_vars
  cases j with
  | none =>
    cases j' with
    | none => rfl
    | some k => exact absurd h3.symm (nb _)
  | some k =>
    cases j' with
    | none => exact absurd h3 (nb _)
    | some k' =>
      have := number_inj h3
      have : k = k' := by omega
      rw [this]

private theorem waveWords_plain (v : Wave) : ∀ w ∈ waveWords v, '_' ∉ w := by
  intro w hw
  simp only [waveWords, List.mem_cons, List.not_mem_nil, or_false] at hw
  rcases hw with rfl | rfl | rfl
  · exact number_plain _ (by decide)
  · exact number_plain _ (by decide)
  · cases v.j with
    | none => exact (by decide : '_' ∉ "scaling".toList)
    | some j => exact number_plain _ (by decide)

private def tidyChars (l : List Char) : List Char := (l.map fun c => if c = '.' then '-' else c).filter fun c => c ≠ '+'

private theorem tidy_chars (s : String) : (tidy s).toList = tidyChars s.toList := by simp [tidy, tidyChars]

private theorem tidyChars_append (a b : List Char) : tidyChars (a ++ b) = tidyChars a ++ tidyChars b := by simp [tidyChars]

private theorem tidyChars_id {l : List Char} (h : ∀ c ∈ l, c ≠ '.' ∧ c ≠ '+') : tidyChars l = l := by
  unfold tidyChars
  have : (l.map fun c => if c = '.' then '-' else c) = l := by
    conv_rhs => rw [← List.map_id l]
    exact List.map_congr_left fun c hc => by rw [if_neg (h c hc).1]; rfl
  rw [this, List.filter_eq_self]
  intro c hc
  simp [(h c hc).2]

private theorem tidyChars_plain {l : List Char} (h : '_' ∉ l) : '_' ∉ tidyChars l := by
  unfold tidyChars
  rw [List.mem_filter, List.mem_map]
  rintro ⟨⟨c, hc, he⟩, -⟩
  split at he
  · revert he; decide
  · exact h (he ▸ hc)

/-- the words of the name of an object, without details. -/
private def Words (M : String) : MFn → List (List Char) → Prop
  | .basisFunctions r, ws => ∃ E, '_' ∉ E ∧ ws = [M.toList, "rank".toList ++ (toString r).toList, "lam".toList ++ E]
  | .field, ws => ws = [M.toList, "field".toList]
  | .noiseField _, _ => False
  | .slepianField, ws => ws = ["slepian".toList, M.toList, "field".toList]
  | .slepianFunctions r, ws => ∃ E, '_' ∉ E ∧ ws = ["slepian".toList, M.toList, "rank".toList ++ (toString r).toList, "lam".toList ++ E]
  | .slepianNoiseField s, ws => ∃ z : ℤ, s = (z : ℚ) ∧ ws = ["slepian".toList, M.toList, "noise".toList, "field".toList, number z "snr"]
  | .slepianWaveletCoefficients v, ws => ws = ["slepian".toList, "wavelet".toList, "coefficients".toList, M.toList] ++ waveWords v
  | .slepianWavelets v, ws => ws = ["slepian".toList, "wavelets".toList, M.toList] ++ waveWords v

private theorem mesh_plain {M : String} (hM : M ∈ meshNames) : '_' ∉ M.toList ∧ (∀ c ∈ M.toList, c ≠ '.' ∧ c ≠ '+') ∧
    M.toList ≠ "slepian".toList ∧ M.toList ≠ "wavelet".toList ∧ M.toList ≠ "wavelets".toList := by
  simp only [meshNames, List.mem_cons, List.not_mem_nil, or_false] at hM
  rcases hM with rfl | rfl | rfl | rfl | rfl | rfl <;> decide

private theorem words_plain {M : String} (hM : M ∈ meshNames) {fn : MFn} {ws : List (List Char)} (h : Words M fn ws) : ∀ w ∈ ws, '_' ∉ w := by
  have hm := (mesh_plain hM).1
  have hr : ∀ r : ℤ, '_' ∉ "rank".toList ++ (toString r).toList := by
    intro r h
    rcases List.mem_append.1 h with h | h
    · revert h; decide
    · rcases int_chars r _ h with h | h <;> revert h <;> decide
  have hE : ∀ E : List Char, '_' ∉ E → '_' ∉ "lam".toList ++ E := by
    intro E hE h
    rcases List.mem_append.1 h with h | h
    · revert h; decide
    · exact hE h
  have c : ∀ s ∈ ["field", "slepian", "noise", "wavelet", "wavelets", "coefficients"], '_' ∉ s.toList := by decide
  intro w hw
  cases fn with
  | basisFunctions r =>
    obtain ⟨E, h1, rfl⟩ := h
    simp only [List.mem_cons, List.not_mem_nil, or_false] at hw
    rcases hw with rfl | rfl | rfl
    exacts [hm, hr _, hE _ h1]
  | field =>
    have h : ws = _ := h
    subst h
    simp only [List.mem_cons, List.not_mem_nil, or_false] at hw
    rcases hw with rfl | rfl
    exacts [hm, c _ (by simp)]
  | noiseField s => exact h.elim
  | slepianField =>
    have h : ws = _ := h
    subst h
    simp only [List.mem_cons, List.not_mem_nil, or_false] at hw
    rcases hw with rfl | rfl | rfl
    exacts [c _ (by simp), hm, c _ (by simp)]
  | slepianFunctions r =>
    obtain ⟨E, h1, rfl⟩ := h
    simp only [List.mem_cons, List.not_mem_nil, or_false] at hw
    rcases hw with rfl | rfl | rfl | rfl
    exacts [c _ (by simp), hm, hr _, hE _ h1]
  | slepianNoiseField s =>
    obtain ⟨z, -, rfl⟩ := h
    simp only [List.mem_cons, List.not_mem_nil, or_false] at hw
    rcases hw with rfl | rfl | rfl | rfl | rfl
    exacts [c _ (by simp), hm, c _ (by simp), c _ (by simp), number_plain _ (by decide)]
  | slepianWaveletCoefficients v =>
    have h : ws = _ := h
    subst h
    simp only [List.mem_append, List.mem_cons, List.not_mem_nil, or_false] at hw
    rcases hw with (rfl | rfl | rfl | rfl) | hw
    exacts [c _ (by simp), c _ (by simp), c _ (by simp), hm, waveWords_plain v w hw]
  | slepianWavelets v =>
    have h : ws = _ := h
    subst h
    simp only [List.mem_append, List.mem_cons, List.not_mem_nil, or_false] at hw
    rcases hw with (rfl | rfl | rfl) | hw
    exacts [c _ (by simp), c _ (by simp), hm, waveWords_plain v w hw]

/-- the words determine the mesh, the class and its parameters. -/
private theorem words_inj {M M' : String} (hM : M ∈ meshNames) (hM' : M' ∈ meshNames) {fn fn' : MFn} {ws ws' d d' : List (List Char)} (h : Words M fn ws)
    (h' : Words M' fn' ws') (he : ws ++ d = ws' ++ d') : M = M' ∧ fn = fn' ∧ d = d' := by
  obtain ⟨-, -, a1, a2, a3⟩ := mesh_plain hM
  obtain ⟨-, -, b1, b2, b3⟩ := mesh_plain hM'
  have mm : M.toList = M'.toList → M = M' := fun h => String.toList_injective h
  have rk : ∀ {r : ℤ} {t : List Char}, "rank".toList ++ (toString r).toList = t → t ≠ "field".toList ∧ t ≠ "noise".toList := by
    rintro r t rfl
    have e : "rank".toList = ['r', 'a', 'n', 'k'] := rfl
    have e1 : "field".toList = ['f', 'i', 'e', 'l', 'd'] := rfl
    have e2 : "noise".toList = ['n', 'o', 'i', 's', 'e'] := rfl
    rw [e, e1, e2]
    constructor <;> intro h <;> simp at h
  have rr : ∀ {r r' : ℤ}, "rank".toList ++ (toString r).toList = "rank".toList ++ (toString r').toList → r = r' :=
    fun h => int_inj (List.append_cancel_left h)
  have ww : "wavelet".toList ≠ "wavelets".toList := by decide
  have fn1 : "field".toList ≠ "noise".toList := by decide
  have wv : ∀ {v v' : Wave} {d d' : List (List Char)}, waveWords v ++ d = waveWords v' ++ d' → v = v' ∧ d = d' := by
    intro v v' d d' h
    have h1 := List.append_inj h rfl
    exact ⟨waveWords_inj h1.1, h1.2⟩
  have r1 : ∀ r : ℤ, "rank".toList ++ (toString r).toList ≠ "field".toList := fun r => (rk rfl).1
  have r2 : ∀ r : ℤ, "rank".toList ++ (toString r).toList ≠ "noise".toList := fun r => (rk rfl).2
  have r1' := fun r => (r1 r).symm
  have r2' := fun r => (r2 r).symm
  have c2 : "slepian".toList ≠ M'.toList := b1.symm
  clear rk
  cases fn <;> cases fn' <;> simp only [Words] at h h'
  case basisFunctions.basisFunctions r r' =>
    obtain ⟨E, -, rfl⟩ := h
    obtain ⟨E', -, rfl⟩ := h'
    simp only [List.cons_append, List.nil_append, List.cons.injEq] at he
    rw [rr he.2.1]
    exact ⟨mm he.1, rfl, he.2.2.2⟩
  case slepianFunctions.slepianFunctions r r' =>
    obtain ⟨E, -, rfl⟩ := h
    obtain ⟨E', -, rfl⟩ := h'
    simp only [List.cons_append, List.nil_append, List.cons.injEq] at he
    rw [rr he.2.2.1]
    exact ⟨mm he.2.1, rfl, he.2.2.2.2⟩
  case slepianNoiseField.slepianNoiseField =>
    obtain ⟨z, rfl, rfl⟩ := h
    obtain ⟨z', rfl, rfl⟩ := h'
    simp only [List.cons_append, List.nil_append, List.cons.injEq] at he
    rw [number_inj he.2.2.2.2.1]
    exact ⟨mm he.2.1, rfl, he.2.2.2.2.2⟩
  case field.field =>
    subst h h'
    simp only [List.cons_append, List.nil_append, List.cons.injEq] at he
    exact ⟨mm he.1, rfl, he.2.2⟩
  case slepianField.slepianField =>
    subst h h'
    simp only [List.cons_append, List.nil_append, List.cons.injEq] at he
    exact ⟨mm he.2.1, rfl, he.2.2.2⟩
  case slepianWaveletCoefficients.slepianWaveletCoefficients =>
    subst h h'
    simp only [List.cons_append, List.nil_append, List.cons.injEq] at he
    obtain ⟨rfl, h2⟩ := wv he.2.2.2.2
    exact ⟨mm he.2.2.2.1, rfl, h2⟩
  case slepianWavelets.slepianWavelets =>
    subst h h'
    simp only [List.cons_append, List.nil_append, List.cons.injEq] at he
    obtain ⟨rfl, h2⟩ := wv he.2.2.2
    exact ⟨mm he.2.2.1, rfl, h2⟩
  all_goals
    exfalso
    generalize "slepian".toList = A1 at *
    generalize "wavelet".toList = A2 at *
    generalize "wavelets".toList = A3 at *
    generalize "field".toList = A4 at *
    generalize "noise".toList = A5 at *
    first
    | (obtain ⟨_, -, rfl⟩ := h; obtain ⟨_, -, rfl⟩ := h')
    | (obtain ⟨_, -, rfl⟩ := h; obtain rfl := h')
    | (obtain rfl := h; obtain ⟨_, -, rfl⟩ := h')
    | (obtain rfl := h; obtain rfl := h')
    simp only [List.cons_append, List.nil_append, List.cons.injEq] at he
    first
    | exact a1 he.1
    | exact c2 he.1
    | exact a2 he.2.1
    | exact a3 he.2.1
    | exact b2 he.2.1.symm
    | exact b3 he.2.1.symm
    | exact r1 _ he.2.1
    | exact r1' _ he.2.1
    | exact r1 _ he.2.2.1
    | exact r1' _ he.2.2.1
    | exact r2 _ he.2.2.1
    | exact r2' _ he.2.2.1
    | exact fn1 he.2.2.1
    | exact fn1 he.2.2.1.symm
    | exact ww he.2.1
    | exact ww he.2.1.symm

/-! ### the run -/

private theorem setup_inv {jMax : JMax} {K : ℕ} {fn fn' : MFn} {extra : Option (List ℤ)} (hfn : fn ∈ defaults)
    (h : fn.setupArgs jMax K extra = .ok fn') : fn'.isSlepian = fn.isSlepian ∧ ∀ s, fn' = .slepianNoiseField s → ∃ z : ℤ, s = (z : ℚ) := by
  have snr : ∀ {f : MFn} {mk : ℚ → MFn}, snrArg f mk extra = .ok fn' → fn' = f ∨ ∃ z : ℤ, fn' = mk (z : ℚ) := by
    intro f mk h
    cases extra with
    | none => cases h; exact .inl rfl
    | some xs =>
      match xs, h with
      | [], h => cases h
      | [x], h => cases h; exact .inr ⟨x, rfl⟩
      | _ :: _ :: _, h => cases h
  have mapped : ∀ {α : Type} {x : Except Err α} {mk : α → MFn}, x.map mk = .ok fn' → ∃ y, fn' = mk y := by
    intro α x mk h
    cases x with
    | error y => cases h
    | ok y => cases h; exact ⟨y, rfl⟩
  have none_ : ∀ {f : MFn}, noArgs f extra = .ok fn' → fn' = f := by
    intro f h
    cases extra with
    | none => cases h; rfl
    | some xs => cases h
  simp only [defaults, List.mem_cons, List.not_mem_nil, or_false] at hfn
  rcases hfn with rfl | rfl | rfl | rfl | rfl | rfl | rfl | rfl <;> simp only [MFn.setupArgs, bind, Except.bind] at h
  · split at h
    · cases h
    · split at h
      · cases h
      · obtain ⟨y, rfl⟩ := mapped h
        exact ⟨rfl, fun s h => by cases h⟩
  · obtain rfl := none_ h
    exact ⟨rfl, fun s h => by cases h⟩
  · rcases snr h with rfl | ⟨z, rfl⟩ <;> exact ⟨rfl, fun s h => by cases h⟩
  · obtain rfl := none_ h
    exact ⟨rfl, fun s h => by cases h⟩
  · split at h
    · cases h
    · obtain ⟨y, rfl⟩ := mapped h
      exact ⟨rfl, fun s h => by cases h⟩
  · rcases snr h with rfl | ⟨z, rfl⟩
    · exact ⟨rfl, fun s h => ⟨-5, by cases h; norm_num⟩⟩
    · exact ⟨rfl, fun s h => ⟨z, by cases h; rfl⟩⟩
  · obtain ⟨y, rfl⟩ := mapped h
    exact ⟨rfl, fun s h => by cases h⟩
  · obtain ⟨y, rfl⟩ := mapped h
    exact ⟨rfl, fun s h => by cases h⟩

private theorem name_words {V : Type} {limDen : ℚ → ℚ} (hlim : LimitDenominator limDen) {e : MEnv V} (hM : e.meshName ∈ meshNames)
    (hfmt : ∀ x, '_' ∉ (e.fmtE x).toList) {fn : MFn} (hs : ∀ s, fn = .slepianNoiseField s → ∃ z : ℤ, s = (z : ℚ)) (hn : ∀ s, fn ≠ .noiseField s)
    {X : String} (h : fn.name limDen e = .ok X) : ∃ ws, Words e.meshName fn ws ∧ '_' :: X.toList = joined ws := by
  obtain ⟨-, hp, -⟩ := mesh_plain hM
  have hi : ∀ r : ℤ, ∀ c ∈ (toString r).toList, c ≠ '.' ∧ c ≠ '+' := by
    intro r c hc
    rcases int_chars r c hc with rfl | hd
    · decide
    · constructor <;> rintro rfl <;> revert hd <;> decide
  have t : ∀ s ∈ ["_rank", "_lam", "slepian_"], tidyChars s.toList = s.toList := by decide
  have t1 := t "_rank" (by simp)
  have t2 := t "_lam" (by simp)
  have t3 := t "slepian_" (by simp)
  have e1 : "_rank".toList = '_' :: "rank".toList := rfl
  have e2 : "_lam".toList = '_' :: "lam".toList := rfl
  have e3 : "slepian_".toList = "slepian".toList ++ ['_'] := rfl
  cases fn with
  | basisFunctions r =>
    simp only [MFn.name, bind, Except.bind] at h
    split at h
    · cases h
    · rename_i x _
      simp only [pure, Except.pure, Except.ok.injEq] at h
      subst h
      refine ⟨_, ⟨tidyChars (e.fmtE x).toList, tidyChars_plain (hfmt x), rfl⟩, ?_⟩
      rw [tidy_chars]
      simp only [String.toList_append, tidyChars_append, t1, t2, tidyChars_id hp, tidyChars_id (hi r)]
      simp only [e1, e2]
      simp [joined]
  | field =>
    simp only [MFn.name, Except.ok.injEq] at h
    subst h
    refine ⟨_, rfl, ?_⟩
    have e4 : "_field".toList = '_' :: "field".toList := rfl
    simp only [String.toList_append, e4]
    simp [joined]
  | noiseField s => exact absurd rfl (hn s)
  | slepianField =>
    simp only [MFn.name, Except.ok.injEq] at h
    subst h
    refine ⟨_, rfl, ?_⟩
    have e4 : "_field".toList = '_' :: "field".toList := rfl
    simp only [String.toList_append, e4, e3]
    simp [joined]
  | slepianFunctions r =>
    simp only [MFn.name, bind, Except.bind] at h
    split at h
    · cases h
    · rename_i x _
      simp only [pure, Except.pure, Except.ok.injEq] at h
      subst h
      refine ⟨_, ⟨tidyChars (e.fmtE x).toList, tidyChars_plain (hfmt x), rfl⟩, ?_⟩
      rw [tidy_chars]
      simp only [String.toList_append, tidyChars_append, t1, t2, t3, tidyChars_id hp, tidyChars_id (hi r)]
      simp only [e1, e2, e3]
      simp [joined]
  | slepianNoiseField s =>
    obtain ⟨z, rfl⟩ := hs s rfl
    simp only [MFn.name, Except.ok.injEq] at h
    subst h
    refine ⟨_, ⟨z, rfl, rfl⟩, ?_⟩
    have e4 : "_noise_field".toList = '_' :: ("noise".toList ++ '_' :: "field".toList) := rfl
    simp only [String.toList_append, e4, e3, number_word limDen hlim]
    simp [joined]
  | slepianWaveletCoefficients v =>
    simp only [MFn.name, Except.ok.injEq] at h
    subst h
    refine ⟨_, rfl, ?_⟩
    have e4 : "slepian_wavelet_coefficients_".toList = "slepian".toList ++ '_' :: ("wavelet".toList ++ '_' :: ("coefficients".toList ++ ['_'])) := rfl
    simp only [String.toList_append, e4, waveWords_eq limDen hlim, joined_append]
    simp [joined]
  | slepianWavelets v =>
    simp only [MFn.name, Except.ok.injEq] at h
    subst h
    refine ⟨_, rfl, ?_⟩
    have e4 : "slepian_wavelets_".toList = "slepian".toList ++ '_' :: ("wavelets".toList ++ ['_']) := rfl
    simp only [String.toList_append, e4, waveWords_eq limDen hlim, joined_append]
    simp [joined]

private theorem fst_same {α : Type} {x y : Except Err (α × Noise.World)} (h : x.map Prod.fst = y.map Prod.fst) {a b : α} {v v' : Noise.World}
    (hx : x = .ok (a, v)) (hy : y = .ok (b, v')) : a = b := by
  subst hx hy
  simpa [Except.map] using h

section
variable {V : Type} [Fintype V]

private theorem noise_steady (e : MEnv V) (c : List ℝ) (snr : ℝ) (w w' : Noise.World) :
    (slepianNoise e c snr w).map Prod.fst = (slepianNoise e c snr w').map Prod.fst := by
  have h := (C23_slepian_noise_reproducible e.normals (fun s => MeshT.slepianMeshInverse e.slepian (s.map Complex.re)) (fun _ => [])
    (fun _ => .ok []) (fun f => (MeshT.meshForward e.meshEvals.length e.slepian.basis f).map fun u => u.map fun x : ℝ => (x : ℂ))
    (fun n => (MeshT.slepianMeshForward e.slepian { ui := some n } none).map fun u => u.map fun x : ℝ => (x : ℂ)) 0
    (c.map fun x : ℝ => (x : ℂ)) snr w w').2
  unfold slepianNoise
  revert h
  generalize Noise.createSlepianMeshNoise _ _ _ _ _ _ w = A
  generalize Noise.createSlepianMeshNoise _ _ _ _ _ _ w' = B
  intro h
  cases A <;> cases B <;> simp [Except.map, bind, Except.bind, pure, Except.pure] at h ⊢
  · exact h
  · rw [h]

private theorem create_same (e : MEnv V) (fn : MFn) {w w' v v' : Noise.World} {c c' : List ℝ} (h : fn.create e w = .ok (c, v))
    (h' : fn.create e w' = .ok (c', v')) : c = c' := by
  have h1 : (fn.create e w).map Prod.fst = (fn.create e w').map Prod.fst := by
    cases fn <;> simp only [MFn.create]
    case slepianNoiseField s =>
      cases slepianFieldCoefficients e with
      | error x => rfl
      | ok c => exact noise_steady e c s w w'
    case basisFunctions r =>
      simp only [bind, Except.bind]
      cases item e.meshEvals r.toNat with
      | error x => rfl
      | ok x =>
        dsimp only
        cases item e.slepian.basis r.toNat with
        | error x => rfl
        | ok phi =>
          dsimp only
          cases MeshT.meshForward e.meshEvals.length e.slepian.basis phi <;> rfl
    case slepianFunctions r =>
      simp only [bind, Except.bind]
      cases item e.slepian.evals r.toNat with
      | error x => rfl
      | ok x =>
        dsimp only
        cases item e.slepian.evecs r.toNat with
        | error x => rfl
        | ok s =>
          dsimp only
          cases MeshT.slepianMeshForward e.slepian { ui := some s } none <;> rfl
    case field => cases fieldCoefficients e <;> rfl
    case slepianField => cases slepianFieldCoefficients e <;> rfl
    case slepianWaveletCoefficients v => cases coefficientsOfScale e v <;> rfl
    case slepianWavelets v => cases Wavelets.selectWavelet (e.wavelets v) v.j <;> rfl
  exact fst_same h1 h h'

/-- the outcome of the class with its parameters. -/
private def Result (limDen : ℚ → ℚ) (e : MEnv V) (fn : MFn) (noise : Option ℚ) (p : String × List ℝ × Option (List ℝ) × Option ℝ × Noise.World) : Prop :=
  fn.name limDen e = .ok p.1 ∧ (∃ w c v, fn.create e w = .ok (c, v) ∧ match noise with
    | none => p.2.1 = c ∧ p.2.2.1 = none ∧ p.2.2.2.1 = none
    | some snr => ∃ w₁ n w₂, (if fn.isSlepian then slepianNoise e c (snr : ℝ) w₁
        else Noise.createMeshNoise e.normals (c.map fun x : ℝ => (x : ℂ)) (snr : ℝ) w₁) = .ok (n, w₂) ∧
      broadcast (· + ·) c n = .ok p.2.1 ∧ p.2.2.1 = some c ∧
      p.2.2.2.1 = some (Noise.computeSnr (c.map fun x : ℝ => (x : ℂ)) (n.map fun x : ℝ => (x : ℂ))))

private theorem core_result {limDen : ℚ → ℚ} {e : MEnv V} {fn : MFn} {extra : Option (List ℤ)} {noise : Option ℚ} {w : Noise.World}
    {p : String × List ℝ × Option (List ℝ) × Option ℝ × Noise.World} (h : meshCore limDen e fn extra noise w = .ok p) :
    ∃ fn', fn.setupArgs e.jMax e.meshEvals.length extra = .ok fn' ∧ Result limDen e fn' noise p := by
  unfold meshCore at h
  cases h1 : fn.setupArgs e.jMax e.meshEvals.length extra with
  | error x => rw [h1] at h; cases h
  | ok fn' =>
    rw [h1] at h
    simp only [bind, Except.bind] at h
    refine ⟨fn', rfl, ?_⟩
    cases h2 : fn'.name limDen e with
    | error x => rw [h2] at h; cases h
    | ok X =>
      rw [h2] at h
      dsimp only at h
      cases h3 : fn'.create e w with
      | error x => rw [h3] at h; cases h
      | ok cv =>
        rw [h3] at h
        dsimp only at h
        cases noise with
        | none =>
          simp only [pure, Except.pure, Except.ok.injEq] at h
          subst h
          exact ⟨h2, w, cv.1, cv.2, h3, rfl, rfl, rfl⟩
        | some snr =>
          dsimp only at h
          cases hs : fn'.isSlepian with
          | true =>
            rw [hs] at h
            simp only [if_true] at h
            cases h4 : slepianNoise e cv.1 (snr : ℝ) cv.2 with
            | error x => rw [h4] at h; cases h
            | ok nw =>
              rw [h4] at h
              dsimp only at h
              cases h5 : broadcast (· + ·) cv.1 nw.1 with
              | error x => rw [h5] at h; cases h
              | ok c' =>
                rw [h5] at h
                simp only [pure, Except.pure, Except.ok.injEq] at h
                subst h
                exact ⟨h2, w, cv.1, cv.2, h3, cv.2, nw.1, nw.2, by rw [hs, if_pos rfl]; exact h4, h5, rfl, rfl⟩
          | false =>
            rw [hs] at h
            simp only [Bool.false_eq_true, if_false] at h
            cases h4 : Noise.createMeshNoise e.normals (cv.1.map fun x : ℝ => (x : ℂ)) (snr : ℝ) cv.2 with
            | error x => rw [h4] at h; cases h
            | ok nw =>
              rw [h4] at h
              dsimp only at h
              cases h5 : broadcast (· + ·) cv.1 nw.1 with
              | error x => rw [h5] at h; cases h
              | ok c' =>
                rw [h5] at h
                simp only [pure, Except.pure, Except.ok.injEq] at h
                subst h
                exact ⟨h2, w, cv.1, cv.2, h3, cv.2, nw.1, nw.2, by rw [hs, if_neg (by simp)]; exact h4, h5, rfl, rfl⟩

private theorem result_unique {limDen : ℚ → ℚ} {e : MEnv V} {fn : MFn} {noise : Option ℚ} {p p' : String × List ℝ × Option (List ℝ) × Option ℝ × Noise.World}
    (h : Result limDen e fn noise p) (h' : Result limDen e fn noise p') : p.1 = p'.1 ∧ p.2.1 = p'.2.1 ∧ p.2.2.1 = p'.2.2.1 ∧ p.2.2.2.1 = p'.2.2.2.1 := by
  obtain ⟨h1, w, c, v, h2, h3⟩ := h
  obtain ⟨h1', w', c', v', h2', h3'⟩ := h'
  obtain rfl := create_same e fn h2 h2'
  rw [h1] at h1'
  refine ⟨Except.ok.inj h1', ?_⟩
  cases noise with
  | none => exact ⟨h3.1.trans h3'.1.symm, h3.2.1.trans h3'.2.1.symm, h3.2.2.trans h3'.2.2.symm⟩
  | some snr =>
    obtain ⟨w₁, n, w₂, k1, k2, k3, k4⟩ := h3
    obtain ⟨w₁', n', w₂', k1', k2', k3', k4'⟩ := h3'
    have hn : n = n' := by
      cases hs : fn.isSlepian with
      | true =>
        simp only [hs, if_true] at k1 k1'
        exact fst_same (noise_steady e c snr w₁ w₁') k1 k1'
      | false =>
        simp only [hs, Bool.false_eq_true, if_false] at k1 k1'
        rw [C23_mesh_noise_reproducible] at k1 k1'
        simp only [Except.ok.injEq, Prod.mk.injEq] at k1 k1'
        rw [← k1.1, ← k1'.1]
    subst hn
    rw [k2] at k2'
    exact ⟨Except.ok.inj k2', k3.trans k3'.symm, k4.trans k4'.symm⟩

end

private theorem main_inv {limDen : ℚ → ℚ} {load : String → Loaded} {a : Args} {w v : Noise.World} {F : Figure}
    (h : main limDen load a w = .ok (some F, v)) : a.function ∈ meshNames ∧ ∃ fn ∈ defaults, ∃ p amp,
      meshCore limDen ((load a.function).mesh a.function false) fn a.extra (a.noise.map fun x : ℤ => (x : ℚ)) w = .ok p ∧
      amplitude ((load a.function).mesh a.function false) fn.isSlepian
        ⟨Ranks.addDetails limDen ⟨a.function, a.zoom, a.noise.map fun x : ℤ => (x : ℚ), a.region⟩ p.1, p.2.1, p.2.2.1, p.2.2.2.1⟩ = .ok amp ∧
      plot (load a.function) ((load a.function).mesh a.function a.zoom) fn.isSlepian
        ⟨Ranks.addDetails limDen ⟨a.function, a.zoom, a.noise.map fun x : ℤ => (x : ℚ), a.region⟩ p.1, p.2.1, p.2.2.1, p.2.2.2.1⟩
        (!a.unnormalise) amp = .ok (some F) := by
  have hmem : a.function ∈ meshNames := by
    by_contra hno
    rw [(C82_arguments limDen load a w).1 hno] at h
    cases h
  refine ⟨hmem, ?_⟩
  rw [mesh_main_core] at h
  cases h0 : readArgs a with
  | error x => rw [h0] at h; cases h
  | ok fm =>
    have hfm := mesh_read_name h0
    rw [h0] at h
    simp only [bind, Except.bind] at h
    cases h1 : Strings.lookup Strings.MESH_COEFFICIENTS "Mesh" fm.2 with
    | error x => rw [h1] at h; cases h
    | ok cls =>
      rw [h1] at h
      dsimp only at h
      cases h2 : classNamed cls with
      | error x => rw [h2] at h; cases h
      | ok fn =>
        have hfn : fn ∈ defaults := by
          unfold classNamed at h2
          split at h2
          · rename_i f hf
            cases h2
            exact List.mem_of_find?_eq_some hf
          · cases h2
        rw [h2] at h
        dsimp only at h
        rw [hfm] at h
        cases h3 : meshCore limDen ((load a.function).mesh a.function false) fn a.extra (a.noise.map fun x : ℤ => (x : ℚ)) w with
        | error x => rw [h3] at h; cases h
        | ok p =>
          rw [h3] at h
          dsimp only at h
          cases h4 : amplitude ((load a.function).mesh a.function false) fn.isSlepian
            ⟨Ranks.addDetails limDen ⟨a.function, a.zoom, a.noise.map fun x : ℤ => (x : ℚ), a.region⟩ p.1, p.2.1, p.2.2.1, p.2.2.2.1⟩ with
          | error x => rw [h4] at h; cases h
          | ok amp =>
            rw [h4] at h
            dsimp only at h
            cases h5 : plot (load a.function) ((load a.function).mesh a.function a.zoom) fn.isSlepian
              ⟨Ranks.addDetails limDen ⟨a.function, a.zoom, a.noise.map fun x : ℤ => (x : ℚ), a.region⟩ p.1, p.2.1, p.2.2.1, p.2.2.2.1⟩
              (!a.unnormalise) amp with
            | error x => rw [h5] at h; cases h
            | ok G =>
              rw [h5] at h
              simp only [pure, Except.pure, Except.ok.injEq, Prod.mk.injEq] at h
              exact ⟨fn, hfn, p, amp, h3, h4, by rw [h5, h.1]⟩

/-- C119.  Two figures of the mesh command that are saved under one name are the same, whatever was asked for and whatever random numbers were drawn
before: a figure is only ever overwritten by itself. -/
theorem C119_mesh_figure_name (limDen : ℚ → ℚ) (hlim : LimitDenominator limDen) (load : String → Loaded)
    (hfmt : ∀ M x, '_' ∉ ((load M).env.fmtE x).toList) (a a' : Args) (w v w' v' : Noise.World) (F F' : Figure)
    (h : main limDen load a w = .ok (some F, v)) (h' : main limDen load a' w' = .ok (some F', v')) (hname : F.filename = F'.filename) : F = F' := by
  obtain ⟨hM, fn, hfn, p, amp, h1, h2, h3⟩ := main_inv h
  obtain ⟨hM', fn', hfn', p', amp', h1', h2', h3'⟩ := main_inv h'
  obtain ⟨k, s1, r1⟩ := core_result h1
  obtain ⟨k', s1', r1'⟩ := core_result h1'
  obtain ⟨i1, i2⟩ := setup_inv hfn s1
  obtain ⟨i1', i2'⟩ := setup_inv hfn' s1'
  have noNoise : ∀ {e : MEnv (Fin (load a.function).n)} {p}, Result limDen e k (a.noise.map fun x : ℤ => (x : ℚ)) p → ∀ s, k ≠ .noiseField s := by
    rintro e p ⟨-, w, c, v, hc, -⟩ s rfl
    cases hc
  have noNoise' : ∀ {e : MEnv (Fin (load a'.function).n)} {p}, Result limDen e k' (a'.noise.map fun x : ℤ => (x : ℚ)) p → ∀ s, k' ≠ .noiseField s := by
    rintro e p ⟨-, w, c, v, hc, -⟩ s rfl
    cases hc
  obtain ⟨ws, w1, w2⟩ := name_words hlim (e := (load a.function).mesh a.function false) hM (fun x => hfmt a.function x) i2 (noNoise r1) r1.1
  obtain ⟨ws', w1', w2'⟩ := name_words hlim (e := (load a'.function).mesh a'.function false) hM' (fun x => hfmt a'.function x) i2' (noNoise' r1') r1'.1
  have f1 := (mesh_plot_name h3).1
  have f2 := (mesh_plot_name h3').1
  have e1 := congrArg ('_' :: ·) (details_words limDen hlim a.function hM a.region a.zoom (!a.unnormalise) a.noise p.1)
  have e2 := congrArg ('_' :: ·) (details_words limDen hlim a'.function hM' a'.region a'.zoom (!a'.unnormalise) a'.noise p'.1)
  dsimp only at f1 f2 e1 e2
  rw [← f1, ← List.cons_append, w2, ← joined_append] at e1
  rw [← f2, ← List.cons_append, w2', ← joined_append, ← hname, e1] at e2
  have plain : ∀ {M : String} (hM : M ∈ meshNames) {k : MFn} {ws : List (List Char)} (h : Words M k ws) (r : Bool) (n : Option ℤ) (z m : Bool),
      ∀ x ∈ ws ++ details r n z m, '_' ∉ x := by
    intro M hM k ws h r n z m x hx
    rcases List.mem_append.1 hx with hx | hx
    · exact words_plain hM h x hx
    · exact details_plain _ _ _ _ x hx
  obtain ⟨q1, q2, q3⟩ := words_inj hM hM' w1 w1' (joined_inj (plain hM w1 _ _ _ _) (plain hM' w1' _ _ _ _) e2)
  obtain ⟨d1, d2, d3⟩ := details_inj q3
  rcases a with ⟨M, ex, me, no, re, un, zo⟩
  rcases a' with ⟨M', ex', me', no', re', un', zo'⟩
  dsimp only [Loaded.mesh] at q1 d1 d2 d3
  have d3 : un = un' := by simpa using d3
  subst q1 d1 d2 d3 q2
  dsimp only at *
  obtain ⟨u1, u2, u3, u4⟩ := result_unique r1 r1'
  rw [f1, f2] at hname
  have ho : Ranks.addDetails limDen ⟨M, zo, no.map fun x : ℤ => (x : ℚ), re⟩ p.1 = Ranks.addDetails limDen ⟨M, zo, no.map fun x : ℤ => (x : ℚ), re'⟩ p'.1 := by
    cases un with
    | true => simpa using hname
    | false =>
      simp only [Bool.not_false, if_true] at hname
      have := congrArg String.toList hname
      rw [String.toList_append, String.toList_append] at this
      exact String.toList_injective (List.append_cancel_right this)
  rw [ho, u2, u3, u4, ← i1] at h2 h3
  rw [← i1'] at h2' h3'
  rw [h2] at h2'
  cases h2'
  rw [h3] at h3'
  exact Option.some.inj (Except.ok.inj h3')

/-- the hypotheses of C119 are met by two command lines: `mesh cube -e 1 -u` and `mesh cube -m basis_functions -e 1 -u`. -/
example (w : Noise.World) : ∃ (load : String → Loaded) (a a' : Args) (F F' : Figure), a ≠ a' ∧ (∀ M x, '_' ∉ ((load M).env.fmtE x).toList) ∧
    main (fun x => x) load a w = .ok (some F, w) ∧ main (fun x => x) load a' w = .ok (some F', w) ∧
    F.filename = F'.filename ∧ F.colours.length = 2 := by
  let c : Config := ⟨1, 1, 1, 0, 0, 0, 1, 2, 1, 1⟩
  let e₀ : MEnv (Fin 3) := ⟨"", false, [], ⟨0, [], fun _ => true, 0, [], []⟩, fun _ => 1, fun _ => "5.0e-01", fun _ _ _ => [], fun _ _ _ => 0,
    fun _ _ => 0⟩
  obtain ⟨e, φ, S, hN, -, hg⟩ := goodMesh_exists e₀
  let load : String → Loaded := fun _ => ⟨3, c, { e with fmtE := fun _ => "5.0e-01" }, fun _ => (0, 0, 0), [(1, 2, 1), (0, 1, 2)]⟩
  let a : Args := { function := "cube", extra := some [1], unnormalise := true }
  have ha : Asks a "basis_functions" := ⟨by decide, Or.inr ⟨rfl, Or.inl rfl⟩⟩
  have hg' : GoodMesh ((load a.function).mesh a.function a.zoom) φ ![1, 1, 0] S 2 := ⟨hg.built, hg.number⟩
  obtain ⟨F, A, h1, h2, -⟩ := C82_basis_functions (fun x => x) load a w ha φ ![1, 1, 0] S 2 (by simp [load]) hg' 1
    rfl rfl rfl
  refine ⟨load, a, { a with method := some (some "basis_functions") }, F, F, fun h => ?_, fun M x => by change '_' ∉ "5.0e-01".toList; decide +kernel, h1, ?_, rfl,
    h2.number⟩
  · have := congrArg Args.method h
    cases this
  · rw [← (C82_arguments (fun x => x) load a w).2.2.1]
    exact h1

end Sleplet.Props
