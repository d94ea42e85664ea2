import Verif.Props.RegionChanges

/-!
C144: sessions one after another.  The first one that saves under a name decides what all later ones with that name get.
-/
namespace Sleplet.Props

open Sleplet.Region Sleplet.Cache

/-- constructions one after another over one data directory. -/
noncomputable def runAll (env : Env) (fs : FS) (js : List Job) : FS :=
  js.foldl (fun fs j => (runAlone fs (construct env j)).2) fs

/-- the construction gets as far as the files named `loc`. -/
def NamedAs (env : Env) (loc : String) (j : Job) : Prop :=
  j.s.validate = .ok () ∧ ∃ r, j.s.createRegion = .ok r ∧ env.location j.s r = loc

/-- it is one that saves when it finds nothing: single orders of a cap are not saved. -/
def SavesAs (env : Env) (loc : String) (j : Job) : Prop :=
  NamedAs env loc j ∧ (IsPolar j.s → j.order = none)

/-- the files of a name hold the solution of `s`. -/
private def Holds (env : Env) (fs : FS) (loc : String) (s : Slepian) : Prop :=
  fs.user (evalFile loc) = some (.evals (env.solve s).1) ∧ fs.user (evecFile loc) = some (.evecs (savedRows env s)) ∧
    (IsPolar s → fs.user (orderFile loc) = some (.orders (env.solve s).2.2))

private def Absent (fs : FS) (loc : String) : Prop :=
  fs.user (evalFile loc) = none ∧ fs.user (evecFile loc) = none ∧ fs.user (orderFile loc) = none

private noncomputable def afterPlain (env : Env) (s : Slepian) (loc : String) (fs : FS) : FS :=
  (fs.write (evalFile loc) (some (.evals (env.solve s).1))).write (evecFile loc) (some (.evecs (savedRows env s)))

private def Missing (fs : FS) (n : String) : Prop := npLoad fs (find fs n) = .error .typeError

private theorem load_absent {fs : FS} (h : ∀ n, fs.registry n = none) {n : String} (hn : fs.user n = none) : Missing fs n := by
  simp [Missing, find, h, hn, npLoad]

private theorem load_evals {fs : FS} (h : ∀ n, fs.registry n = none) {n : String} {w : List ℝ} (hn : fs.user n = some (.evals w)) :
    npLoad fs (find fs n) = .ok (.evals w) := by
  simp [find, h, hn, npLoad, FS.read]

private theorem load_evecs {fs : FS} (h : ∀ n, fs.registry n = none) {n : String} {w : List (List ℂ)} (hn : fs.user n = some (.evecs w)) :
    npLoad fs (find fs n) = .ok (.evecs w) := by
  simp [find, h, hn, npLoad, FS.read]

private theorem load_orders {fs : FS} (h : ∀ n, fs.registry n = none) {n : String} {w : List ℤ} (hn : fs.user n = some (.orders w)) :
    npLoad fs (find fs n) = .ok (.orders w) := by
  simp [find, h, hn, npLoad, FS.read]

private theorem plain_step (fs : FS) (loc : String) (N : ℤ) (w : List ℝ) (v : List (List ℂ)) :
    (runAlone fs (solvePlain loc N w v)).2 = fs ∨ ((Missing fs (evalFile loc) ∨ Missing fs (evecFile loc)) ∧
      (runAlone fs (solvePlain loc N w v)).2 =
        (fs.write (evalFile loc) (some (.evals w))).write (evecFile loc) (some (.evecs (slice v N)))) := by
  unfold solvePlain Missing
  simp only [runAlone]
  rcases h1 : npLoad fs (find fs (evalFile loc)) with e | f
  · cases e <;> first | exact Or.inr ⟨Or.inl rfl, rfl⟩ | exact Or.inl rfl
  · simp only [runAlone]
    rcases h2 : npLoad fs (find fs (evecFile loc)) with e | f
    · cases e <;> first | exact Or.inr ⟨Or.inr rfl, rfl⟩ | exact Or.inl rfl
    · exact Or.inl rfl

private theorem polar_step (fs : FS) (loc : String) (L : ℕ) (N : ℤ) (order : Option ℤ) (w : List ℝ) (v : List (List ℂ)) (o : List ℤ)
    (single : ℤ → List ℝ × List (List ℂ)) :
    (runAlone fs (solvePolar loc L N order w v o single)).2 = fs ∨
      ((Missing fs (evalFile loc) ∨ Missing fs (evecFile loc) ∨ Missing fs (orderFile loc)) ∧ order = none ∧
      (runAlone fs (solvePolar loc L N order w v o single)).2 =
        ((fs.write (evalFile loc) (some (.evals w))).write (evecFile loc) (some (.evecs (if L > lSaveAll then slice v N else v)))).write
          (orderFile loc) (some (.orders o))) := by
  unfold solvePolar Missing
  cases order with
  | some m =>
    left
    simp only [runAlone]
    rcases h1 : npLoad fs (find fs (evalFile loc)) with e | f
    · cases e <;> rfl
    · simp only [runAlone]
      rcases h2 : npLoad fs (find fs (evecFile loc)) with e | f
      · cases e <;> rfl
      · simp only [runAlone]
        rcases h3 : npLoad fs (find fs (orderFile loc)) with e | f
        · cases e <;> rfl
        · rfl
  | none =>
    simp only [runAlone]
    rcases h1 : npLoad fs (find fs (evalFile loc)) with e | f
    · cases e <;> first | exact Or.inr ⟨Or.inl rfl, trivial, rfl⟩ | exact Or.inl rfl
    · simp only [runAlone]
      rcases h2 : npLoad fs (find fs (evecFile loc)) with e | f
      · cases e <;> first | exact Or.inr ⟨Or.inr (Or.inl rfl), trivial, rfl⟩ | exact Or.inl rfl
      · simp only [runAlone]
        rcases h3 : npLoad fs (find fs (orderFile loc)) with e | f
        · cases e <;> first | exact Or.inr ⟨Or.inr (Or.inr rfl), trivial, rfl⟩ | exact Or.inl rfl
        · exact Or.inl rfl

/-- a construction leaves the directory as it is, or saves its own solution because one of its files is missing. -/
private theorem step (env : Env) (fs : FS) (j : Job) :
    (runAlone fs (construct env j)).2 = fs ∨ ∃ loc, SavesAs env loc j ∧
      (Missing fs (evalFile loc) ∨ Missing fs (evecFile loc) ∨ IsPolar j.s ∧ Missing fs (orderFile loc)) ∧
      ((IsPolar j.s ∧ (runAlone fs (construct env j)).2 = afterPolar env j.s loc fs) ∨
        (¬ IsPolar j.s ∧ (runAlone fs (construct env j)).2 = afterPlain env j.s loc fs)) := by
  obtain ⟨s, order⟩ := j
  rcases hv : s.validate with e | u
  · left
    unfold construct
    simp only [hv, runAlone]
  rcases hr : s.createRegion with e | r
  · left
    unfold construct
    simp only [hv, hr, runAlone]
  have hnamed : NamedAs env (env.location s r) ⟨s, order⟩ := ⟨hv, r, hr, rfl⟩
  by_cases hp : IsPolar s
  swap
  · have hc : construct env ⟨s, order⟩ = solvePlain (env.location s r) (env.shannon s) (env.solve s).1 (env.solve s).2.1 := by
      cases s with
      | polarCap L t g => exact absurd trivial hp
      | _ => unfold construct; simp only [hv, hr]
    have hrows : savedRows env s = slice (env.solve s).2.1 (env.shannon s) := by
      cases s with
      | polarCap L t g => exact absurd trivial hp
      | _ => rfl
    rcases plain_step fs (env.location s r) (env.shannon s) (env.solve s).1 (env.solve s).2.1 with h | ⟨h1, h2⟩
    · exact Or.inl (hc ▸ h)
    · refine Or.inr ⟨env.location s r, ⟨hnamed, fun h => absurd h hp⟩, ?_, Or.inr ⟨hp, ?_⟩⟩
      · exact h1.imp_right Or.inl
      · rw [hc, h2, afterPlain, hrows]
  cases s with
  | polarCap L t g =>
    by_cases hb : badOrder L order = true
    · left
      unfold construct
      simp only [hv, hr, hb, if_true, runAlone]
    · have hc : construct env ⟨.polarCap L t g, order⟩ = solvePolar (env.location (.polarCap L t g) r) L (env.shannon (.polarCap L t g)) order
          (env.solve (.polarCap L t g)).1 (env.solve (.polarCap L t g)).2.1 (env.solve (.polarCap L t g)).2.2
          (env.solveOrder (.polarCap L t g)) := by
        unfold construct
        simp only [hv, hr, hb, Bool.false_eq_true, if_false]
      rcases polar_step fs (env.location (.polarCap L t g) r) L (env.shannon (.polarCap L t g)) order
          (env.solve (.polarCap L t g)).1 (env.solve (.polarCap L t g)).2.1 (env.solve (.polarCap L t g)).2.2
          (env.solveOrder (.polarCap L t g)) with h | ⟨h1, h2, h3⟩
      · exact Or.inl (hc ▸ h)
      · refine Or.inr ⟨_, ⟨hnamed, fun _ => h2⟩, ?_, Or.inl ⟨trivial, ?_⟩⟩
        · rcases h1 with h | h | h
          · exact Or.inl h
          · exact Or.inr (Or.inl h)
          · exact Or.inr (Or.inr ⟨trivial, h⟩)
        · rw [hc, h3]
          rfl
  | limitLatLon L a b c d => exact hp.elim
  | arbitrary L m => exact hp.elim

private theorem names_ne {a b : String} (h : a ≠ b) : (∀ n ∈ [evalFile a, evecFile a, orderFile a], n ≠ evalFile b ∧ n ≠ evecFile b ∧ n ≠ orderFile b) := by
  have key : ∀ i j : Fin 3, a ++ (["_eigenvalues.npy", "_eigenvectors.npy", "_orders.npy"].get i) ≠
      b ++ (["_eigenvalues.npy", "_eigenvectors.npy", "_orders.npy"].get j) := fun i j he => h (C12_file_names a b i j he).2
  intro n hn
  simp only [List.mem_cons, List.not_mem_nil, or_false] at hn
  rcases hn with rfl | rfl | rfl
  · exact ⟨key 0 0, key 0 1, key 0 2⟩
  · exact ⟨key 1 0, key 1 1, key 1 2⟩
  · exact ⟨key 2 0, key 2 1, key 2 2⟩

private theorem after_other (env : Env) (s : Slepian) {loc loc' : String} (h : loc ≠ loc') (fs : FS) (n : String)
    (hn : n ∈ [evalFile loc, evecFile loc, orderFile loc]) :
    (afterPolar env s loc' fs).user n = fs.user n ∧ (afterPlain env s loc' fs).user n = fs.user n := by
  obtain ⟨h1, h2, h3⟩ := names_ne h n hn
  simp [afterPolar, afterPlain, FS.write, h1, h2, h3]

private theorem step_registry (env : Env) {fs : FS} (j : Job) (h : ∀ n, fs.registry n = none) :
    ∀ n, (runAlone fs (construct env j)).2.registry n = none := by
  rcases step env fs j with h1 | ⟨loc, -, -, ⟨-, h1⟩ | ⟨-, h1⟩⟩ <;> rw [h1] <;> exact h

/-- a construction that does not save under the name leaves the files of the name as they are. -/
private theorem step_other (env : Env) (fs : FS) (j : Job) (loc : String) (hj : ¬ SavesAs env loc j) (n : String)
    (hn : n ∈ [evalFile loc, evecFile loc, orderFile loc]) : (runAlone fs (construct env j)).2.user n = fs.user n := by
  rcases step env fs j with h1 | ⟨loc', hs, -, ⟨-, h1⟩ | ⟨-, h1⟩⟩
  · rw [h1]
  all_goals
    rw [h1]
    have hne : loc ≠ loc' := fun he => hj (he ▸ hs)
  · exact (after_other env j.s hne fs n hn).1
  · exact (after_other env j.s hne fs n hn).2

private theorem step_absent (env : Env) {fs : FS} (j : Job) (loc : String) (hj : ¬ SavesAs env loc j) (h : Absent fs loc) :
    Absent (runAlone fs (construct env j)).2 loc := by
  refine ⟨?_, ?_, ?_⟩ <;> rw [step_other env fs j loc hj _ (by simp)]
  exacts [h.1, h.2.1, h.2.2]

private theorem step_holds (env : Env) {fs : FS} (hreg : ∀ n, fs.registry n = none) (j : Job) (loc : String) (s₀ : Slepian)
    (hk : NamedAs env loc j → IsPolar j.s → IsPolar s₀) (h : Holds env fs loc s₀) : Holds env (runAlone fs (construct env j)).2 loc s₀ := by
  by_cases hj : SavesAs env loc j
  · rcases step env fs j with h1 | ⟨loc', hs, hm, -⟩
    · rw [h1]; exact h
    · exfalso
      have hl : loc' = loc := by
        obtain ⟨⟨-, r, hr, rfl⟩, -⟩ := hj
        obtain ⟨⟨-, r', hr', rfl⟩, -⟩ := hs
        rw [hr] at hr'
        injection hr' with hr'
        rw [hr']
      subst hl
      rcases hm with hm | hm | ⟨hp, hm⟩ <;> unfold Missing at hm
      · rw [load_evals hreg h.1] at hm; cases hm
      · rw [load_evecs hreg h.2.1] at hm; cases hm
      · rw [load_orders hreg (h.2.2 (hk hj.1 hp))] at hm; cases hm
  · refine ⟨?_, ?_, fun hp => ?_⟩ <;> rw [step_other env fs j loc hj _ (by simp)]
    exacts [h.1, h.2.1, h.2.2 hp]

/-- with none of its files there, a construction keeps its own solution and saves it. -/
private theorem step_fresh (env : Env) {fs : FS} (hreg : ∀ n, fs.registry n = none) (j : Job) (loc : String) (hj : SavesAs env loc j)
    (hb : ∀ L t g, j.s = .polarCap L t g → badOrder L j.order = false) (h : Absent fs loc) :
    (∃ o, (runAlone fs (construct env j)).1 = .ok ⟨.evals (env.solve j.s).1, .evecs (env.solve j.s).2.1, o⟩) ∧
      Holds env (runAlone fs (construct env j)).2 loc j.s := by
  obtain ⟨s, order⟩ := j
  obtain ⟨⟨hv, r, hr, rfl⟩, ho⟩ := hj
  dsimp only at hv hr ho h hb ⊢
  obtain ⟨n1, n2, n3⟩ := files_ne (env.location s r)
  have hl := load_absent hreg h.1
  unfold Missing at hl
  by_cases hp : IsPolar s
  · cases s with
    | polarCap L t g =>
      have ho := ho trivial
      subst ho
      have hrun : runAlone fs (construct env ⟨.polarCap L t g, none⟩) =
          (.ok ⟨.evals (env.solve (.polarCap L t g)).1, .evecs (env.solve (.polarCap L t g)).2.1,
            some (.orders (env.solve (.polarCap L t g)).2.2)⟩,
          afterPolar env (.polarCap L t g) (env.location (.polarCap L t g) r) fs) := by
        unfold construct
        simp only [hv, hr, badOrder, Bool.false_eq_true, if_false]
        unfold solvePolar runAlone
        rw [hl]
        rfl
      rw [hrun]
      refine ⟨⟨_, rfl⟩, ?_, ?_, fun _ => ?_⟩ <;> simp [afterPolar, FS.write, n1, n2, n3]
    | limitLatLon L a b c d => exact hp.elim
    | arbitrary L m => exact hp.elim
  · have hc : construct env ⟨s, order⟩ = solvePlain (env.location s r) (env.shannon s) (env.solve s).1 (env.solve s).2.1 := by
      cases s with
      | polarCap L t g => exact absurd trivial hp
      | _ => unfold construct; simp only [hv, hr]
    have hrows : savedRows env s = slice (env.solve s).2.1 (env.shannon s) := by
      cases s with
      | polarCap L t g => exact absurd trivial hp
      | _ => rfl
    have hrun : runAlone fs (construct env ⟨s, order⟩) =
        (.ok ⟨.evals (env.solve s).1, .evecs (env.solve s).2.1, none⟩, afterPlain env s (env.location s r) fs) := by
      rw [hc, afterPlain, hrows]
      unfold solvePlain runAlone
      rw [hl]
      rfl
    rw [hrun]
    refine ⟨⟨_, rfl⟩, ?_, ?_, fun h => absurd h hp⟩ <;> simp [afterPlain, FS.write, n1]

/-- a construction that finds the files of its name keeps what they hold. -/
private theorem step_loaded (env : Env) {fs : FS} (hreg : ∀ n, fs.registry n = none) (s s₀ : Slepian) (loc : String)
    (hj : NamedAs env loc ⟨s, none⟩) (hk : IsPolar s → IsPolar s₀) (h : Holds env fs loc s₀) :
    ∃ o, (runAlone fs (construct env ⟨s, none⟩)).1 = .ok ⟨.evals (env.solve s₀).1, .evecs (savedRows env s₀), o⟩ ∧
      (IsPolar s → o = some (.orders (env.solve s₀).2.2)) ∧ (¬ IsPolar s → o = none) := by
  obtain ⟨hv, r, hr, rfl⟩ := hj
  dsimp only at hv hr h ⊢
  have l1 := load_evals hreg h.1
  have l2 := load_evecs hreg h.2.1
  by_cases hp : IsPolar s
  · have l3 := load_orders hreg (h.2.2 (hk hp))
    refine ⟨some (.orders (env.solve s₀).2.2), ?_, fun _ => rfl, fun h => absurd hp h⟩
    cases s with
    | polarCap L t g =>
      unfold construct
      simp only [hv, hr, badOrder, Bool.false_eq_true, if_false]
      unfold solvePolar runAlone
      rw [l1]
      simp only
      unfold runAlone
      rw [l2]
      simp only
      unfold runAlone
      rw [l3]
      rfl
    | limitLatLon L a b c d => exact hp.elim
    | arbitrary L m => exact hp.elim
  · refine ⟨none, ?_, fun h => absurd h hp, fun _ => rfl⟩
    have hc : construct env ⟨s, none⟩ = solvePlain (env.location s r) (env.shannon s) (env.solve s).1 (env.solve s).2.1 := by
      cases s with
      | polarCap L t g => exact absurd trivial hp
      | _ => unfold construct; simp only [hv, hr]
    rw [hc]
    unfold solvePlain runAlone
    rw [l1]
    simp only
    unfold runAlone
    rw [l2]
    rfl

private theorem run_registry (env : Env) (js : List Job) : ∀ {fs : FS}, (∀ n, fs.registry n = none) → ∀ n, (runAll env fs js).registry n = none := by
  induction js with
  | nil => exact fun h => h
  | cons j js ih => exact fun h => ih (step_registry env j h)

private theorem run_absent (env : Env) (loc : String) (js : List Job) : (∀ j ∈ js, ¬ SavesAs env loc j) →
    ∀ {fs : FS}, Absent fs loc → Absent (runAll env fs js) loc := by
  induction js with
  | nil => exact fun _ _ h => h
  | cons j js ih =>
    intro hj fs h
    exact ih (fun k hk => hj k (List.mem_cons_of_mem _ hk)) (step_absent env j loc (hj j List.mem_cons_self) h)

private theorem run_holds (env : Env) (loc : String) (s₀ : Slepian) (js : List Job) : (∀ j ∈ js, NamedAs env loc j → IsPolar j.s → IsPolar s₀) →
    ∀ {fs : FS}, (∀ n, fs.registry n = none) → Holds env fs loc s₀ → Holds env (runAll env fs js) loc s₀ := by
  induction js with
  | nil => exact fun _ _ _ h => h
  | cons j js ih =>
    intro hj fs hreg h
    exact ih (fun k hk => hj k (List.mem_cons_of_mem _ hk)) (step_registry env j hreg)
      (step_holds env hreg j loc s₀ (hj j List.mem_cons_self) h)

/-- C144.  Constructions run one after another over a directory without files.  A region whose name none of them saved under gets its own
solution. -/
theorem C144_own (env : Env) (js : List Job) (s : Slepian) (loc : String) (hs : NamedAs env loc ⟨s, none⟩)
    (hjs : ∀ j ∈ js, ¬ SavesAs env loc j) (fs : FS) (h1 : ∀ n, fs.registry n = none) (h2 : ∀ n, fs.user n = none) :
    ∃ o, (runAlone (runAll env fs js) (construct env ⟨s, none⟩)).1 = .ok ⟨.evals (env.solve s).1, .evecs (env.solve s).2.1, o⟩ :=
  (step_fresh env (run_registry env js h1) ⟨s, none⟩ loc ⟨hs, fun _ => rfl⟩ (fun _ _ _ _ => rfl)
    (run_absent env loc js hjs ⟨h2 _, h2 _, h2 _⟩)).1

/-- C144.  Otherwise it gets what the first of them saved: no later one replaces it, whatever its region, unless a cap has the name of a
region that is none. -/
theorem C144_first_decides (env : Env) (before after : List Job) (j₀ : Job) (s : Slepian) (loc : String) (hs : NamedAs env loc ⟨s, none⟩)
    (hbefore : ∀ j ∈ before, ¬ SavesAs env loc j) (hfirst : SavesAs env loc j₀)
    (hafter : ∀ j ∈ after, NamedAs env loc j → IsPolar j.s → IsPolar j₀.s) (hkind : IsPolar s → IsPolar j₀.s)
    (fs : FS) (h1 : ∀ n, fs.registry n = none) (h2 : ∀ n, fs.user n = none) :
    ∃ o, (runAlone (runAll env fs (before ++ j₀ :: after)) (construct env ⟨s, none⟩)).1 =
        .ok ⟨.evals (env.solve j₀.s).1, .evecs (savedRows env j₀.s), o⟩ ∧
      (IsPolar s → o = some (.orders (env.solve j₀.s).2.2)) ∧ (¬ IsPolar s → o = none) := by
  have hb : ∀ L t g, j₀.s = .polarCap L t g → badOrder L j₀.order = false := by
    intro L t g h
    rw [hfirst.2 (by rw [h]; trivial)]
    rfl
  have hreg := run_registry env before h1
  have hh := (step_fresh env hreg j₀ loc hfirst hb (run_absent env loc before hbefore ⟨h2 _, h2 _, h2 _⟩)).2
  have hreg' := step_registry env j₀ hreg
  have hh' := run_holds env loc j₀.s after hafter hreg' hh
  have hreg'' := run_registry env after hreg'
  have he : runAll env fs (before ++ j₀ :: after) = runAll env (runAlone (runAll env fs before) (construct env j₀)).2 after := by
    simp [runAll, List.foldl_append]
  rw [he]
  exact step_loaded env hreg'' s j₀.s loc hs hkind hh'

/-- the file is missing or complete. -/
private def Whole (fs : FS) (n : String) : Prop := ∀ e, fs.user n ≠ some (.torn e)

private theorem load_whole {fs : FS} (h : ∀ n, fs.registry n = none) {n : String} (hn : Whole fs n) :
    Missing fs n ∨ ∃ f, npLoad fs (find fs n) = .ok f := by
  rcases hu : fs.user n with _ | f
  · exact Or.inl (load_absent h hu)
  · cases f with
    | torn e => exact absurd hu (hn e)
    | evals w => exact Or.inr ⟨_, load_evals h hu⟩
    | evecs v => exact Or.inr ⟨_, load_evecs h hu⟩
    | orders o => exact Or.inr ⟨_, load_orders h hu⟩

private theorem step_whole (env : Env) {fs : FS} (j : Job) (n : String) (h : Whole fs n) : Whole (runAlone fs (construct env j)).2 n := by
  rcases step env fs j with h1 | ⟨loc', -, -, ⟨-, h1⟩ | ⟨-, h1⟩⟩ <;> rw [h1]
  · exact h
  all_goals
    intro e he
    simp only [afterPolar, afterPlain, FS.write] at he
    split_ifs at he
    all_goals first | exact h e he | simp at he

private theorem step_no_orders (env : Env) {fs : FS} (j : Job) (loc : String) (hj : SavesAs env loc j → ¬ IsPolar j.s)
    (h : fs.user (orderFile loc) = none) : (runAlone fs (construct env j)).2.user (orderFile loc) = none := by
  by_cases hs : SavesAs env loc j
  · rcases step env fs j with h1 | ⟨loc', -, -, ⟨hp, -⟩ | ⟨-, h1⟩⟩
    · rw [h1]; exact h
    · exact absurd hp (hj hs)
    · rw [h1]
      have n1 : orderFile loc ≠ evalFile loc' := fun he => absurd (C12_file_names loc loc' 2 0 he).1 (by decide)
      have n2 : orderFile loc ≠ evecFile loc' := fun he => absurd (C12_file_names loc loc' 2 1 he).1 (by decide)
      simp [afterPlain, FS.write, n1, n2, h]
  · rw [step_other env fs j loc hs _ (by simp)]
    exact h

/-- C144.  The exception: regions that are not caps save no orders, so a cap with their name, after any number of them, computes and keeps
its own solution. -/
theorem C144_cap_replaces (env : Env) (js : List Job) (s : Slepian) (loc : String) (hs : NamedAs env loc ⟨s, none⟩) (hp : IsPolar s)
    (hjs : ∀ j ∈ js, SavesAs env loc j → ¬ IsPolar j.s) (fs : FS) (h1 : ∀ n, fs.registry n = none) (h2 : ∀ n, fs.user n = none) :
    (runAlone (runAll env fs js) (construct env ⟨s, none⟩)).1 =
      .ok ⟨.evals (env.solve s).1, .evecs (env.solve s).2.1, some (.orders (env.solve s).2.2)⟩ := by
  have hreg := run_registry env js h1
  have hinv : (∀ n, Whole (runAll env fs js) n) ∧ (runAll env fs js).user (orderFile loc) = none := by
    have h0 : (∀ n, Whole fs n) ∧ fs.user (orderFile loc) = none := ⟨fun n e he => (by rw [h2] at he; simp at he), h2 _⟩
    clear h1 h2 hreg
    induction js generalizing fs with
    | nil => exact h0
    | cons j js ih =>
      exact ih (fun k hk => hjs k (List.mem_cons_of_mem _ hk)) _
        ⟨fun n => step_whole env j n (h0.1 n), step_no_orders env j loc (hjs j List.mem_cons_self) h0.2⟩
  generalize runAll env fs js = fs' at hreg hinv
  obtain ⟨hv, r, hr, rfl⟩ := hs
  dsimp only at hv hr hinv ⊢
  have l3 := load_absent hreg hinv.2
  cases s with
  | polarCap L t g =>
    unfold construct
    simp only [hv, hr, badOrder, Bool.false_eq_true, if_false]
    unfold solvePolar runAlone
    rcases load_whole hreg (hinv.1 (evalFile (env.location (.polarCap L t g) r))) with l1 | ⟨f, l1⟩
    · unfold Missing at l1
      rw [l1]
      rfl
    · rw [l1]
      simp only
      unfold runAlone
      rcases load_whole hreg (hinv.1 (evecFile (env.location (.polarCap L t g) r))) with l2 | ⟨f', l2⟩
      · unfold Missing at l2
        rw [l2]
        rfl
      · rw [l2]
        simp only
        unfold runAlone
        unfold Missing at l3
        rw [l3]
        rfl
  | limitLatLon L a b c d => exact hp.elim
  | arbitrary L m => exact hp.elim

/-- the caps of angles one and 1.001, both 57 degrees, have the same files at bandlimit two. -/
theorem two_caps (env : Env) : ∃ r r', (Region.Slepian.polarCap 2 1 false).createRegion = .ok r ∧
    (Region.Slepian.polarCap 2 (1 + 1 / 1000) false).createRegion = .ok r' ∧
    env.location (.polarCap 2 1 false) r = env.location (.polarCap 2 (1 + 1 / 1000) false) r' ∧
    env.shannon (.polarCap 2 (1 + 1 / 1000) false) = 1 := by
  have hpi := Real.pi_gt_d2
  have hpi' := Real.pi_lt_d2
  have region : ∀ t : ℝ, 0 ≤ t → t < Real.pi → ∃ r, (Slepian.polarCap 2 t false).createRegion = .ok r := by
    intro t h0 hlt
    have hp : OnlyThetaMax { gap := false, thetaMax := t } := ⟨rfl, rfl, rfl, hlt.ne⟩
    obtain ⟨r, h, -⟩ := ((C09_classification { gap := false, thetaMax := t }).2
      ⟨⟨by simp; linarith, le_rfl⟩, ⟨le_rfl, by simp; linarith⟩, ⟨h0, hlt.le⟩, le_rfl, by linarith⟩).1 hp
    exact ⟨r, h⟩
  obtain ⟨r, hr⟩ := region 1 (by norm_num) (by linarith)
  obtain ⟨r', hr'⟩ := region (1 + 1 / 1000) (by norm_num) (by linarith)
  have hd : ∀ t : ℝ, 1 ≤ t → t ≤ 1 + 1 / 1000 → angleAsDegree t = 57 := by
    intro t ha hb
    unfold angleAsDegree
    apply round_near
    unfold Py.rad2deg
    rw [abs_lt]
    push_cast
    constructor
    · have : 57 - 1 / 2 < t * 180 / Real.pi := by rw [lt_div_iff₀ (by linarith)]; nlinarith
      linarith
    · have : t * 180 / Real.pi < 57 + 1 / 2 := by rw [div_lt_iff₀ (by linarith)]; nlinarith
      linarith
  have hn : ∀ t : ℝ, 1 ≤ t → t ≤ 1 + 1 / 1000 → (Slepian.polarCap 2 t false).shannon 0 = 1 := by
    intro t ha hb
    unfold Slepian.shannon
    apply round_near
    have h2 : (Slepian.polarCap 2 t false).area 0 * ((Slepian.polarCap 2 t false).L : ℝ) ^ 2 / (4 * Real.pi) = 2 * (1 - Real.cos t) := by
      simp only [Slepian.area, Slepian.L]
      push_cast
      field_simp
      ring
    have h3 : Real.cos t ≤ Real.cos 1 := Real.cos_le_cos_of_nonneg_of_le_pi (by norm_num) (by linarith) ha
    have h4 : Real.cos (Real.pi / 3) ≤ Real.cos t := Real.cos_le_cos_of_nonneg_of_le_pi (by linarith) (by linarith) (by linarith)
    rw [Real.cos_pi_div_three] at h4
    have h5 := Real.cos_one_le
    rw [h2, abs_lt]
    push_cast
    constructor <;> linarith
  refine ⟨r, r', hr, hr', ?_, ?_⟩
  · show "slepian_eigensolutions_D_" ++ r.nameEnding ++ "_L" ++ _ ++ "_N" ++ toString ((Slepian.polarCap 2 1 false).shannon 0) =
      "slepian_eigensolutions_D_" ++ r'.nameEnding ++ "_L" ++ _ ++ "_N" ++ toString ((Slepian.polarCap 2 (1 + 1 / 1000) false).shannon 0)
    rw [polar_name (by linarith) hr, polar_name (by linarith) hr', hd 1 le_rfl (by norm_num), hd (1 + 1 / 1000) (by norm_num) le_rfl,
      hn 1 le_rfl (by norm_num), hn (1 + 1 / 1000) (by norm_num) le_rfl]
    rfl
  · exact hn (1 + 1 / 1000) (by norm_num) le_rfl

/-- the hypotheses are met: a single order of a cap was constructed before the cap. -/
example (env : Env) : ∃ loc, NamedAs env loc ⟨.polarCap 2 1 false, none⟩ ∧
    (∀ j ∈ [(⟨.polarCap 2 1 false, some 0⟩ : Job)], ¬ SavesAs env loc j) ∧ NamedAs env loc ⟨.polarCap 2 1 false, some 0⟩ := by
  obtain ⟨r, -, hr, -⟩ := two_caps env
  refine ⟨_, ⟨by simp [Slepian.validate], r, hr, rfl⟩, fun j hj h => ?_, ⟨by simp [Slepian.validate], r, hr, rfl⟩⟩
  rw [List.mem_singleton.1 hj] at h
  exact absurd (h.2 trivial) (by simp)

/-- the hypotheses are met: a single order and then all orders of a cap, a single order of another cap with the same files, and then that cap. -/
example (env : Env) : ∃ loc, NamedAs env loc ⟨.polarCap 2 (1 + 1 / 1000) false, none⟩ ∧
    (∀ j ∈ [(⟨.polarCap 2 1 false, some 0⟩ : Job)], ¬ SavesAs env loc j) ∧ SavesAs env loc ⟨.polarCap 2 1 false, none⟩ ∧
    (∀ j ∈ [(⟨.polarCap 2 (1 + 1 / 1000) false, some 0⟩ : Job)], NamedAs env loc j → IsPolar j.s → IsPolar (.polarCap 2 1 false)) ∧
    (IsPolar (.polarCap 2 (1 + 1 / 1000) false) → IsPolar (.polarCap 2 1 false)) := by
  obtain ⟨r, r', hr, hr', hloc, -⟩ := two_caps env
  refine ⟨_, ⟨by simp only [Slepian.validate]; rw [if_neg (by norm_num)], r', hr', rfl⟩, fun j hj h => ?_,
    ⟨⟨by simp [Slepian.validate], r, hr, hloc⟩, fun _ => rfl⟩, fun _ _ _ _ => trivial, fun _ => trivial⟩
  rw [List.mem_singleton.1 hj] at h
  exact absurd (h.2 trivial) (by simp)

/-- the hypotheses are met: the region limited to the latitudes of a cap, with all longitudes, has the name of the cap. -/
example (env : Env) : ∃ loc, NamedAs env loc ⟨.polarCap 2 1 false, none⟩ ∧ SavesAs env loc ⟨.limitLatLon 2 0 1 0 (2 * Real.pi), none⟩ ∧
    ∀ j ∈ [(⟨.limitLatLon 2 0 1 0 (2 * Real.pi), none⟩ : Job)], SavesAs env loc j → ¬ IsPolar j.s := by
  obtain ⟨r, -, hr, -⟩ := two_caps env
  refine ⟨_, ⟨by simp [Slepian.validate], r, hr, rfl⟩, ⟨⟨rfl, r, hr, ?_⟩, fun _ => rfl⟩, fun j hj _ => ?_⟩
  · show "slepian_eigensolutions_D_" ++ r.nameEnding ++ "_L" ++ _ ++ "_N" ++
        toString ((Slepian.limitLatLon 2 0 1 0 (2 * Real.pi)).shannon 0) =
      "slepian_eigensolutions_D_" ++ r.nameEnding ++ "_L" ++ _ ++ "_N" ++ toString ((Slepian.polarCap 2 1 false).shannon 0)
    have : (Slepian.limitLatLon 2 0 1 0 (2 * Real.pi)).shannon 0 = (Slepian.polarCap 2 1 false).shannon 0 := by
      simp [Slepian.shannon, Slepian.area, Slepian.L]
    rw [this]
    rfl
  · rw [List.mem_singleton.1 hj]
    exact id

end Sleplet.Props
