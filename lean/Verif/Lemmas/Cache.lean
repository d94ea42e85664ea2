import Mathlib.Logic.Relation
import Mathlib.Data.List.Basic
import Mathlib.Tactic.Common
import Verif.Model.Cache

/-! Safety of programs of loads and saves over a shared directory. -/
namespace Sleplet.Cache

/-- every path of the program saves only files satisfying `E` and ends in `Q`, whatever the loads answer, as long as
complete files satisfy `E` and incomplete ones raise errors in `T`. -/
def OkProg (T : Err → Prop) (E : String → File → Prop) (Q : Except Err Result → Prop) : Prog → Prop
  | .done r => Q r
  | .load n k => (∀ e, e = .typeError ∨ T e → OkProg T E Q (k (.error e))) ∧ ∀ f, E n f → OkProg T E Q (k (.ok f))
  | .save n f p => E n f ∧ OkProg T E Q p

/-- complete files satisfy `E`, incomplete ones raise errors in `T`. -/
def GoodFiles (T : Err → Prop) (E : String → File → Prop) (d : String → Option File) : Prop :=
  ∀ n f, d n = some f → (E n f ∧ ∀ e, f ≠ .torn e) ∨ ∃ e, T e ∧ f = .torn e

def OkProc (E : String → File → Prop) (Q : Except Err Result → Prop) : Proc → Prop
  | .running p => OkProg (fun _ => True) E Q p
  | .saving n f p => E n f ∧ OkProg (fun _ => True) E Q p

structure Inv (E : String → File → Prop) (Q : Job → Except Err Result → Prop) (st : State) : Prop where
  reg : GoodFiles (fun _ => True) E st.fs.registry
  user : GoodFiles (fun _ => True) E st.fs.user
  procs : ∀ x ∈ st.procs, OkProc E (Q x.1) x.2

theorem npLoad_cases {T : Err → Prop} {E : String → File → Prop} {fs : FS} (h1 : GoodFiles T E fs.registry)
    (h2 : GoodFiles T E fs.user) (n : String) :
    (∃ e, (e = .typeError ∨ T e) ∧ npLoad fs (find fs n) = .error e) ∨ ∃ f, E n f ∧ npLoad fs (find fs n) = .ok f := by
  have key : ∀ p f, fs.read p = some f → (E n f ∧ ∀ e, f ≠ .torn e) ∨ (∃ e, T e ∧ f = .torn e) →
      (∃ e, (e = .typeError ∨ T e) ∧ npLoad fs (some p) = .error e) ∨ ∃ f, E n f ∧ npLoad fs (some p) = .ok f := by
    intro p f hf h
    rcases h with ⟨hE, hu⟩ | ⟨e, hT, rfl⟩
    · unfold npLoad
      simp only [hf]
      cases f with
      | torn e => exact absurd rfl (hu e)
      | _ => exact Or.inr ⟨_, hE, rfl⟩
    · exact Or.inl ⟨e, Or.inr hT, by simp [npLoad, hf]⟩
  unfold find
  split
  · rename_i h
    obtain ⟨f, hf⟩ := Option.isSome_iff_exists.1 h
    exact key (.pooch n) f hf (h1 n f hf)
  · split
    · rename_i h
      obtain ⟨f, hf⟩ := Option.isSome_iff_exists.1 h
      exact key (.user n) f hf (h2 n f hf)
    · exact Or.inl ⟨_, Or.inl rfl, rfl⟩

theorem GoodFiles.write {T : Err → Prop} {E : String → File → Prop} {fs : FS} (h : GoodFiles T E fs.user) (n : String)
    (f : Option File) (hf : ∀ g, f = some g → (E n g ∧ ∀ e, g ≠ .torn e) ∨ ∃ e, T e ∧ g = .torn e) :
    GoodFiles T E (fs.write n f).user := by
  intro m g hg
  unfold FS.write at hg
  simp only at hg
  split at hg
  · rename_i hm; subst hm; exact hf g hg
  · exact h m g hg

/-- with `T` everything, torn-ness of a saved file does not matter. -/
theorem good_of_E {E : String → File → Prop} {n : String} {f : File} (h : E n f) :
    (E n f ∧ ∀ e, f ≠ .torn e) ∨ ∃ e : Err, True ∧ f = .torn e := by
  cases f with
  | torn e => exact Or.inr ⟨e, trivial, rfl⟩
  | _ => exact Or.inl ⟨h, by simp⟩

theorem mem_set_cases {α : Type} {l : List α} {i : ℕ} {a x : α} (h : x ∈ l.set i a) : x = a ∨ x ∈ l := by
  rcases List.mem_or_eq_of_mem_set h with h | h
  · exact Or.inr h
  · exact Or.inl h

theorem mem_of_getElem? {α : Type} {l : List α} {i : ℕ} {a : α} (h : l[i]? = some a) : a ∈ l := by
  obtain ⟨hi, rfl⟩ := List.getElem?_eq_some_iff.1 h
  exact List.getElem_mem hi

theorem Inv.step {env : Env} {allowed : Job → Prop} {killable : Proc → Prop} {E : String → File → Prop}
    {Q : Job → Except Err Result → Prop} (hs : ∀ j, allowed j → OkProg (fun _ => True) E (Q j) (construct env j)) {a b : State}
    (h : Inv E Q a) (st : Step env allowed killable a b) : Inv E Q b := by
  cases st with
  | spawn fs ps j hj =>
    refine ⟨h.reg, h.user, ?_⟩
    intro x hx
    rcases List.mem_append.1 hx with hx | hx
    · exact h.procs x hx
    · rw [List.mem_singleton.1 hx]
      exact hs j hj
  | load fs ps i j n k hi =>
    refine ⟨h.reg, h.user, ?_⟩
    intro x hx
    rcases mem_set_cases hx with rfl | hx
    · have h1 : OkProg (fun _ => True) E (Q j) (.load n k) := h.procs _ (mem_of_getElem? hi)
      show OkProg (fun _ => True) E (Q j) (k _)
      rcases npLoad_cases h.reg h.user n with ⟨e, hT, he⟩ | ⟨f, hf, he⟩
      · have he : npLoad fs (find fs n) = .error e := he
        rw [he]; exact h1.1 e hT
      · have he : npLoad fs (find fs n) = .ok f := he
        rw [he]; exact h1.2 f hf
    · exact h.procs x hx
  | beginSave fs ps i j n f p e hi =>
    refine ⟨h.reg, h.user.write n _ (fun g hg => Or.inr ⟨e, trivial, (Option.some.inj hg).symm⟩), ?_⟩
    intro x hx
    rcases mem_set_cases hx with rfl | hx
    · have h1 : OkProc E (Q j) (.running (.save n f p)) := h.procs _ (mem_of_getElem? hi)
      exact h1
    · exact h.procs x hx
  | tear fs ps i j n f p e hi =>
    exact ⟨h.reg, h.user.write n _ (fun g hg => Or.inr ⟨e, trivial, (Option.some.inj hg).symm⟩), h.procs⟩
  | endSave fs ps i j n f p hi =>
    have h1 : E n f ∧ OkProg (fun _ => True) E (Q j) p := h.procs _ (mem_of_getElem? hi)
    refine ⟨h.reg, h.user.write n _ (fun g hg => Option.some.inj hg ▸ good_of_E h1.1), ?_⟩
    intro x hx
    rcases mem_set_cases hx with rfl | hx
    · exact h1.2
    · exact h.procs x hx
  | kill fs ps i j p hi hk =>
    exact ⟨h.reg, h.user, fun x hx => h.procs x ((List.eraseIdx_sublist ..).subset hx)⟩
  | delete fs ps n =>
    exact ⟨h.reg, h.user.write n _ (fun g hg => by cases hg), h.procs⟩

/-- any state reachable from a good one is good. -/
theorem Inv.reach {env : Env} {allowed : Job → Prop} {killable : Proc → Prop} {E : String → File → Prop}
    {Q : Job → Except Err Result → Prop} (hs : ∀ j, allowed j → OkProg (fun _ => True) E (Q j) (construct env j)) {a b : State}
    (h : Inv E Q a) (r : Relation.ReflTransGen (Step env allowed killable) a b) : Inv E Q b := by
  induction r with
  | refl => exact h
  | tail _ st ih => exact ih.step hs st

/-- the registry never changes. -/
theorem Step.registry {env : Env} {allowed : Job → Prop} {killable : Proc → Prop} {a b : State}
    (st : Step env allowed killable a b) : b.fs.registry = a.fs.registry := by
  cases st <;> rfl

/-! ### torn files -/

/-- every torn file in the data directory is being saved by a live process. -/
def TornOnlyWhileSaving (st : State) : Prop :=
  ∀ n e, st.fs.user n = some (.torn e) → ∃ x ∈ st.procs, ∃ f p, x.2 = .saving n f p

/-- no program saves a torn file. -/
def Untorn : Prog → Prop
  | .done _ => True
  | .load _ k => ∀ a, Untorn (k a)
  | .save _ f p => (∀ e, f ≠ .torn e) ∧ Untorn p

def UntornProc : Proc → Prop
  | .running p => Untorn p
  | .saving _ f p => (∀ e, f ≠ .torn e) ∧ Untorn p

structure TInv (st : State) : Prop where
  torn : TornOnlyWhileSaving st
  untorn : ∀ x ∈ st.procs, UntornProc x.2

/-- running alone. -/
theorem runAlone_ok {T : Err → Prop} {E : String → File → Prop} {Q : Except Err Result → Prop} (p : Prog) (hu : Untorn p)
    (hp : OkProg T E Q p) (fs : FS) (h1 : GoodFiles T E fs.registry) (h2 : GoodFiles T E fs.user) :
    Q (runAlone fs p).1 ∧ GoodFiles T E (runAlone fs p).2.user := by
  induction p generalizing fs with
  | done r => exact ⟨hp, h2⟩
  | load n k ih =>
    unfold runAlone
    rcases npLoad_cases h1 h2 n with ⟨e, hT, he⟩ | ⟨f, hf, he⟩
    · rw [he]; exact ih _ (hu _) (hp.1 e hT) fs h1 h2
    · rw [he]; exact ih _ (hu _) (hp.2 f hf) fs h1 h2
  | save n f p ih =>
    unfold runAlone
    exact ih hu.2 hp.2 _ h1 (h2.write n _ (fun g hg => Or.inl (Option.some.inj hg ▸ ⟨hp.1, hu.1⟩)))

theorem solvePlain_untorn (loc : String) (N : ℤ) (w : List ℝ) (v : List (List ℂ)) : Untorn (solvePlain loc N w v) := by
  have hs : ∀ r, Untorn (.save (evalFile loc) (.evals w) <| .save (evecFile loc) (.evecs (slice v N)) <| .done r) :=
    fun r => ⟨by simp, by simp, trivial⟩
  intro a
  match a with
  | .error .typeError => exact hs _
  | .error .valueError | .error .indexError | .error .attributeError | .error .keyError | .error .runtimeError
  | .error .notImplementedError | .error .eofError | .error .memoryError | .error .zeroDivisionError => trivial
  | .ok ev =>
    intro b
    match b with
    | .error .typeError => exact hs _
    | .error .valueError | .error .indexError | .error .attributeError | .error .keyError | .error .runtimeError
    | .error .notImplementedError | .error .eofError | .error .memoryError | .error .zeroDivisionError => trivial
    | .ok _ => trivial

theorem solvePolar_untorn (loc : String) (L : ℕ) (N : ℤ) (order : Option ℤ) (w : List ℝ) (v : List (List ℂ)) (o : List ℤ)
    (single : ℤ → List ℝ × List (List ℂ)) : Untorn (solvePolar loc L N order w v o single) := by
  have hs : Untorn (match order with
    | some m => .done (.ok ⟨.evals (single m).1, .evecs (single m).2, none⟩)
    | none => .save (evalFile loc) (.evals w) <|
      .save (evecFile loc) (.evecs (if L > lSaveAll then slice v N else v)) <|
      .save (orderFile loc) (.orders o) <| .done (.ok ⟨.evals w, .evecs v, some (.orders o)⟩)) := by
    cases order
    · exact ⟨by simp, by simp, by simp, trivial⟩
    · trivial
  intro a
  match a with
  | .error .typeError => exact hs
  | .error .valueError | .error .indexError | .error .attributeError | .error .keyError | .error .runtimeError
  | .error .notImplementedError | .error .eofError | .error .memoryError | .error .zeroDivisionError => trivial
  | .ok ev =>
    intro b
    match b with
    | .error .typeError => exact hs
    | .error .valueError | .error .indexError | .error .attributeError | .error .keyError | .error .runtimeError
    | .error .notImplementedError | .error .eofError | .error .memoryError | .error .zeroDivisionError => trivial
    | .ok _ =>
      intro c
      match c with
      | .error .typeError => exact hs
      | .error .valueError | .error .indexError | .error .attributeError | .error .keyError | .error .runtimeError
      | .error .notImplementedError | .error .eofError | .error .memoryError | .error .zeroDivisionError => trivial
      | .ok _ => trivial

theorem construct_untorn (env : Env) (j : Job) : Untorn (construct env j) := by
  unfold construct
  split
  · trivial
  · split
    · trivial
    · split
      · split
        · trivial
        · exact solvePolar_untorn _ _ _ _ _ _ _ _
      · exact solvePlain_untorn _ _ _ _

theorem TInv.step {env : Env} {allowed : Job → Prop} {killable : Proc → Prop} (hk : ∀ n f p, ¬ killable (.saving n f p))
    {a b : State} (h : TInv a) (st : Step env allowed killable a b) : TInv b := by
  have keep : ∀ {ps : List (Job × Proc)} {i : ℕ} {y : Job × Proc} {z : Job × Proc}, ps[i]? = some y →
      (∀ n f p, y.2 ≠ .saving n f p) → ∀ x ∈ ps, ∀ n f p, x.2 = .saving n f p → x ∈ ps.set i z := by
    intro ps i y z hi hy x hx n f p hxs
    obtain ⟨k, hk, rfl⟩ := List.mem_iff_getElem.1 hx
    have hik : i ≠ k := by
      rintro rfl
      rw [List.getElem?_eq_getElem hk] at hi
      injection hi with hi
      rw [hi] at hxs
      exact hy n f p hxs
    have : (ps.set i z)[k]? = some ps[k] := by
      rw [List.getElem?_set_ne hik, List.getElem?_eq_getElem hk]
    exact mem_of_getElem? this
  cases st with
  | spawn fs ps j hj =>
    refine ⟨fun n e hn => ?_, ?_⟩
    · obtain ⟨x, hx, h1⟩ := h.torn n e hn
      exact ⟨x, List.mem_append_left _ hx, h1⟩
    · intro x hx
      rcases List.mem_append.1 hx with hx | hx
      · exact h.untorn x hx
      · rw [List.mem_singleton.1 hx]
        exact construct_untorn env j
  | load fs ps i j n k hi =>
    refine ⟨fun m e hm => ?_, ?_⟩
    · obtain ⟨x, hx, f, p, h1⟩ := h.torn m e hm
      exact ⟨x, keep hi (by simp) x hx m f p h1, f, p, h1⟩
    · intro x hx
      rcases mem_set_cases hx with rfl | hx
      · have h1 : Untorn (.load n k) := h.untorn _ (mem_of_getElem? hi)
        exact h1 _
      · exact h.untorn x hx
  | beginSave fs ps i j n f p e hi =>
    have hlt : i < ps.length := (List.getElem?_eq_some_iff.1 hi).1
    refine ⟨fun m e' hm => ?_, ?_⟩
    · by_cases hmn : m = n
      · subst hmn
        exact ⟨(j, .saving m f p), mem_of_getElem? (List.getElem?_set_self hlt), f, p, rfl⟩
      · have : fs.user m = some (.torn e') := by simpa [FS.write, hmn] using hm
        obtain ⟨x, hx, f', p', h1⟩ := h.torn m e' this
        exact ⟨x, keep hi (by simp) x hx m f' p' h1, f', p', h1⟩
    · intro x hx
      rcases mem_set_cases hx with rfl | hx
      · have h1 : UntornProc (.running (.save n f p)) := h.untorn _ (mem_of_getElem? hi)
        exact h1
      · exact h.untorn x hx
  | tear fs ps i j n f p e hi =>
    refine ⟨fun m e' hm => ?_, h.untorn⟩
    by_cases hmn : m = n
    · subst hmn
      exact ⟨_, mem_of_getElem? hi, f, p, rfl⟩
    · have : fs.user m = some (.torn e') := by simpa [FS.write, hmn] using hm
      exact h.torn m e' this
  | endSave fs ps i j n f p hi =>
    have hu : (∀ e, f ≠ .torn e) ∧ Untorn p := h.untorn _ (mem_of_getElem? hi)
    refine ⟨fun m e' hm => ?_, ?_⟩
    · by_cases hmn : m = n
      · subst hmn
        have : f = .torn e' := by simpa [FS.write] using hm
        exact absurd this (hu.1 e')
      · have : fs.user m = some (.torn e') := by simpa [FS.write, hmn] using hm
        obtain ⟨x, hx, f', p', h1⟩ := h.torn m e' this
        refine ⟨x, ?_, f', p', h1⟩
        obtain ⟨k, hk, rfl⟩ := List.mem_iff_getElem.1 hx
        have hik : i ≠ k := by
          rintro rfl
          have hi' : ps[i]? = _ := hi
          rw [List.getElem?_eq_getElem hk] at hi'
          injection hi' with hi'
          have h1 : ps[i].2 = .saving m f' p' := h1
          rw [hi'] at h1
          injection h1 with h1
          exact hmn h1.symm
        exact mem_of_getElem? (i := k) (by rw [List.getElem?_set_ne hik, List.getElem?_eq_getElem hk])
    · intro x hx
      rcases mem_set_cases hx with rfl | hx
      · exact hu.2
      · exact h.untorn x hx
  | kill fs ps i j p hi hkp =>
    refine ⟨fun m e hm => ?_, fun x hx => h.untorn x ((List.eraseIdx_sublist ..).subset hx)⟩
    obtain ⟨x, hx, f', p', h1⟩ := h.torn m e hm
    refine ⟨x, ?_, f', p', h1⟩
    obtain ⟨k, hk', rfl⟩ := List.mem_iff_getElem.1 hx
    have hik : k ≠ i := by
      rintro rfl
      rw [List.getElem?_eq_getElem hk'] at hi
      injection hi with hi
      have h1 : ps[k].2 = .saving m f' p' := h1
      rw [hi] at h1
      have h1 : p = .saving m f' p' := h1
      rw [h1] at hkp
      exact hk _ _ _ hkp
    exact List.mem_eraseIdx_iff_getElem.2 ⟨k, hk', hik, rfl⟩
  | delete fs ps n =>
    refine ⟨fun m e' hm => ?_, h.untorn⟩
    by_cases hmn : m = n
    · simp [FS.write, hmn] at hm
    · have : fs.user m = some (.torn e') := by simpa [FS.write, hmn] using hm
      exact h.torn m e' this


/-! ### running alone is a history -/

/-- a process that is alone can run to the end, and then the system is where `runAlone` says. -/
theorem runAlone_reach (env : Env) (allowed : Job → Prop) (killable : Proc → Prop) (j : Job) (p : Prog) (fs : FS) :
    Relation.ReflTransGen (Step env allowed killable) ⟨fs, [(j, .running p)]⟩
      ⟨(runAlone fs p).2, [(j, .running (.done (runAlone fs p).1))]⟩ := by
  induction p generalizing fs with
  | done r => exact .refl
  | load n k ih => exact .head (Step.load fs _ 0 j n k rfl) (ih _ fs)
  | save n f p ih =>
    refine .head (Step.beginSave fs _ 0 j n f p .valueError rfl) (.head (Step.endSave _ _ 0 j n f p rfl) ?_)
    have : (fs.write n (some (.torn .valueError))).write n (some f) = fs.write n (some f) := by
      unfold FS.write
      congr 1
      funext m
      simp only
      split <;> rfl
    rw [this]
    exact ih _

/-! ### positions of one order -/

theorem mapM_ok {α β : Type} (l : List α) (f : α → Except Err β) (g : α → β) (h : ∀ x ∈ l, f x = .ok (g x)) :
    l.mapM f = .ok (l.map g) := by
  induction l with
  | nil => rfl
  | cons a l ih =>
    rw [List.mapM_cons, h a (by simp), ih (fun x hx => h x (by simp [hx]))]
    rfl

theorem mapM_error {α β : Type} (l : List α) (f : α → Except Err β) (e : Err) (h : ∀ x ∈ l, (∃ b, f x = .ok b) ∨ f x = .error e)
    (hex : ∃ x ∈ l, f x = .error e) : l.mapM f = .error e := by
  induction l with
  | nil => obtain ⟨x, hx, -⟩ := hex; cases hx
  | cons a l ih =>
    rw [List.mapM_cons]
    rcases h a (by simp) with ⟨b, hb⟩ | he
    · have : ∃ x ∈ l, f x = .error e := by
        obtain ⟨x, hx, hxe⟩ := hex
        rcases List.mem_cons.1 hx with rfl | hx
        · rw [hb] at hxe; cases hxe
        · exact ⟨x, hx, hxe⟩
      rw [hb, ih (fun x hx => h x (by simp [hx])) this]
      rfl
    · rw [he]; rfl

theorem gather_error {α : Type} (a : List α) (o : List ℤ) (m : ℤ) (h : ∃ p, o[p]? = some m ∧ a.length ≤ p) :
    gather a o m = .error .indexError := by
  unfold gather
  apply mapM_error
  · intro p _
    cases h : a[p]? with
    | some x => exact Or.inl ⟨x, rfl⟩
    | none => exact Or.inr rfl
  · obtain ⟨p, hp, hpa⟩ := h
    have hlt : p < o.length := (List.getElem?_eq_some_iff.1 hp).1
    refine ⟨p, List.mem_filter.2 ⟨List.mem_range.2 hlt, by simp [hp]⟩, ?_⟩
    rw [List.getElem?_eq_none hpa]

theorem gather_isOk {α : Type} (a : List α) (o : List ℤ) (m : ℤ) (h : ∀ p, o[p]? = some m → p < a.length) :
    ∃ v, gather a o m = .ok v := by
  cases a with
  | nil =>
    refine ⟨[], ?_⟩
    unfold gather
    have : ((List.range o.length).filter fun p => decide (o[p]? = some m)) = [] := by
      rw [List.filter_eq_nil_iff]
      intro p _ hp
      exact absurd (h p (by simpa using hp)) (by simp)
    rw [this]; rfl
  | cons d a =>
    refine ⟨_, mapM_ok _ _ (fun p => (d :: a).getD p d) ?_⟩
    intro p hp
    have hp := h p (by simpa using (List.mem_filter.1 hp).2)
    simp [List.getElem?_eq_getElem hp, List.getD_eq_getElem?_getD]

theorem range_getD {α : Type} [Inhabited α] (ks : List α) : ((List.range ks.length).map fun p => ks.getD p default) = ks := by
  apply List.ext_getElem
  · simp
  · intro i h1 h2
    simp [List.getD_eq_getElem?_getD, List.getElem?_eq_getElem h2]

theorem gather_map {α β : Type} [Inhabited α] (ks : List α) (key : α → ℤ) (f : α → β) (m : ℤ) :
    gather (ks.map f) (ks.map key) m = .ok ((ks.filter fun q => decide (key q = m)).map f) := by
  have h1 : ks.filter (fun q => decide (key q = m)) =
      ((List.range ks.length).filter fun p => decide (key (ks.getD p default) = m)).map fun p => ks.getD p default := by
    conv_lhs => rw [← range_getD ks]
    rw [List.filter_map]
    rfl
  unfold gather
  rw [List.length_map, h1, List.map_map]
  have h2 : ((List.range ks.length).filter fun p => decide ((ks.map key)[p]? = some m)) =
      (List.range ks.length).filter fun p => decide (key (ks.getD p default) = m) := by
    apply List.filter_congr
    intro p hp
    have hp := List.mem_range.1 hp
    simp [List.getElem?_eq_getElem hp, List.getD_eq_getElem?_getD]
  rw [h2]
  apply mapM_ok
  intro p hp
  have hp := List.mem_range.1 (List.mem_filter.1 hp).1
  simp [List.getElem?_eq_getElem hp, List.getD_eq_getElem?_getD]

end Sleplet.Cache
