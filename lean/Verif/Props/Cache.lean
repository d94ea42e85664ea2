import Verif.Lemmas.Cache
import Verif.Lemmas.EigenClean
import Verif.Props.RegionNames

/-!
C11, C13, C14, C15, C16: the cache of eigensolutions.
-/
namespace Sleplet.Props

open Real Sleplet.Region Sleplet.Cache

/-! ### what the files should contain -/

/-- the rows of eigenvectors that are saved. -/
noncomputable def savedRows (env : Env) : Slepian → List (List ℂ)
  | .polarCap L t g => if L > 16 then slice (env.solve (.polarCap L t g)).2.1 (env.shannon (.polarCap L t g))
    else (env.solve (.polarCap L t g)).2.1
  | s => slice (env.solve s).2.1 (env.shannon s)

def IsPolar : Slepian → Prop
  | .polarCap _ _ _ => True
  | _ => False

/-- file `n` with content `f` belongs to the problem `s`. -/
def BelongsTo (env : Env) (s : Slepian) (n : String) (f : File) : Prop :=
  ∃ r, s.createRegion = .ok r ∧
    ((n = evalFile (env.location s r) ∧ f = .evals (env.solve s).1) ∨
     (n = evecFile (env.location s r) ∧ f = .evecs (savedRows env s)) ∨
     (IsPolar s ∧ n = orderFile (env.location s r) ∧ f = .orders (env.solve s).2.2))

/-- the problems `A` that are worked on do not share files: no two of them have the same location. -/
def Separate (env : Env) (A : Slepian → Prop) : Prop :=
  ∀ s s' r r', A s → A s' → s.createRegion = .ok r → s'.createRegion = .ok r' → env.location s r = env.location s' r' → s = s'

/-- whole-degree problems, and masks not named like angular regions, do not. -/
theorem wholeDegrees_separate (env : Env) : Separate env WholeDegrees := fun s s' r r' hs hs' hr hr' h =>
  (C12_locations_identify _ _ s s' r r' hs hs' hr hr' h).1

/-- file `n` with content `f` belongs to some problem of `A`. -/
def Belongs (env : Env) (A : Slepian → Prop) (n : String) (f : File) : Prop := ∃ s, A s ∧ BelongsTo env s n f

/-- the construction `j` ended with the solution of its own problem: for all orders the eigenvalues, all rows or the
saved rows, and the orders; for one order either the solution of that order or the members of that order in the solution
of all orders. -/
def Correct (env : Env) (j : Job) (res : Result) : Prop :=
  match j.s, j.order with
  | .polarCap L t g, some m =>
    res = ⟨.evals (env.solveOrder (.polarCap L t g) m).1, .evecs (env.solveOrder (.polarCap L t g) m).2, none⟩ ∨
    ∃ w' v', gather (env.solve (.polarCap L t g)).1 (env.solve (.polarCap L t g)).2.2 m = .ok w' ∧
      gather (savedRows env (.polarCap L t g)) (env.solve (.polarCap L t g)).2.2 m = .ok v' ∧
      res = ⟨.evals w', .evecs v', none⟩
  | .polarCap L t g, none =>
    res.evals = .evals (env.solve (.polarCap L t g)).1 ∧
    (res.evecs = .evecs (env.solve (.polarCap L t g)).2.1 ∨ res.evecs = .evecs (savedRows env (.polarCap L t g))) ∧
    res.orders = some (.orders (env.solve (.polarCap L t g)).2.2)
  | s, _ => res.evals = .evals (env.solve s).1 ∧
    (res.evecs = .evecs (env.solve s).2.1 ∨ res.evecs = .evecs (savedRows env s)) ∧ res.orders = none

theorem belongs_inj {env : Env} {A : Slepian → Prop} (hA : Separate env A) {s : Slepian} {r : Obj} (hs : A s) (hr : s.createRegion = .ok r)
    {n : String} {f : File} (h : Belongs env A n f) (i : Fin 3)
    (hn : n = env.location s r ++ (["_eigenvalues.npy", "_eigenvectors.npy", "_orders.npy"].get i)) :
    (i = 0 → f = .evals (env.solve s).1) ∧ (i = 1 → f = .evecs (savedRows env s)) ∧ (i = 2 → f = .orders (env.solve s).2.2) := by
  obtain ⟨s', hs', r', hr', h⟩ := h
  have same : ∀ k : Fin 3, n = env.location s' r' ++ (["_eigenvalues.npy", "_eigenvectors.npy", "_orders.npy"].get k) →
      i = k ∧ s = s' := by
    intro k hk
    obtain ⟨h1, h2⟩ := C12_file_names _ _ _ _ (hn.symm.trans hk)
    exact ⟨h1, hA s s' r r' hs hs' hr hr' h2⟩
  rcases h with ⟨hk, rfl⟩ | ⟨hk, rfl⟩ | ⟨-, hk, rfl⟩
  · obtain ⟨rfl, rfl⟩ := same 0 hk
    exact ⟨fun _ => rfl, fun h => (by cases h), fun h => (by cases h)⟩
  · obtain ⟨rfl, rfl⟩ := same 1 hk
    exact ⟨fun h => (by cases h), fun _ => rfl, fun h => (by cases h)⟩
  · obtain ⟨rfl, rfl⟩ := same 2 hk
    exact ⟨fun h => (by cases h), fun h => (by cases h), fun _ => rfl⟩

theorem belongs_eval {env : Env} {A : Slepian → Prop} (hA : Separate env A) {s : Slepian} {r : Obj} (hs : A s) (hr : s.createRegion = .ok r) {f : File}
    (h : Belongs env A (evalFile (env.location s r)) f) : f = .evals (env.solve s).1 :=
  (belongs_inj hA hs hr h 0 rfl).1 rfl

theorem belongs_evec {env : Env} {A : Slepian → Prop} (hA : Separate env A) {s : Slepian} {r : Obj} (hs : A s) (hr : s.createRegion = .ok r) {f : File}
    (h : Belongs env A (evecFile (env.location s r)) f) : f = .evecs (savedRows env s) :=
  (belongs_inj hA hs hr h 1 rfl).2.1 rfl

theorem belongs_order {env : Env} {A : Slepian → Prop} (hA : Separate env A) {s : Slepian} {r : Obj} (hs : A s) (hr : s.createRegion = .ok r) {f : File}
    (h : Belongs env A (orderFile (env.location s r)) f) : f = .orders (env.solve s).2.2 :=
  (belongs_inj hA hs hr h 2 rfl).2.2 rfl

/-- every error except a lookup's `TypeError` is passed on. -/
theorem construct_ok (T : Err → Prop) (env : Env) {A : Slepian → Prop} (hA : Separate env A) (j : Job) (hj : A j.s) (Q : Except Err Result → Prop)
    (hX : ∀ e, (j.s.validate = .error e ∨ j.s.createRegion = .error e) → Q (.error e))
    (hE : ∀ e, T e → e ≠ .typeError → Q (.error e)) (hC : ∀ res, Correct env j res → Q (.ok res))
    (hV : ∀ L t g, j.s = .polarCap L t g → badOrder L j.order = true → Q (.error .valueError))
    (hI : ∀ e L t g m, j.s = .polarCap L t g → j.order = some m → selectOrder (some m) (.evals (env.solve j.s).1) (.evecs (savedRows env j.s))
      (.orders (env.solve j.s).2.2) = .error e → Q (.error e)) :
    OkProg T (Belongs env A) Q (construct env j) := by
  obtain ⟨s, order⟩ := j
  cases hval : s.validate with
  | error e =>
    unfold construct
    simp only [hval]
    exact hX e (Or.inl hval)
  | ok u =>
  cases hr : s.createRegion with
  | error e =>
    unfold construct
    simp only [hval, hr]
    exact hX e (Or.inr hr)
  | ok r =>
  have hbe : Belongs env A (evalFile (env.location s r)) (.evals (env.solve s).1) := ⟨s, hj, r, hr, Or.inl ⟨rfl, rfl⟩⟩
  have hbv : Belongs env A (evecFile (env.location s r)) (.evecs (savedRows env s)) := ⟨s, hj, r, hr, Or.inr (Or.inl ⟨rfl, rfl⟩)⟩
  have hplain : (∀ L t g, s ≠ .polarCap L t g) → savedRows env s = slice (env.solve s).2.1 (env.shannon s) →
      (∀ res : Result, res.evals = .evals (env.solve s).1 → (res.evecs = .evecs (env.solve s).2.1 ∨ res.evecs = .evecs (savedRows env s)) →
        res.orders = none → Q (.ok res)) →
      OkProg T (Belongs env A) Q (solvePlain (env.location s r) (env.shannon s) (env.solve s).1 (env.solve s).2.1) := by
    intro hnp hsr hQ
    have hscr : OkProg T (Belongs env A) Q (.save (evalFile (env.location s r)) (.evals (env.solve s).1) <|
        .save (evecFile (env.location s r)) (.evecs (slice (env.solve s).2.1 (env.shannon s))) <|
        .done (.ok ⟨.evals (env.solve s).1, .evecs (env.solve s).2.1, none⟩)) :=
      ⟨hbe, by rw [← hsr]; exact hbv, hQ _ rfl (Or.inl rfl) rfl⟩
    have herr : ∀ e, e = .typeError ∨ T e → e ≠ .typeError → Q (.error e) := fun e h hne => hE e (h.resolve_left hne) hne
    refine ⟨?_, ?_⟩
    · intro e he
      cases e <;> first | exact hscr | exact herr _ he (by decide)
    · intro f hf
      have hf := belongs_eval hA hj hr hf
      subst hf
      refine ⟨?_, ?_⟩
      · intro e he
        cases e <;> first | exact hscr | exact herr _ he (by decide)
      · intro f hf
        have hf := belongs_evec hA hj hr hf
        subst hf
        exact hQ _ rfl (Or.inr rfl) rfl
  unfold construct
  simp only [hval, hr]
  cases s with
  | limitLatLon L a b c d =>
    exact hplain (by simp) rfl (fun res h1 h2 h3 => hC res ⟨h1, h2, h3⟩)
  | arbitrary L m =>
    exact hplain (by simp) rfl (fun res h1 h2 h3 => hC res ⟨h1, h2, h3⟩)
  | polarCap L t g =>
    simp only
    by_cases hb : badOrder L order = true
    · rw [if_pos hb]
      exact hV L t g rfl hb
    · rw [if_neg hb]
      have hscr : OkProg T (Belongs env A) Q (match order with
          | some m => .done (.ok ⟨.evals (env.solveOrder (.polarCap L t g) m).1, .evecs (env.solveOrder (.polarCap L t g) m).2, none⟩)
          | none => .save (evalFile (env.location (.polarCap L t g) r)) (.evals (env.solve (.polarCap L t g)).1) <|
            .save (evecFile (env.location (.polarCap L t g) r)) (.evecs (if L > lSaveAll then
              slice (env.solve (.polarCap L t g)).2.1 (env.shannon (.polarCap L t g)) else (env.solve (.polarCap L t g)).2.1)) <|
            .save (orderFile (env.location (.polarCap L t g) r)) (.orders (env.solve (.polarCap L t g)).2.2) <|
            .done (.ok ⟨.evals (env.solve (.polarCap L t g)).1, .evecs (env.solve (.polarCap L t g)).2.1,
              some (.orders (env.solve (.polarCap L t g)).2.2)⟩)) := by
        cases order with
        | some m => exact hC _ (Or.inl rfl)
        | none => exact ⟨hbe, hbv, ⟨_, hj, r, hr, Or.inr (Or.inr ⟨trivial, rfl, rfl⟩)⟩, hC _ ⟨rfl, Or.inl rfl, rfl⟩⟩
      have herr : ∀ e, e = .typeError ∨ T e → e ≠ .typeError → Q (.error e) := fun e h hne => hE e (h.resolve_left hne) hne
      refine ⟨?_, ?_⟩
      · intro e he
        cases e <;> first | exact herr _ he (by decide) | (cases order <;> exact hscr)
      · intro f hf
        have hf := belongs_eval hA hj hr hf
        subst hf
        refine ⟨?_, ?_⟩
        · intro e he
          cases e <;> first | exact herr _ he (by decide) | (cases order <;> exact hscr)
        · intro f hf
          have hf := belongs_evec hA hj hr hf
          subst hf
          refine ⟨?_, ?_⟩
          · intro e he
            cases e <;> first | exact herr _ he (by decide) | (cases order <;> exact hscr)
          · intro f hf
            have hf := belongs_order hA hj hr hf
            subst hf
            show Q _
            cases order with
            | none => exact hC _ ⟨rfl, Or.inr rfl, rfl⟩
            | some m =>
              cases hsel : selectOrder (some m) (.evals (env.solve (.polarCap L t g)).1) (.evecs (savedRows env (.polarCap L t g)))
                  (.orders (env.solve (.polarCap L t g)).2.2) with
              | error e => exact hI e L t g m rfl rfl hsel
              | ok res =>
                refine hC _ (Or.inr ?_)
                unfold selectOrder at hsel
                simp only [bind, Except.bind, pure, Except.pure] at hsel
                cases h1 : gather (env.solve (.polarCap L t g)).1 (env.solve (.polarCap L t g)).2.2 m with
                | error e => rw [h1] at hsel; cases hsel
                | ok w' =>
                  rw [h1] at hsel
                  cases h2 : gather (savedRows env (.polarCap L t g)) (env.solve (.polarCap L t g)).2.2 m with
                  | error e => rw [h2] at hsel; cases hsel
                  | ok v' =>
                    rw [h2] at hsel
                    simp only [Except.ok.injEq] at hsel
                    exact ⟨w', v', rfl, rfl, hsel.symm⟩

/-- the data directory of a new user: empty, and published files that belong to the problems they are named after. -/
def Start (env : Env) (A : Slepian → Prop) (st : State) : Prop :=
  st.procs = [] ∧ (∀ n, st.fs.user n = none) ∧ ∀ n f, st.fs.registry n = some f → Belongs env A n f ∧ ∀ e, f ≠ .torn e

/-- C11. For every history of concurrent constructions in one data directory, of problems of which no two share their files
(such as whole-degree problems and masks not named like angular regions), with processes killed at any point (also inside a save) and files deleted: whenever a
construction has ended with a result, it is the solution of the problem it was asked for. -/
theorem C11_own_solution_partial (env : Env) (A : Slepian → Prop) (hA : Separate env A) (st st' : State) (h0 : Start env A st)
    (h : Relation.ReflTransGen (Step env (fun j => A j.s) fun _ => True) st st')
    (j : Job) (res : Result) (hj : (j, .running (.done (.ok res))) ∈ st'.procs) : Correct env j res := by
  have hI : Inv (Belongs env A) (fun j r => ∀ res, r = .ok res → Correct env j res) st := by
    refine ⟨fun n f hf => Or.inl (h0.2.2 n f hf), fun n f hf => ?_, fun x hx => ?_⟩
    · rw [h0.2.1] at hf; cases hf
    · rw [h0.1] at hx; cases hx
  have := hI.reach (fun j hj => construct_ok (fun _ => True) env hA j hj _ (fun e _ res h => by cases h) (fun e _ _ res h => by cases h)
    (fun res hres res' h => by injection h with h; rwa [← h]) (fun _ _ _ _ _ res h => by cases h)
    (fun _ _ _ _ _ _ _ _ res h => by cases h)) h
  exact this.procs _ hj res rfl

/-- C13. In all histories: two constructions of the same problem, in whatever histories, expose the same eigenvalues,
the same orders and the same first `N` eigenvectors; and what they expose is either all eigenvectors or, for `L > 16` or
other kinds, possibly just the first `N`. -/
theorem C13_reload_agrees (env : Env) (A : Slepian → Prop) (hA : Separate env A) (st st₁ st₂ : State) (h0 : Start env A st)
    (h1 : Relation.ReflTransGen (Step env (fun j => A j.s) fun _ => True) st st₁)
    (h2 : Relation.ReflTransGen (Step env (fun j => A j.s) fun _ => True) st st₂)
    (s : Slepian) (hN : 0 ≤ env.shannon s) (res₁ res₂ : Result)
    (hj1 : ((⟨s, none⟩ : Job), .running (.done (.ok res₁))) ∈ st₁.procs)
    (hj2 : ((⟨s, none⟩ : Job), .running (.done (.ok res₂))) ∈ st₂.procs) :
    res₁.evals = res₂.evals ∧ res₁.orders = res₂.orders ∧
    ∃ v₁ v₂, res₁.evecs = .evecs v₁ ∧ res₂.evecs = .evecs v₂ ∧
      v₁.take (env.shannon s).toNat = v₂.take (env.shannon s).toNat ∧
      (v₁ = (env.solve s).2.1 ∨ v₁ = (env.solve s).2.1.take (env.shannon s).toNat) := by
  have hsave : savedRows env s = (env.solve s).2.1 ∨ savedRows env s = (env.solve s).2.1.take (env.shannon s).toNat := by
    cases s with
    | polarCap L t g =>
      by_cases h : L > 16
      · right; simp [savedRows, h, slice, hN]
      · left; simp [savedRows, h]
    | _ => right; simp [savedRows, slice, hN]
  have key : ∀ res : Result, Correct env ⟨s, none⟩ res → res.evals = .evals (env.solve s).1 ∧
      res.orders = (match s with | .polarCap _ _ _ => some (.orders (env.solve s).2.2) | _ => none) ∧
      ∃ v, res.evecs = .evecs v ∧ v.take (env.shannon s).toNat = (env.solve s).2.1.take (env.shannon s).toNat ∧
        (v = (env.solve s).2.1 ∨ v = (env.solve s).2.1.take (env.shannon s).toNat) := by
    intro res hres
    have hvec : ∀ v, v = (env.solve s).2.1 ∨ v = (env.solve s).2.1.take (env.shannon s).toNat →
        v.take (env.shannon s).toNat = (env.solve s).2.1.take (env.shannon s).toNat := by
      rintro v (rfl | rfl)
      · rfl
      · rw [List.take_take, min_self]
    have hboth : res.evecs = .evecs (env.solve s).2.1 ∨ res.evecs = .evecs (savedRows env s) →
        ∃ v, res.evecs = .evecs v ∧ v.take (env.shannon s).toNat = (env.solve s).2.1.take (env.shannon s).toNat ∧
        (v = (env.solve s).2.1 ∨ v = (env.solve s).2.1.take (env.shannon s).toNat) := by
      rintro (h | h)
      · exact ⟨_, h, hvec _ (Or.inl rfl), Or.inl rfl⟩
      · exact ⟨_, h, hvec _ hsave, hsave⟩
    cases s with
    | polarCap L t g => exact ⟨hres.1, hres.2.2, hboth hres.2.1⟩
    | limitLatLon L a b c d => exact ⟨hres.1, hres.2.2, hboth hres.2.1⟩
    | arbitrary L m => exact ⟨hres.1, hres.2.2, hboth hres.2.1⟩
  obtain ⟨a1, a2, v₁, a3, a4, a5⟩ := key res₁ (C11_own_solution_partial env A hA st st₁ h0 h1 _ _ hj1)
  obtain ⟨b1, b2, v₂, b3, b4, b5⟩ := key res₂ (C11_own_solution_partial env A hA st st₂ h0 h2 _ _ hj2)
  exact ⟨a1.trans b1.symm, a2.trans b2.symm, v₁, v₂, a3, b3, a4.trans b4.symm, a5⟩

/-- C15. Processes killed at any point outside a save (so also between any two saves), any interleaving: as soon as no
save is under way, a construction of any valid one of the problems that is run then ends with the correct solution. -/
theorem C15_crash_safety (env : Env) (A : Slepian → Prop) (hA : Separate env A) (st st' : State) (h0 : Start env A st)
    (h : Relation.ReflTransGen (Step env (fun j => A j.s) fun p => ∃ q, p = .running q) st st')
    (hq : ∀ x ∈ st'.procs, ∀ n f p, x.2 ≠ .saving n f p) (s : Slepian) (hs : A s) (hval : s.validate = .ok ())
    (hreg : ∃ r, s.createRegion = .ok r) : ∃ res, (runAlone st'.fs (construct env ⟨s, none⟩)).1 = .ok res ∧ Correct env ⟨s, none⟩ res := by
  have hI : Inv (Belongs env A) (fun j r => ∀ res, r = .ok res → Correct env j res) st := by
    refine ⟨fun n f hf => Or.inl (h0.2.2 n f hf), fun n f hf => ?_, fun x hx => ?_⟩
    · rw [h0.2.1] at hf; cases hf
    · rw [h0.1] at hx; cases hx
  have hI' := hI.reach (fun j hj => construct_ok (fun _ => True) env hA j hj _ (fun e _ res h => by cases h) (fun e _ _ res h => by cases h)
    (fun res hres res' h => by injection h with h; rwa [← h]) (fun _ _ _ _ _ res h => by cases h)
    (fun _ _ _ _ _ _ _ _ res h => by cases h)) h
  have hT : TInv st := by
    refine ⟨fun n e hn => ?_, fun x hx => ?_⟩
    · rw [h0.2.1] at hn; cases hn
    · rw [h0.1] at hx; cases hx
  have hT' : TInv st' ∧ st'.fs.registry = st.fs.registry := by
    clear hq hI'
    induction h with
    | refl => exact ⟨hT, rfl⟩
    | tail _ step ih => exact ⟨ih.1.step (fun n f p => by rintro ⟨q, hq⟩; cases hq) step, step.registry.trans ih.2⟩
  have g1 : GoodFiles (fun _ => False) (Belongs env A) st'.fs.registry := by
    intro n f hf
    rw [hT'.2] at hf
    exact Or.inl (h0.2.2 n f hf)
  have g2 : GoodFiles (fun _ => False) (Belongs env A) st'.fs.user := by
    intro n f hf
    rcases hI'.user n f hf with h | ⟨e, -, rfl⟩
    · exact Or.inl h
    · obtain ⟨x, hx, f, p, hxp⟩ := hT'.1.torn n e hf
      exact absurd hxp (hq x hx n f p)
  exact (runAlone_ok _ (construct_untorn _ _) (construct_ok (fun _ => False) env hA ⟨s, none⟩ hs
    (fun r => ∃ res, r = .ok res ∧ Correct env ⟨s, none⟩ res)
    (fun e he => by
      obtain ⟨r, hr⟩ := hreg
      rcases he with he | he
      · rw [hval] at he; cases he
      · rw [hr] at he; cases he)
    (fun e he => he.elim) (fun res hres => ⟨res, rfl, hres⟩)
    (fun L t g _ h => by cases h) (fun e L t g m _ h => by cases h)) st'.fs g1 g2).1

/-- C15. With kills inside saves too, a later construction never ends with wrong data. -/
theorem C15_never_wrong (env : Env) (A : Slepian → Prop) (hA : Separate env A) (st st' : State) (h0 : Start env A st)
    (h : Relation.ReflTransGen (Step env (fun j => A j.s) fun _ => True) st st') (j : Job) (hj : A j.s) :
    ∀ res, (runAlone st'.fs (construct env j)).1 = .ok res → Correct env j res := by
  have hI : Inv (Belongs env A) (fun j r => ∀ res, r = .ok res → Correct env j res) st := by
    refine ⟨fun n f hf => Or.inl (h0.2.2 n f hf), fun n f hf => ?_, fun x hx => ?_⟩
    · rw [h0.2.1] at hf; cases hf
    · rw [h0.1] at hx; cases hx
  have hc := fun j hj => construct_ok (fun _ => True) env hA j hj (fun r => ∀ res, r = .ok res → Correct env j res)
    (fun e _ res h => by cases h)
    (fun e _ _ res h => by cases h)
    (fun res hres res' h => by injection h with h; rwa [← h]) (fun _ _ _ _ _ res h => by cases h)
    (fun _ _ _ _ _ _ _ _ res h => by cases h)
  have hI' := hI.reach hc h
  exact (runAlone_ok _ (construct_untorn _ _) (hc j hj) st'.fs hI'.reg hI'.user).1

/-- C15. A torn eigenvalue file makes every construction of that problem fail with the loader's error and stays in
place; after it is deleted the construction computes and succeeds. -/
theorem C15_torn_file (env : Env) (fs : FS) (s : Slepian) (hval : s.validate = .ok ()) (r : Obj) (hr : s.createRegion = .ok r)
    (e : Err) (he : e ≠ .typeError) (hreg : fs.registry (evalFile (env.location s r)) = none)
    (htorn : fs.user (evalFile (env.location s r)) = some (.torn e)) :
    runAlone fs (construct env ⟨s, none⟩) = (.error e, fs) ∧
    ∃ res fs', runAlone (fs.write (evalFile (env.location s r)) none) (construct env ⟨s, none⟩) = (.ok res, fs') ∧
      Correct env ⟨s, none⟩ res := by
  have hl : npLoad fs (find fs (evalFile (env.location s r))) = .error e := by
    simp [find, hreg, htorn, npLoad, FS.read]
  have hl' : npLoad (fs.write (evalFile (env.location s r)) none)
      (find (fs.write (evalFile (env.location s r)) none) (evalFile (env.location s r))) = .error .typeError := by
    simp [find, FS.write, hreg, npLoad]
  constructor
  · unfold construct
    simp only [hval, hr]
    cases s with
    | polarCap L t g =>
      simp only [badOrder, Bool.false_eq_true, if_false]
      unfold solvePolar runAlone
      rw [hl]
      cases e <;> first | rfl | exact absurd rfl he
    | _ =>
      simp only
      unfold solvePlain runAlone
      rw [hl]
      cases e <;> first | rfl | exact absurd rfl he
  · unfold construct
    simp only [hval, hr]
    cases s with
    | polarCap L t g =>
      simp only [badOrder, Bool.false_eq_true, if_false]
      unfold solvePolar runAlone
      rw [hl']
      exact ⟨_, _, rfl, rfl, Or.inl rfl, rfl⟩
    | _ =>
      simp only
      unfold solvePlain runAlone
      rw [hl']
      exact ⟨_, _, rfl, rfl, Or.inl rfl, rfl⟩

/-- C16. What a lookup returns, for all registries and directories. -/
theorem C16_lookup (fs : FS) (n : String) :
    (∀ f, fs.registry n = some f → find fs n = some (.pooch n) ∧ fs.read (.pooch n) = some f) ∧
    (∀ f, fs.registry n = none → fs.user n = some f → find fs n = some (.user n) ∧ fs.read (.user n) = some f) ∧
    (fs.registry n = none → fs.user n = none → find fs n = none) := by
  refine ⟨fun f h => ⟨by simp [find, h], h⟩, fun f h h' => ⟨by simp [find, h, h'], h'⟩, fun h h' => by simp [find, h, h']⟩

/-- C16. No history changes what a published name loads. -/
theorem C16_published_stable (env : Env) (allowed : Job → Prop) (killable : Proc → Prop) (st st' : State)
    (h : Relation.ReflTransGen (Step env allowed killable) st st') (n : String) (f : File) (hf : st.fs.registry n = some f) :
    npLoad st'.fs (find st'.fs n) = npLoad st.fs (find st.fs n) := by
  have hr : st'.fs.registry = st.fs.registry := by
    induction h with
    | refl => rfl
    | tail _ step ih => exact step.registry.trans ih
  simp [find, hr, hf, npLoad, FS.read]

end Sleplet.Props
