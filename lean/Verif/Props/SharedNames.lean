import Verif.Props.FirstDecides

/-!
C145: histories of concurrent constructions of regions that may share their file names.
-/
namespace Sleplet.Props

open Sleplet.Region Sleplet.Cache

/-- `s'` is one of the regions worked on and has the file names `loc`. -/
def Shares (env : Env) (A : Slepian → Prop) (loc : String) (s' : Slepian) : Prop :=
  A s' ∧ ∃ r', s'.createRegion = .ok r' ∧ env.location s' r' = loc

/-- a whole solution made of files of the name: eigenvalues, rows and orders each from a region with that name, or all of them the region's
own. -/
def OfName (env : Env) (A : Slepian → Prop) (s : Slepian) (loc : String) (res : Result) : Prop :=
  (res.evals = .evals (env.solve s).1 ∧ res.evecs = .evecs (env.solve s).2.1 ∧ (IsPolar s → res.orders = some (.orders (env.solve s).2.2)) ∧
      (¬ IsPolar s → res.orders = none)) ∨
    ∃ s₁ s₂, Shares env A loc s₁ ∧ Shares env A loc s₂ ∧ res.evals = .evals (env.solve s₁).1 ∧ res.evecs = .evecs (savedRows env s₂) ∧
      (IsPolar s → ∃ s₃, IsPolar s₃ ∧ Shares env A loc s₃ ∧ res.orders = some (.orders (env.solve s₃).2.2)) ∧ (¬ IsPolar s → res.orders = none)

private theorem belongs_shares {env : Env} {A : Slepian → Prop} {loc n : String} {f : File} (h : Belongs env A n f) (i : Fin 3)
    (hn : n = loc ++ (["_eigenvalues.npy", "_eigenvectors.npy", "_orders.npy"].get i)) :
    ∃ s', Shares env A loc s' ∧ (i = 0 → f = .evals (env.solve s').1) ∧ (i = 1 → f = .evecs (savedRows env s')) ∧
      (i = 2 → IsPolar s' ∧ f = .orders (env.solve s').2.2) := by
  obtain ⟨s', hs', r', hr', h⟩ := h
  have same : ∀ k : Fin 3, n = env.location s' r' ++ (["_eigenvalues.npy", "_eigenvectors.npy", "_orders.npy"].get k) →
      i = k ∧ loc = env.location s' r' := fun k hk => C12_file_names _ _ _ _ (hn.symm.trans hk)
  rcases h with ⟨hk, rfl⟩ | ⟨hk, rfl⟩ | ⟨hp, hk, rfl⟩
  · obtain ⟨rfl, rfl⟩ := same 0 hk
    exact ⟨s', ⟨hs', r', hr', rfl⟩, fun _ => rfl, fun h => (by cases h), fun h => (by cases h)⟩
  · obtain ⟨rfl, rfl⟩ := same 1 hk
    exact ⟨s', ⟨hs', r', hr', rfl⟩, fun h => (by cases h), fun _ => rfl, fun h => (by cases h)⟩
  · obtain ⟨rfl, rfl⟩ := same 2 hk
    exact ⟨s', ⟨hs', r', hr', rfl⟩, fun h => (by cases h), fun h => (by cases h), fun _ => ⟨hp, rfl⟩⟩

private theorem construct_named (env : Env) (A : Slepian → Prop) (j : Job) (hj : A j.s) :
    OkProg (fun _ => True) (Belongs env A) (fun x => ∀ res, x = .ok res → j.order = none → ∀ r, j.s.createRegion = .ok r →
      OfName env A j.s (env.location j.s r) res) (construct env j) := by
  obtain ⟨s, order⟩ := j
  generalize hQ : (fun x : Except Err Result => ∀ res, x = .ok res → order = none → ∀ r, s.createRegion = .ok r →
      OfName env A s (env.location s r) res) = Q
  have hQe : ∀ e, Q (.error e) := by
    intro e
    rw [← hQ]
    intro res h
    cases h
  cases hval : s.validate with
  | error e =>
    unfold construct
    simp only [hval]
    exact hQe e
  | ok u =>
  cases hr : s.createRegion with
  | error e =>
    unfold construct
    simp only [hval, hr]
    exact hQe e
  | ok r =>
  have hQr : ∀ res, (order = none → OfName env A s (env.location s r) res) → Q (.ok res) := by
    intro res h
    rw [← hQ]
    intro res' he ho r' hr'
    rw [hr] at hr'
    injection hr' with hr'
    injection he with he
    rw [← hr', ← he]
    exact h ho
  have hbe : Belongs env A (evalFile (env.location s r)) (.evals (env.solve s).1) := ⟨s, hj, r, hr, Or.inl ⟨rfl, rfl⟩⟩
  have hbv : Belongs env A (evecFile (env.location s r)) (.evecs (savedRows env s)) := ⟨s, hj, r, hr, Or.inr (Or.inl ⟨rfl, rfl⟩)⟩
  by_cases hp : IsPolar s
  swap
  · have hc : construct env ⟨s, order⟩ = solvePlain (env.location s r) (env.shannon s) (env.solve s).1 (env.solve s).2.1 := by
      cases s with
      | polarCap L t g => exact absurd trivial hp
      | _ => unfold construct; simp only [hval, hr]
    have hsr : savedRows env s = slice (env.solve s).2.1 (env.shannon s) := by
      cases s with
      | polarCap L t g => exact absurd trivial hp
      | _ => rfl
    rw [hc]
    have hscr : OkProg (fun _ => True) (Belongs env A) Q (.save (evalFile (env.location s r)) (.evals (env.solve s).1) <|
        .save (evecFile (env.location s r)) (.evecs (slice (env.solve s).2.1 (env.shannon s))) <|
        .done (.ok ⟨.evals (env.solve s).1, .evecs (env.solve s).2.1, none⟩)) :=
      ⟨hbe, by rw [← hsr]; exact hbv, hQr _ fun _ => Or.inl ⟨rfl, rfl, fun h => absurd h hp, fun _ => rfl⟩⟩
    refine ⟨fun e _ => ?_, fun f hf => ?_⟩
    · cases e <;> first | exact hscr | exact hQe _
    · obtain ⟨s₁, h1, hf, -⟩ := belongs_shares hf 0 rfl
      have hf := hf rfl
      subst hf
      refine ⟨fun e _ => ?_, fun f hf => ?_⟩
      · cases e <;> first | exact hscr | exact hQe _
      · obtain ⟨s₂, h2, -, hf, -⟩ := belongs_shares hf 1 rfl
        have hf := hf rfl
        subst hf
        exact hQr _ fun _ => Or.inr ⟨s₁, s₂, h1, h2, rfl, rfl, fun h => absurd h hp, fun _ => rfl⟩
  cases s with
  | limitLatLon L a b c d => exact hp.elim
  | arbitrary L m => exact hp.elim
  | polarCap L t g =>
    unfold construct
    simp only [hval, hr]
    by_cases hb : badOrder L order = true
    · rw [if_pos hb]
      exact hQe _
    · rw [if_neg hb]
      have hscr : OkProg (fun _ => True) (Belongs env A) Q (match order with
          | some m => .done (.ok ⟨.evals (env.solveOrder (.polarCap L t g) m).1, .evecs (env.solveOrder (.polarCap L t g) m).2, none⟩)
          | none => .save (evalFile (env.location (.polarCap L t g) r)) (.evals (env.solve (.polarCap L t g)).1) <|
            .save (evecFile (env.location (.polarCap L t g) r)) (.evecs (if L > lSaveAll then
              slice (env.solve (.polarCap L t g)).2.1 (env.shannon (.polarCap L t g)) else (env.solve (.polarCap L t g)).2.1)) <|
            .save (orderFile (env.location (.polarCap L t g) r)) (.orders (env.solve (.polarCap L t g)).2.2) <|
            .done (.ok ⟨.evals (env.solve (.polarCap L t g)).1, .evecs (env.solve (.polarCap L t g)).2.1,
              some (.orders (env.solve (.polarCap L t g)).2.2)⟩)) := by
        cases order with
        | some m => exact hQr _ fun h => by cases h
        | none => exact ⟨hbe, hbv, ⟨_, hj, r, hr, Or.inr (Or.inr ⟨trivial, rfl, rfl⟩)⟩,
            hQr _ fun _ => Or.inl ⟨rfl, rfl, fun _ => rfl, fun h => absurd trivial h⟩⟩
      refine ⟨fun e _ => ?_, fun f hf => ?_⟩
      · cases e <;> first | exact hQe _ | (cases order <;> exact hscr)
      · obtain ⟨s₁, h1, hf, -⟩ := belongs_shares hf 0 rfl
        have hf := hf rfl
        subst hf
        refine ⟨fun e _ => ?_, fun f hf => ?_⟩
        · cases e <;> first | exact hQe _ | (cases order <;> exact hscr)
        · obtain ⟨s₂, h2, -, hf, -⟩ := belongs_shares hf 1 rfl
          have hf := hf rfl
          subst hf
          refine ⟨fun e _ => ?_, fun f hf => ?_⟩
          · cases e <;> first | exact hQe _ | (cases order <;> exact hscr)
          · obtain ⟨s₃, h3, -, -, hf⟩ := belongs_shares hf 2 rfl
            obtain ⟨hp3, hf⟩ := hf rfl
            subst hf
            show Q _
            cases order with
            | none =>
              exact hQr _ fun _ => Or.inr ⟨s₁, s₂, h1, h2, rfl, rfl, fun _ => ⟨s₃, hp3, h3, rfl⟩, fun h => absurd trivial h⟩
            | some m =>
              cases hsel : selectOrder (some m) (.evals (env.solve s₁).1) (.evecs (savedRows env s₂)) (.orders (env.solve s₃).2.2) with
              | error e => exact hQe e
              | ok res => exact hQr _ fun h => by cases h

/-- C145.  In every history of concurrent constructions over one data directory, with processes killed at any point and files deleted, what a
construction ends with is its region's own solution or made of eigenvalues, rows and orders that regions of the same file names saved. -/
theorem C145_of_the_name (env : Env) (A : Slepian → Prop) (st st' : State) (h0 : Start env A st)
    (h : Relation.ReflTransGen (Cache.Step env (fun j => A j.s) fun _ => True) st st')
    (s : Slepian) (r : Obj) (hr : s.createRegion = .ok r) (res : Result)
    (hj : ((⟨s, none⟩ : Job), .running (.done (.ok res))) ∈ st'.procs) : OfName env A s (env.location s r) res := by
  have hI : Inv (Belongs env A) (fun j x => ∀ res, x = .ok res → j.order = none → ∀ r, j.s.createRegion = .ok r →
      OfName env A j.s (env.location j.s r) res) st := by
    refine ⟨fun n f hf => Or.inl (h0.2.2 n f hf), fun n f hf => ?_, fun x hx => ?_⟩
    · rw [h0.2.1] at hf; cases hf
    · rw [h0.1] at hx; cases hx
  have := hI.reach (fun j hj => construct_named env A j hj) h
  exact this.procs _ hj res rfl rfl r hr

private theorem write_write (fs : FS) (n : String) (x y : Option File) : (fs.write n x).write n y = fs.write n y := by
  unfold FS.write
  congr 1
  funext m
  by_cases hm : m = n <;> simp [hm]

/-- a whole save. -/
private theorem save_steps {env : Env} {allowed : Job → Prop} {killable : Proc → Prop} (fs : FS) (ps : List (Job × Proc)) (i : ℕ) (j : Job)
    (n : String) (f : File) (p : Prog) (h : ps[i]? = some (j, .running (.save n f p))) :
    Relation.ReflTransGen (Cache.Step env allowed killable) ⟨fs, ps⟩ ⟨fs.write n (some f), ps.set i (j, .running p)⟩ := by
  have hi : i < ps.length := (List.getElem?_eq_some_iff.1 h).1
  have h2 : (ps.set i (j, .saving n f p))[i]? = some (j, .saving n f p) := by simp [hi]
  have s2 := Cache.Step.endSave (env := env) (allowed := allowed) (killable := killable) (fs.write n (some (.torn .valueError))) _ i j n f p h2
  rw [write_write, List.set_set] at s2
  exact (Relation.ReflTransGen.single (Cache.Step.beginSave fs ps i j n f p .valueError h)).tail s2

/-- C145.  The parts can be of different regions: two regions that are not caps and have the same names are constructed at the same time and
a third construction loads the eigenvalues of one and the rows of the other.  Nothing need be killed or deleted. -/
theorem C145_mixed (env : Env) (s s' : Slepian) (r r' : Obj) (hp : ¬ IsPolar s) (hp' : ¬ IsPolar s') (hr : s.createRegion = .ok r)
    (hr' : s'.createRegion = .ok r') (hloc : env.location s r = env.location s' r') (A : Slepian → Prop) (hs : A s) (hs' : A s')
    (killable : Proc → Prop) :
    ∃ st st', Start env A st ∧ Relation.ReflTransGen (Cache.Step env (fun j => A j.s) killable) st st' ∧
      ((⟨s, none⟩ : Job), .running (.done (.ok ⟨.evals (env.solve s').1, .evecs (savedRows env s), none⟩))) ∈ st'.procs := by
  have hval : ∀ u : Slepian, ¬ IsPolar u → u.validate = .ok () := by
    intro u hu
    cases u with
    | polarCap L t g => exact absurd trivial hu
    | _ => rfl
  have hc : ∀ (u : Slepian) (q : Obj), ¬ IsPolar u → u.createRegion = .ok q → construct env ⟨u, none⟩ =
      solvePlain (env.location u q) (env.shannon u) (env.solve u).1 (env.solve u).2.1 := by
    intro u q hu hq
    have := hval u hu
    cases u with
    | polarCap L t g => exact absurd trivial hu
    | _ => unfold construct; simp only [this, hq]
  have hsr : ∀ u : Slepian, ¬ IsPolar u → slice (env.solve u).2.1 (env.shannon u) = savedRows env u := by
    intro u hu
    cases u with
    | polarCap L t g => exact absurd trivial hu
    | _ => rfl
  have hca := hc s r hp hr
  have hcb := hc s' r' hp' hr'
  rw [hloc] at hca
  generalize env.location s' r' = loc at hca hcb
  unfold solvePlain at hca hcb
  rw [hsr s hp] at hca
  rw [hsr s' hp'] at hcb
  dsimp only at hca hcb
  obtain ⟨n1, -, -⟩ := files_ne loc
  let fs : FS := ⟨fun _ => none, fun _ => none⟩
  let a : Job := ⟨s, none⟩
  let b : Job := ⟨s', none⟩
  let Va : Prog := .save (evecFile loc) (.evecs (savedRows env s)) <| .done (.ok ⟨.evals (env.solve s).1, .evecs (env.solve s).2.1, none⟩)
  let Vb : Prog := .save (evecFile loc) (.evecs (savedRows env s')) <| .done (.ok ⟨.evals (env.solve s').1, .evecs (env.solve s').2.1, none⟩)
  let Sa : Prog := .save (evalFile loc) (.evals (env.solve s).1) Va
  let Sb : Prog := .save (evalFile loc) (.evals (env.solve s').1) Vb
  let Da : Prog := .done (.ok ⟨.evals (env.solve s).1, .evecs (env.solve s).2.1, none⟩)
  let fs1 := fs.write (evalFile loc) (some (.evals (env.solve s).1))
  let fs2 := fs1.write (evecFile loc) (some (.evecs (savedRows env s)))
  let fs3 := fs2.write (evalFile loc) (some (.evals (env.solve s').1))
  let R := Cache.Step env (fun j => A j.s) killable
  have e0 : Relation.ReflTransGen R ⟨fs, []⟩ ⟨fs, [(a, .running (construct env a))]⟩ := .single (Cache.Step.spawn fs [] a hs)
  have e1 : Relation.ReflTransGen R ⟨fs, [(a, .running (construct env a))]⟩ ⟨fs, [(a, .running (construct env a)), (b, .running (construct env b))]⟩ :=
    .single (Cache.Step.spawn fs _ b hs')
  have e2 : Relation.ReflTransGen R ⟨fs, [(a, .running (construct env a)), (b, .running (construct env b))]⟩
      ⟨fs, [(a, .running Sa), (b, .running (construct env b))]⟩ := by
    have := Cache.Step.load (env := env) (allowed := fun j => A j.s) (killable := killable) fs
      [(a, .running (construct env a)), (b, .running (construct env b))] 0 a (evalFile loc) _ (by rw [hca]; rfl)
    exact .single this
  have e3 : Relation.ReflTransGen R ⟨fs, [(a, .running Sa), (b, .running (construct env b))]⟩ ⟨fs, [(a, .running Sa), (b, .running Sb)]⟩ := by
    have := Cache.Step.load (env := env) (allowed := fun j => A j.s) (killable := killable) fs
      [(a, .running Sa), (b, .running (construct env b))] 1 b (evalFile loc) _ (by rw [hcb]; rfl)
    exact .single this
  have e4 : Relation.ReflTransGen R ⟨fs, [(a, .running Sa), (b, .running Sb)]⟩ ⟨fs1, [(a, .running Va), (b, .running Sb)]⟩ :=
    save_steps fs _ 0 a _ _ _ rfl
  have e5 : Relation.ReflTransGen R ⟨fs1, [(a, .running Va), (b, .running Sb)]⟩ ⟨fs2, [(a, .running Da), (b, .running Sb)]⟩ :=
    save_steps fs1 _ 0 a _ _ _ rfl
  have e6 : Relation.ReflTransGen R ⟨fs2, [(a, .running Da), (b, .running Sb)]⟩ ⟨fs3, [(a, .running Da), (b, .running Vb)]⟩ :=
    save_steps fs2 _ 1 b _ _ _ rfl
  have e7 : Relation.ReflTransGen R ⟨fs3, [(a, .running Da), (b, .running Vb)]⟩
      ⟨fs3, [(a, .running Da), (b, .running Vb), (a, .running (construct env a))]⟩ := .single (Cache.Step.spawn fs3 _ a hs)
  have l1 : npLoad fs3 (find fs3 (evalFile loc)) = .ok (.evals (env.solve s').1) := by
    simp [find, npLoad, FS.read, fs3, fs2, fs1, fs, FS.write]
  have l2 : npLoad fs3 (find fs3 (evecFile loc)) = .ok (.evecs (savedRows env s)) := by
    simp [find, npLoad, FS.read, fs3, fs2, fs1, fs, FS.write, n1.symm]
  have e8 : ∃ k, k (.ok (.evecs (savedRows env s))) = .done (.ok ⟨.evals (env.solve s').1, .evecs (savedRows env s), none⟩) ∧
      Relation.ReflTransGen R ⟨fs3, [(a, .running Da), (b, .running Vb), (a, .running (construct env a))]⟩
        ⟨fs3, [(a, .running Da), (b, .running Vb), (a, .running (.load (evecFile loc) k))]⟩ := by
    have := Cache.Step.load (env := env) (allowed := fun j => A j.s) (killable := killable) fs3
      [(a, .running Da), (b, .running Vb), (a, .running (construct env a))] 2 a (evalFile loc) _ (by rw [hca]; rfl)
    rw [l1] at this
    exact ⟨_, rfl, .single this⟩
  obtain ⟨k, hk, e8⟩ := e8
  have e9 : Relation.ReflTransGen R ⟨fs3, [(a, .running Da), (b, .running Vb), (a, .running (.load (evecFile loc) k))]⟩
      ⟨fs3, [(a, .running Da), (b, .running Vb),
        (a, .running (.done (.ok ⟨.evals (env.solve s').1, .evecs (savedRows env s), none⟩)))]⟩ := by
    have := Cache.Step.load (env := env) (allowed := fun j => A j.s) (killable := killable) fs3
      [(a, .running Da), (b, .running Vb), (a, .running (.load (evecFile loc) k))] 2 a (evecFile loc) k rfl
    rw [l2, hk] at this
    exact .single this
  exact ⟨⟨fs, []⟩, _, ⟨rfl, fun _ => rfl, fun _ _ h => by cases h⟩,
    ((((((((e0.trans e1).trans e2).trans e3).trans e4).trans e5).trans e6).trans e7).trans e8).trans e9, by simp [a]⟩

/-- the boxes that reach the equator and end at the longitudes three and 3.001, both 172 degrees, have the same files at bandlimit two. -/
theorem two_boxes (env : Env) : ∃ r r', (Region.Slepian.limitLatLon 2 0 (Real.pi / 2) 0 3).createRegion = .ok r ∧
    (Region.Slepian.limitLatLon 2 0 (Real.pi / 2) 0 (3 + 1 / 1000)).createRegion = .ok r' ∧
    env.location (.limitLatLon 2 0 (Real.pi / 2) 0 3) r = env.location (.limitLatLon 2 0 (Real.pi / 2) 0 (3 + 1 / 1000)) r' ∧
    env.shannon (.limitLatLon 2 0 (Real.pi / 2) 0 (3 + 1 / 1000)) = 1 := by
  have hpi := Real.pi_gt_d2
  have hpi' := Real.pi_lt_d4
  have region : ∀ t : ℝ, 0 ≤ t → t < Real.pi → ∃ r, (Slepian.limitLatLon 2 0 (Real.pi / 2) 0 t).createRegion = .ok r := by
    intro t h0 hlt
    have hp : OtherAngle { thetaMin := 0, thetaMax := Real.pi / 2, phiMin := 0, phiMax := t } := Or.inr (Or.inl (by simp; linarith))
    obtain ⟨r, h, -⟩ := ((C09_classification { thetaMin := 0, thetaMax := Real.pi / 2, phiMin := 0, phiMax := t }).2
      ⟨⟨h0, by simp; linarith⟩, ⟨le_rfl, by simp; linarith⟩, ⟨by simp; linarith, by simp; linarith⟩, le_rfl, by simp; linarith⟩).2.1 hp
    exact ⟨r, h⟩
  obtain ⟨r, hr⟩ := region 3 (by norm_num) (by linarith)
  have hlt : (3 + 1 / 1000 : ℝ) < Real.pi := by linarith
  obtain ⟨r', hr'⟩ := region (3 + 1 / 1000) (by norm_num) hlt
  have hd : ∀ t : ℝ, 3 ≤ t → t ≤ 3 + 1 / 1000 → angleAsDegree t = 172 := by
    intro t ha hb
    unfold angleAsDegree
    apply round_near
    unfold Py.rad2deg
    rw [abs_lt]
    push_cast
    constructor
    · have : 172 - 1 / 2 < t * 180 / Real.pi := by rw [lt_div_iff₀ (by linarith)]; nlinarith
      linarith
    · have : t * 180 / Real.pi < 172 + 1 / 2 := by rw [div_lt_iff₀ (by linarith)]; nlinarith
      linarith
  have hn : ∀ t : ℝ, 3 ≤ t → t ≤ 3 + 1 / 1000 → (Slepian.limitLatLon 2 0 (Real.pi / 2) 0 t).shannon 0 = 1 := by
    intro t ha hb
    unfold Slepian.shannon
    apply round_near
    have h2 : (Slepian.limitLatLon 2 0 (Real.pi / 2) 0 t).area 0 * ((Slepian.limitLatLon 2 0 (Real.pi / 2) 0 t).L : ℝ) ^ 2 / (4 * Real.pi) =
        t / Real.pi := by
      simp only [Slepian.area, Slepian.L, Real.cos_zero, Real.cos_pi_div_two]
      push_cast
      field_simp
      ring
    have h3 : t / Real.pi < 1 := by rw [div_lt_one (by linarith)]; linarith
    have h4 : 1 / 2 < t / Real.pi := by rw [lt_div_iff₀ (by linarith)]; linarith
    rw [h2, abs_lt]
    push_cast
    constructor <;> linarith
  have hne : ∀ t : ℝ, t < Real.pi → ¬ ((0 : ℝ) = 0 ∧ t = 2 * Real.pi ∧ (0 : ℝ) = 0) := fun t h q => by linarith [q.2.1]
  refine ⟨r, r', hr, hr', ?_, ?_⟩
  · show "slepian_eigensolutions_D_" ++ r.nameEnding ++ "_L" ++ _ ++ "_N" ++ toString ((Slepian.limitLatLon 2 0 (Real.pi / 2) 0 3).shannon 0) =
      "slepian_eigensolutions_D_" ++ r'.nameEnding ++ "_L" ++ _ ++ "_N" ++
        toString ((Slepian.limitLatLon 2 0 (Real.pi / 2) 0 (3 + 1 / 1000)).shannon 0)
    rw [latLon_name (hne _ (by linarith)) hr, latLon_name (hne _ hlt) hr', hd 3 le_rfl (by norm_num), hd (3 + 1 / 1000) (by norm_num) le_rfl,
      hn 3 le_rfl (by norm_num), hn (3 + 1 / 1000) (by norm_num) le_rfl]
    rfl
  · exact hn (3 + 1 / 1000) (by norm_num) le_rfl

/-- the hypotheses of both are met: these two boxes, and a history in which one ends with the eigenvalues of the other. -/
example (env : Env) : ∃ (s s' : Slepian) (r : Obj) (A : Slepian → Prop) (st st' : State), s ≠ s' ∧ s.createRegion = .ok r ∧
    Shares env A (env.location s r) s' ∧ Start env A st ∧ Relation.ReflTransGen (Cache.Step env (fun j => A j.s) fun _ => True) st st' ∧
    ((⟨s, none⟩ : Job), .running (.done (.ok ⟨.evals (env.solve s').1, .evecs (savedRows env s), none⟩))) ∈ st'.procs := by
  obtain ⟨r, r', hr, hr', hloc, -⟩ := two_boxes env
  obtain ⟨st, st', h1, h2, h3⟩ := C145_mixed env _ _ r r' id id hr hr' hloc (fun _ => True) trivial trivial fun _ => True
  exact ⟨_, _, r, fun _ => True, st, st', by simp, hr, ⟨trivial, r', hr', hloc.symm⟩, h1, h2, h3⟩

end Sleplet.Props
