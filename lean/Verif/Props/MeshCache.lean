import Mathlib.Tactic.FieldSimp
import Mathlib.Tactic.Linarith
import Mathlib.Analysis.Real.Sqrt
import Verif.Lemmas.MeshCache
import Verif.Model.Region

/-!
C79: the files of meshes.  The Slepian functions are coefficients in the basis of the mesh, so the two pairs of files have to
belong together.
-/
namespace Sleplet.Props

open Sleplet.MeshCache
open Sleplet.Cache (evalFile evecFile slice)

variable {Φ Ω : Type}

/-- the number of basis functions asked for, or a quarter of the vertices. -/
def askedFor (env : MeshCache.Env Φ Ω) (j : MeshCache.Job Ω) : ℤ := j.number.getD ((env.vertices j.name / 4 : ℕ) : ℤ)

/-- `eigsh` returns as many eigenvalues as asked for. -/
def FullLength (env : MeshCache.Env Φ Ω) : Prop := ∀ n k ω w φ, env.eigsh n k ω = .ok (w, φ) → (w.length : ℤ) = k

/-- the mesh holds the outcome of one run of `eigsh`, and the Slepian functions, if asked for, are those of that basis: all of
them or as many as the Shannon number. -/
def MeshCorrect (env : MeshCache.Env Φ Ω) (j : MeshCache.Job Ω) (res : MeshCache.Result Φ) : Prop :=
  ∃ ω w φ, env.eigsh j.name (askedFor env j) ω = .ok (w, φ) ∧ res.evals = w ∧ res.basis = φ ∧ res.number = askedFor env j ∧
    (j.slepian = false → res.slepian = none) ∧
    (j.slepian = true → ∃ v, res.slepian = some ((env.solve j.name φ).1, v) ∧
      (v = (env.solve j.name φ).2 ∨ v = slice (env.solve j.name φ).2 (env.shannon j.name w.length)))

theorem number_eq (env : MeshCache.Env Φ Ω) (j : MeshCache.Job Ω) : env.number j = askedFor env j := by
  unfold MeshCache.Env.number askedFor
  cases j.number <;> rfl

/-! ### names -/

/-- The names determine the mesh, the number of basis functions, the Shannon number and the kind of file, and are not names of
eigensolutions of regions of the sphere. -/
theorem C79_file_names (n n' : String) (k k' : ℤ) (K K' : ℕ) (N N' : ℤ) :
    (evalFile (basisLoc n k) = evalFile (basisLoc n' k') → n = n' ∧ k = k') ∧
    (evecFile (basisLoc n k) = evecFile (basisLoc n' k') → n = n' ∧ k = k') ∧
    (evalFile (slepianLoc n K N) = evalFile (slepianLoc n' K' N') → n = n' ∧ K = K' ∧ N = N') ∧
    (evecFile (slepianLoc n K N) = evecFile (slepianLoc n' K' N') → n = n' ∧ K = K' ∧ N = N') ∧
    (∀ a b, evalFile a ≠ evecFile b) ∧
    (∀ s s', basisLoc n k ++ s ≠ slepianLoc n' K N ++ s') ∧
    (∀ x s, basisLoc n k ++ s ≠ "slepian_eigensolutions_D_" ++ x) ∧
    (∀ x s, slepianLoc n K N ++ s ≠ "slepian_eigensolutions_D_" ++ x) := by
  have hd : ∀ x : String, ("slepian_eigensolutions_D_" ++ x).toList.take 18 = "slepian_eigensolut".toList := by
    intro x
    have e : "slepian_eigensolutions_D_".toList = "slepian_eigensolut".toList ++ 'i' :: "ons_D_".toList := by decide +kernel
    have hp : "slepian_eigensolut".toList.length = 18 := by decide +kernel
    rw [String.toList_append, e]
    generalize "slepian_eigensolut".toList = p at hp ⊢
    simp only [List.append_assoc, List.cons_append]
    exact (take_prefix p _ _ 18 hp).1
  have hne : "meshes_laplacians_".toList ≠ "slepian_eigensolut".toList := by decide +kernel
  refine ⟨fun h => basisLoc_inj (suffix_inj h), fun h => basisLoc_inj (suffix_inj' h), fun h => slepianLoc_inj (suffix_inj h),
    fun h => slepianLoc_inj (suffix_inj' h), eval_ne_evec, fun s s' => basis_ne_slepian _ _ _ _ _ _ _, fun x s h => ?_, fun x s h => ?_⟩
  · exact hne ((basis_prefix n k s).1.symm.trans (by rw [h, hd]))
  · exact hne ((slepian_prefix n K N s).1.symm.trans (by rw [h, hd]))

/-! ### reproducible `eigsh` -/

/-- file `n` with content `f` belongs to some mesh. -/
def MeshBelongs (env : MeshCache.Env Φ Ω) (n : String) (f : MeshCache.File Φ) : Prop :=
  ∃ name k ω w φ, env.eigsh name k ω = .ok (w, φ) ∧
    ((n = evalFile (basisLoc name k) ∧ f = .evals w) ∨ (n = evecFile (basisLoc name k) ∧ f = .basis φ) ∨
     (n = evalFile (slepianLoc name w.length (env.shannon name w.length)) ∧ f = .evals (env.solve name φ).1) ∨
     (n = evecFile (slepianLoc name w.length (env.shannon name w.length)) ∧
      f = .rows (slice (env.solve name φ).2 (env.shannon name w.length))))

section
variable {env : MeshCache.Env Φ Ω} (hlen : FullLength env) (hdet : ∀ n k ω ω', env.eigsh n k ω = env.eigsh n k ω')
include hlen hdet

theorem belongs_basis_eval {name : String} {k : ℤ} {f : MeshCache.File Φ} (h : MeshBelongs env (evalFile (basisLoc name k)) f) :
    ∃ ω w φ, env.eigsh name k ω = .ok (w, φ) ∧ f = .evals w := by
  obtain ⟨n', k', ω, w, φ, he, ⟨hn, hf⟩ | ⟨hn, hf⟩ | ⟨hn, hf⟩ | ⟨hn, hf⟩⟩ := h
  · obtain ⟨rfl, rfl⟩ := basisLoc_inj (suffix_inj hn)
    exact ⟨ω, w, φ, he, hf⟩
  · exact absurd hn (eval_ne_evec _ _)
  · exact absurd hn (basis_ne_slepian _ _ _ _ _ _ _)
  · exact absurd hn (eval_ne_evec _ _)

theorem belongs_basis_evec {name : String} {k : ℤ} {f : MeshCache.File Φ} (h : MeshBelongs env (evecFile (basisLoc name k)) f) :
    ∃ ω w φ, env.eigsh name k ω = .ok (w, φ) ∧ f = .basis φ := by
  obtain ⟨n', k', ω, w, φ, he, ⟨hn, hf⟩ | ⟨hn, hf⟩ | ⟨hn, hf⟩ | ⟨hn, hf⟩⟩ := h
  · exact absurd hn.symm (eval_ne_evec _ _)
  · obtain ⟨rfl, rfl⟩ := basisLoc_inj (suffix_inj' hn)
    exact ⟨ω, w, φ, he, hf⟩
  · exact absurd hn.symm (eval_ne_evec _ _)
  · exact absurd hn (basis_ne_slepian _ _ _ _ _ _ _)

/-- the Slepian files belong to the only basis there is. -/
theorem belongs_slepian {name : String} {k : ℤ} {ω : Ω} {w : List ℝ} {φ : Φ} (he : env.eigsh name k ω = .ok (w, φ))
    {f : MeshCache.File Φ} :
    (MeshBelongs env (evalFile (slepianLoc name w.length (env.shannon name w.length))) f → f = .evals (env.solve name φ).1) ∧
    (MeshBelongs env (evecFile (slepianLoc name w.length (env.shannon name w.length))) f →
      f = .rows (slice (env.solve name φ).2 (env.shannon name w.length))) := by
  have same : ∀ n' k' ω' w' φ', env.eigsh n' k' ω' = .ok (w', φ') → name = n' → w.length = w'.length → φ' = φ := by
    intro n' k' ω' w' φ' he' hn hl
    subst hn
    have hk : k' = k := by rw [← hlen _ _ _ _ _ he, ← hlen _ _ _ _ _ he', hl]
    subst hk
    rw [hdet _ _ ω' ω, he] at he'
    injection he' with he'
    exact (Prod.ext_iff.1 he').2.symm
  constructor
  · rintro ⟨n', k', ω', w', φ', he', ⟨hn, hf⟩ | ⟨hn, hf⟩ | ⟨hn, hf⟩ | ⟨hn, hf⟩⟩
    · exact absurd hn.symm (basis_ne_slepian _ _ _ _ _ _ _)
    · exact absurd hn (eval_ne_evec _ _)
    · obtain ⟨h1, h2, -⟩ := slepianLoc_inj (suffix_inj hn)
      have hφ := same _ _ _ _ _ he' h1 h2
      subst h1 hφ
      exact hf
    · exact absurd hn (eval_ne_evec _ _)
  · rintro ⟨n', k', ω', w', φ', he', ⟨hn, hf⟩ | ⟨hn, hf⟩ | ⟨hn, hf⟩ | ⟨hn, hf⟩⟩
    · exact absurd hn.symm (eval_ne_evec _ _)
    · exact absurd hn.symm (basis_ne_slepian _ _ _ _ _ _ _)
    · exact absurd hn.symm (eval_ne_evec _ _)
    · obtain ⟨h1, h2, -⟩ := slepianLoc_inj (suffix_inj' hn)
      have hφ := same _ _ _ _ _ he' h1 h2
      subst h1 hφ
      rw [h2]
      exact hf

theorem afterMesh_ok (j : MeshCache.Job Ω) {ω : Ω} {w : List ℝ} {φ : Φ} (he : env.eigsh j.name (askedFor env j) ω = .ok (w, φ)) :
    MeshCache.OkProg (MeshBelongs env) (fun r => ∀ res, r = .ok res → MeshCorrect env j res) (afterMesh env j w φ) := by
  unfold afterMesh
  split
  · rename_i hs
    have hbe : MeshBelongs env (evalFile (slepianLoc j.name w.length (env.shannon j.name w.length)))
        (.evals (env.solve j.name φ).1) := ⟨_, _, _, _, _, he, Or.inr (Or.inr (Or.inl ⟨rfl, rfl⟩))⟩
    have hbv : MeshBelongs env (evecFile (slepianLoc j.name w.length (env.shannon j.name w.length)))
        (.rows (slice (env.solve j.name φ).2 (env.shannon j.name w.length))) :=
      ⟨_, _, _, _, _, he, Or.inr (Or.inr (Or.inr ⟨rfl, rfl⟩))⟩
    have hres : ∀ v, v = (env.solve j.name φ).2 ∨ v = slice (env.solve j.name φ).2 (env.shannon j.name w.length) →
        ∀ res, (Except.ok ⟨w, φ, env.number j, some ((env.solve j.name φ).1, v)⟩ : Except Err (MeshCache.Result Φ)) = .ok res →
          MeshCorrect env j res := by
      intro v hv res hr
      injection hr with hr
      subst hr
      exact ⟨ω, w, φ, he, rfl, rfl, number_eq env j, by simp [hs], fun _ => ⟨v, rfl, hv⟩⟩
    have herr : ∀ (e : Err) res, (Except.error e : Except Err (MeshCache.Result Φ)) = .ok res → MeshCorrect env j res :=
      fun e res h => by cases h
    unfold slepianProg
    refine ⟨?_, ?_⟩
    · intro e
      cases e <;> first | exact ⟨hbe, hbv, hres _ (Or.inl rfl)⟩ | exact herr _
    · intro f hf
      have hf := (belongs_slepian hlen hdet he).1 hf
      subst hf
      refine ⟨?_, ?_⟩
      · intro e
        cases e <;> first | exact ⟨hbe, hbv, hres _ (Or.inl rfl)⟩ | exact herr _
      · intro f hf
        have hf := (belongs_slepian hlen hdet he).2 hf
        subst hf
        exact hres _ (Or.inr rfl)
  · rename_i hs
    intro res hr
    injection hr with hr
    subst hr
    exact ⟨ω, w, φ, he, rfl, rfl, number_eq env j, fun _ => rfl, fun h => absurd h hs⟩

theorem construct_mesh_ok (j : MeshCache.Job Ω) :
    MeshCache.OkProg (MeshBelongs env) (fun r => ∀ res, r = .ok res → MeshCorrect env j res) (MeshCache.construct env j) := by
  have herr : ∀ (e : Err) res, (Except.error e : Except Err (MeshCache.Result Φ)) = .ok res → MeshCorrect env j res :=
    fun e res h => by cases h
  unfold MeshCache.construct
  dsimp only
  rw [number_eq]
  have hscr : MeshCache.OkProg (MeshBelongs env) (fun r => ∀ res, r = .ok res → MeshCorrect env j res)
      (match env.eigsh j.name (askedFor env j) j.ω with
      | .error e => .done (.error e)
      | .ok (w, φ) => .save (evalFile (basisLoc j.name (askedFor env j))) (.evals w) <|
        .save (evecFile (basisLoc j.name (askedFor env j))) (.basis φ) <| afterMesh env j w φ) := by
    split
    · exact herr _
    · rename_i w φ he
      exact ⟨⟨_, _, _, _, _, he, Or.inl ⟨rfl, rfl⟩⟩, ⟨_, _, _, _, _, he, Or.inr (Or.inl ⟨rfl, rfl⟩)⟩, afterMesh_ok hlen hdet j he⟩
  refine ⟨?_, ?_⟩
  · intro e
    cases e <;> first | exact hscr | exact herr _
  · intro f hf
    obtain ⟨ω, w, φ, he, rfl⟩ := belongs_basis_eval hlen hdet hf
    refine ⟨?_, ?_⟩
    · intro e
      cases e <;> first | exact hscr | exact herr _
    · intro f hf
      obtain ⟨ω', w', φ', he', rfl⟩ := belongs_basis_evec hlen hdet hf
      have : φ' = φ := by
        rw [hdet _ _ ω' ω, he] at he'
        injection he' with he'
        exact (Prod.ext_iff.1 he').2.symm
      subst this
      exact afterMesh_ok hlen hdet j he

/-- If `eigsh` gave the same answer in every run, then in every history of sessions running at once, killed at any point, with
any files deleted, every object that gets built is correct. -/
theorem C79_deterministic {del : String → Prop} {fs : MeshCache.FS Φ} (hreg : MeshCache.GoodFiles (MeshBelongs env) fs.registry)
    (huser : MeshCache.GoodFiles (MeshBelongs env) fs.user) {st : MeshCache.State Φ Ω}
    (r : Relation.ReflTransGen (MeshCache.Step env del) ⟨fs, []⟩ st) (j : MeshCache.Job Ω) (res : MeshCache.Result Φ)
    (h : (j, MeshCache.Proc.running (.done (.ok res))) ∈ st.procs) : MeshCorrect env j res := by
  have inv : MeshCache.Inv (MeshBelongs env) (fun j r => ∀ res, r = .ok res → MeshCorrect env j res) st :=
    MeshCache.Inv.reach (construct_mesh_ok hlen hdet) ⟨hreg, huser, fun x hx => by cases hx⟩ r
  exact inv.procs _ h res rfl

end

/-! ### one session after another -/

/-- published files come as whole bases, with or without their Slepian functions. -/
def Published (env : MeshCache.Env Φ Ω) (d : String → Option (MeshCache.File Φ)) : Prop :=
  ∀ (name : String) (k : ℤ),
    (d (evalFile (basisLoc name k)) = none ∧ d (evecFile (basisLoc name k)) = none ∧
      (0 ≤ k → d (evalFile (slepianLoc name k.toNat (env.shannon name k.toNat))) = none ∧
        d (evecFile (slepianLoc name k.toNat (env.shannon name k.toNat))) = none)) ∨
    ∃ ω w φ, env.eigsh name k ω = .ok (w, φ) ∧ d (evalFile (basisLoc name k)) = some (.evals w) ∧
      d (evecFile (basisLoc name k)) = some (.basis φ) ∧
      (∀ f, d (evalFile (slepianLoc name k.toNat (env.shannon name k.toNat))) = some f → f = .evals (env.solve name φ).1) ∧
      (∀ f, d (evecFile (slepianLoc name k.toNat (env.shannon name k.toNat))) = some f →
        f = .rows (slice (env.solve name φ).2 (env.shannon name k.toNat)))

/-- what is on disk for one mesh and number of basis functions between two operations. -/
def Together (env : MeshCache.Env Φ Ω) (fs : MeshCache.FS Φ) (name : String) (k : ℤ) : Prop :=
  (fs.registry (evalFile (basisLoc name k)) = none ∧ fs.get (evecFile (basisLoc name k)) = none ∧
    (∀ f, fs.get (evalFile (basisLoc name k)) = some f → ∃ ω w φ, env.eigsh name k ω = .ok (w, φ) ∧ f = .evals w) ∧
    (0 ≤ k → fs.get (evalFile (slepianLoc name k.toNat (env.shannon name k.toNat))) = none ∧
      fs.get (evecFile (slepianLoc name k.toNat (env.shannon name k.toNat))) = none)) ∨
  ∃ ω w φ, env.eigsh name k ω = .ok (w, φ) ∧ fs.get (evalFile (basisLoc name k)) = some (.evals w) ∧
    fs.get (evecFile (basisLoc name k)) = some (.basis φ) ∧
    (∀ f, fs.get (evalFile (slepianLoc name k.toNat (env.shannon name k.toNat))) = some f → f = .evals (env.solve name φ).1) ∧
    (∀ f, fs.get (evecFile (slepianLoc name k.toNat (env.shannon name k.toNat))) = some f →
      f = .rows (slice (env.solve name φ).2 (env.shannon name k.toNat)))

open Classical in
theorem get_write (fs : MeshCache.FS Φ) (n m : String) (f : Option (MeshCache.File Φ)) :
    (fs.write n f).get m = if m = n ∧ fs.registry n = none then f else fs.get m := by
  unfold MeshCache.FS.get MeshCache.FS.write
  dsimp only
  by_cases h : m = n
  · subst h
    cases hr : fs.registry m <;> simp
  · simp [h]

theorem get_write_ne {fs : MeshCache.FS Φ} {n m : String} {f : Option (MeshCache.File Φ)} (h : m ≠ n) : (fs.write n f).get m = fs.get m := by
  rw [get_write, if_neg (fun h' => h h'.1)]

theorem get_write_self {fs : MeshCache.FS Φ} {n : String} {f : Option (MeshCache.File Φ)} (h : fs.registry n = none) :
    (fs.write n f).get n = f := by
  rw [get_write, if_pos ⟨rfl, h⟩]

theorem registry_none {fs : MeshCache.FS Φ} {n : String} (h : fs.get n = none) : fs.registry n = none := by
  unfold MeshCache.FS.get at h
  split at h
  · cases h
  · assumption

/-- writing a file of another mesh, or of another number of basis functions, changes nothing for this one. -/
theorem Together.other {env : MeshCache.Env Φ Ω} {fs : MeshCache.FS Φ} {name : String} {k : ℤ} {n : String}
    {f : Option (MeshCache.File Φ)} (h : Together env fs name k) (h1 : evalFile (basisLoc name k) ≠ n) (h2 : evecFile (basisLoc name k) ≠ n)
    (h3 : 0 ≤ k → evalFile (slepianLoc name k.toNat (env.shannon name k.toNat)) ≠ n)
    (h4 : 0 ≤ k → evecFile (slepianLoc name k.toNat (env.shannon name k.toNat)) ≠ n) (hlen : FullLength env) :
    Together env (fs.write n f) name k := by
  unfold Together
  rw [get_write_ne h1, get_write_ne h2]
  rcases h with ⟨a, b, c, d⟩ | ⟨ω, w, φ, he, a, b, c, d⟩
  · refine Or.inl ⟨a, b, c, fun hk => ?_⟩
    rw [get_write_ne (h3 hk), get_write_ne (h4 hk)]
    exact d hk
  · have hk : 0 ≤ k := by rw [← hlen _ _ _ _ _ he]; positivity
    rw [get_write_ne (h3 hk), get_write_ne (h4 hk)]
    exact Or.inr ⟨ω, w, φ, he, a, b, c, d⟩

theorem load_error {fs : MeshCache.FS Φ} {n : String} (h : fs.get n = none) : fs.load n = .error .typeError := by
  unfold MeshCache.FS.load; rw [h]

section
variable {env : MeshCache.Env Φ Ω} (hlen : FullLength env)
include hlen

/-- the Slepian part, when the basis on disk is the basis held. -/
theorem afterMesh_safe (j : MeshCache.Job Ω) {ω : Ω} {w : List ℝ} {φ : Φ} (he : env.eigsh j.name (askedFor env j) ω = .ok (w, φ))
    {fs : MeshCache.FS Φ} (hT : ∀ name k, Together env fs name k)
    (h1 : fs.get (evalFile (basisLoc j.name (askedFor env j))) = some (.evals w))
    (h2 : fs.get (evecFile (basisLoc j.name (askedFor env j))) = some (.basis φ))
    (h3 : ∀ f, fs.get (evalFile (slepianLoc j.name w.length (env.shannon j.name w.length))) = some f → f = .evals (env.solve j.name φ).1)
    (h4 : ∀ f, fs.get (evecFile (slepianLoc j.name w.length (env.shannon j.name w.length))) = some f →
      f = .rows (slice (env.solve j.name φ).2 (env.shannon j.name w.length))) :
    MeshCache.Safe (fun fs => ∀ name k, Together env fs name k) (fun r => ∃ res, r = .ok res ∧ MeshCorrect env j res)
      (afterMesh env j w φ) fs := by
  have hkw : (askedFor env j).toNat = w.length := by rw [← hlen _ _ _ _ _ he]; simp
  have hk0 : 0 ≤ askedFor env j := by rw [← hlen _ _ _ _ _ he]; positivity
  unfold afterMesh
  split
  · rename_i hs
    set se := evalFile (slepianLoc j.name w.length (env.shannon j.name w.length)) with hse
    set sv := evecFile (slepianLoc j.name w.length (env.shannon j.name w.length)) with hsv
    -- a write of the right content to one of the two files keeps everything
    have keep : ∀ (g : MeshCache.FS Φ) (n : String) (f : MeshCache.File Φ), (n = se ∧ f = .evals (env.solve j.name φ).1) ∨
        (n = sv ∧ f = .rows (slice (env.solve j.name φ).2 (env.shannon j.name w.length))) →
        (∀ name k, Together env g name k) ∧ g.get (evalFile (basisLoc j.name (askedFor env j))) = some (.evals w) ∧
          g.get (evecFile (basisLoc j.name (askedFor env j))) = some (.basis φ) ∧
          (∀ f, g.get se = some f → f = .evals (env.solve j.name φ).1) ∧
          (∀ f, g.get sv = some f → f = .rows (slice (env.solve j.name φ).2 (env.shannon j.name w.length))) →
        (∀ name k, Together env (g.write n (some f)) name k) ∧
          (g.write n (some f)).get (evalFile (basisLoc j.name (askedFor env j))) = some (.evals w) ∧
          (g.write n (some f)).get (evecFile (basisLoc j.name (askedFor env j))) = some (.basis φ) ∧
          (∀ f', (g.write n (some f)).get se = some f' → f' = .evals (env.solve j.name φ).1) ∧
          (∀ f', (g.write n (some f)).get sv = some f' → f' = .rows (slice (env.solve j.name φ).2 (env.shannon j.name w.length))) := by
      intro g n f hn ⟨gT, g1, g2, g3, g4⟩
      have hb1 : ∀ nm kk, evalFile (basisLoc nm kk) ≠ n := by
        intro nm kk
        rcases hn with ⟨rfl, -⟩ | ⟨rfl, -⟩
        · exact basis_ne_slepian _ _ _ _ _ _ _
        · exact eval_ne_evec _ _
      have hb2 : ∀ nm kk, evecFile (basisLoc nm kk) ≠ n := by
        intro nm kk
        rcases hn with ⟨rfl, -⟩ | ⟨rfl, -⟩
        · exact (eval_ne_evec _ _).symm
        · exact basis_ne_slepian _ _ _ _ _ _ _
      have q1 : (g.write n (some f)).get (evalFile (basisLoc j.name (askedFor env j))) = some (.evals w) := by
        rw [get_write_ne (hb1 _ _), g1]
      have q2 : (g.write n (some f)).get (evecFile (basisLoc j.name (askedFor env j))) = some (.basis φ) := by
        rw [get_write_ne (hb2 _ _), g2]
      have q3 : ∀ f', (g.write n (some f)).get se = some f' → f' = .evals (env.solve j.name φ).1 := by
        intro f' hf'
        rw [get_write] at hf'
        split at hf'
        · rename_i hc
          injection hf' with hf'
          rcases hn with ⟨-, hf⟩ | ⟨hn, -⟩
          · rw [← hf', hf]
          · exact absurd (hc.1.trans hn) (eval_ne_evec _ _)
        · exact g3 f' hf'
      have q4 : ∀ f', (g.write n (some f)).get sv = some f' →
          f' = .rows (slice (env.solve j.name φ).2 (env.shannon j.name w.length)) := by
        intro f' hf'
        rw [get_write] at hf'
        split at hf'
        · rename_i hc
          injection hf' with hf'
          rcases hn with ⟨hn, -⟩ | ⟨-, hf⟩
          · exact absurd (hc.1.trans hn).symm (eval_ne_evec _ _)
          · rw [← hf', hf]
        · exact g4 f' hf'
      refine ⟨fun nm kk => ?_, q1, q2, q3, q4⟩
      by_cases hsame : nm = j.name ∧ kk = askedFor env j
      · obtain ⟨rfl, rfl⟩ := hsame
        refine Or.inr ⟨ω, w, φ, he, q1, q2, ?_, ?_⟩
        · rw [hkw]; exact q3
        · rw [hkw]; exact q4
      · refine (gT nm kk).other (hb1 _ _) (hb2 _ _) ?_ ?_ hlen
        · intro hkk heq
          rcases hn with ⟨rfl, -⟩ | ⟨rfl, -⟩
          · obtain ⟨r1, r2, -⟩ := slepianLoc_inj (suffix_inj heq)
            exact hsame ⟨r1, by have := hlen _ _ _ _ _ he; omega⟩
          · exact eval_ne_evec _ _ heq
        · intro hkk heq
          rcases hn with ⟨rfl, -⟩ | ⟨rfl, -⟩
          · exact eval_ne_evec _ _ heq.symm
          · obtain ⟨r1, r2, -⟩ := slepianLoc_inj (suffix_inj' heq)
            exact hsame ⟨r1, by have := hlen _ _ _ _ _ he; omega⟩
    have hcorrect : ∀ v, v = (env.solve j.name φ).2 ∨ v = slice (env.solve j.name φ).2 (env.shannon j.name w.length) →
        MeshCorrect env j ⟨w, φ, env.number j, some ((env.solve j.name φ).1, v)⟩ := fun v hv =>
      ⟨ω, w, φ, he, rfl, rfl, number_eq env j, by simp [hs], fun _ => ⟨v, rfl, hv⟩⟩
    have hscr : MeshCache.Safe (fun fs => ∀ name k, Together env fs name k) (fun r => ∃ res, r = .ok res ∧ MeshCorrect env j res)
        (.save se (.evals (env.solve j.name φ).1) <| .save sv (.rows (slice (env.solve j.name φ).2 (env.shannon j.name w.length))) <|
          .done (.ok ⟨w, φ, env.number j, some ((env.solve j.name φ).1, (env.solve j.name φ).2)⟩)) fs := by
      have k1 := keep fs se _ (Or.inl ⟨rfl, rfl⟩) ⟨hT, h1, h2, h3, h4⟩
      have k2 := keep _ sv _ (Or.inr ⟨rfl, rfl⟩) k1
      exact ⟨hT, k1.1, k2.1, _, rfl, hcorrect _ (Or.inl rfl)⟩
    unfold slepianProg
    dsimp only
    refine ⟨hT, ?_⟩
    rcases hg : fs.get se with _ | f
    · rw [load_error hg]
      exact hscr
    · have hf := h3 f hg
      subst hf
      rw [show fs.load se = .ok (.evals (env.solve j.name φ).1) by unfold MeshCache.FS.load; rw [hg]]
      dsimp only
      refine ⟨hT, ?_⟩
      rcases hg' : fs.get sv with _ | f
      · rw [load_error hg']
        exact hscr
      · have hf := h4 f hg'
        subst hf
        rw [show fs.load sv = .ok (.rows _) by unfold MeshCache.FS.load; rw [hg']]
        exact ⟨hT, _, rfl, hcorrect _ (Or.inr rfl)⟩
  · rename_i hs
    exact ⟨hT, _, rfl, ω, w, φ, he, rfl, rfl, number_eq env j, fun _ => rfl, fun h => absurd h hs⟩

theorem construct_mesh_safe (j : MeshCache.Job Ω) {fs : MeshCache.FS Φ} (hT : ∀ name k, Together env fs name k) :
    MeshCache.Safe (fun fs => ∀ name k, Together env fs name k)
      (fun r => (∃ res, r = .ok res ∧ MeshCorrect env j res) ∨ ∃ e, r = .error e ∧ env.eigsh j.name (askedFor env j) j.ω = .error e)
      (MeshCache.construct env j) fs := by
  have weaken : ∀ {I : MeshCache.FS Φ → Prop} {Q Q' : Except Err (MeshCache.Result Φ) → Prop} (_ : ∀ r, Q r → Q' r) (p : MeshCache.Prog Φ)
      (g : MeshCache.FS Φ), MeshCache.Safe I Q p g → MeshCache.Safe I Q' p g := by
    intro I Q Q' h p
    induction p with
    | done r => exact fun g hg => ⟨hg.1, h _ hg.2⟩
    | load n k ih => exact fun g hg => ⟨hg.1, ih _ _ hg.2⟩
    | save n f p ih => exact fun g hg => ⟨hg.1, ih _ hg.2⟩
  unfold MeshCache.construct
  dsimp only
  rw [number_eq]
  set be := evalFile (basisLoc j.name (askedFor env j)) with hbe
  set bv := evecFile (basisLoc j.name (askedFor env j)) with hbv
  rcases hT j.name (askedFor env j) with ⟨a, b, c, d⟩ | ⟨ω, w, φ, he, a, b, c, d⟩
  · have hscr : MeshCache.Safe (fun fs => ∀ name k, Together env fs name k)
        (fun r => (∃ res, r = .ok res ∧ MeshCorrect env j res) ∨ ∃ e, r = .error e ∧ env.eigsh j.name (askedFor env j) j.ω = .error e)
        (match env.eigsh j.name (askedFor env j) j.ω with
        | .error e => .done (.error e)
        | .ok (w, φ) => .save be (.evals w) <| .save bv (.basis φ) <| afterMesh env j w φ) fs := by
      split
      · rename_i e he
        exact ⟨hT, Or.inr ⟨e, rfl, he⟩⟩
      · rename_i w φ he
        have hk0 : 0 ≤ askedFor env j := by rw [← hlen _ _ _ _ _ he]; positivity
        have hkw : (askedFor env j).toNat = w.length := by rw [← hlen _ _ _ _ _ he]; simp
        obtain ⟨d1, d2⟩ := d hk0
        have hrv := registry_none b
        have hne : bv ≠ be := (eval_ne_evec _ _).symm
        have hs1 : ∀ nm K N, evalFile (slepianLoc nm K N) ≠ be := fun nm K N h => basis_ne_slepian _ _ _ _ _ _ _ h.symm
        have hs2 : ∀ nm K N, evecFile (slepianLoc nm K N) ≠ be := fun nm K N h => eval_ne_evec _ _ h.symm
        have hs3 : ∀ nm K N, evalFile (slepianLoc nm K N) ≠ bv := fun nm K N h => eval_ne_evec _ _ h
        have hs4 : ∀ nm K N, evecFile (slepianLoc nm K N) ≠ bv := fun nm K N h => basis_ne_slepian _ _ _ _ _ _ _ h.symm
        have other : ∀ (g : MeshCache.FS Φ) (n : String) (f : Option (MeshCache.File Φ)), n = be ∨ n = bv → ∀ nm kk,
            ¬ (nm = j.name ∧ kk = askedFor env j) → Together env g nm kk → Together env (g.write n f) nm kk := by
          intro g n f hn nm kk hsame h
          refine h.other ?_ ?_ ?_ ?_ hlen
          · rintro rfl
            rcases hn with hn | hn
            · exact hsame (basisLoc_inj (suffix_inj hn))
            · exact eval_ne_evec _ _ hn
          · rintro rfl
            rcases hn with hn | hn
            · exact eval_ne_evec _ _ hn.symm
            · exact hsame (basisLoc_inj (suffix_inj' hn))
          · rintro - rfl
            rcases hn with hn | hn
            · exact hs1 _ _ _ hn
            · exact hs3 _ _ _ hn
          · rintro - rfl
            rcases hn with hn | hn
            · exact hs2 _ _ _ hn
            · exact hs4 _ _ _ hn
        -- after the first save
        have p1 : (fs.write be (some (.evals w))).get be = some (.evals w) := get_write_self a
        have T1 : ∀ name k, Together env (fs.write be (some (.evals w))) name k := by
          intro nm kk
          by_cases hsame : nm = j.name ∧ kk = askedFor env j
          · obtain ⟨rfl, rfl⟩ := hsame
            refine Or.inl ⟨a, by rw [get_write_ne hne]; exact b, ?_, ?_⟩
            · intro f hf
              rw [p1] at hf
              injection hf with hf
              exact ⟨_, w, φ, he, hf.symm⟩
            · intro _
              rw [get_write_ne (hs1 _ _ _), get_write_ne (hs2 _ _ _)]
              exact ⟨d1, d2⟩
          · exact other _ _ _ (Or.inl rfl) nm kk hsame (hT nm kk)
        -- after the second save
        have p2 : ((fs.write be (some (.evals w))).write bv (some (.basis φ))).get be = some (.evals w) := by
          rw [get_write_ne hne.symm, p1]
        have p3 : ((fs.write be (some (.evals w))).write bv (some (.basis φ))).get bv = some (.basis φ) := get_write_self hrv
        have p4 : ((fs.write be (some (.evals w))).write bv (some (.basis φ))).get
            (evalFile (slepianLoc j.name (askedFor env j).toNat (env.shannon j.name (askedFor env j).toNat))) = none := by
          rw [get_write_ne (hs3 _ _ _), get_write_ne (hs1 _ _ _), d1]
        have p5 : ((fs.write be (some (.evals w))).write bv (some (.basis φ))).get
            (evecFile (slepianLoc j.name (askedFor env j).toNat (env.shannon j.name (askedFor env j).toNat))) = none := by
          rw [get_write_ne (hs4 _ _ _), get_write_ne (hs2 _ _ _), d2]
        have T2 : ∀ name k, Together env ((fs.write be (some (.evals w))).write bv (some (.basis φ))) name k := by
          intro nm kk
          by_cases hsame : nm = j.name ∧ kk = askedFor env j
          · obtain ⟨rfl, rfl⟩ := hsame
            exact Or.inr ⟨_, w, φ, he, p2, p3, by rw [p4]; simp, by rw [p5]; simp⟩
          · exact other _ _ _ (Or.inr rfl) nm kk hsame (T1 nm kk)
        refine ⟨hT, T1, weaken (fun r h => Or.inl h) _ _ (afterMesh_safe hlen j he T2 p2 p3 ?_ ?_)⟩
        · rw [← hkw, p4]; simp
        · rw [← hkw, p5]; simp
    refine ⟨hT, ?_⟩
    rcases hg : fs.get be with _ | f
    · rw [load_error hg]
      exact hscr
    · obtain ⟨ω, w, φ, he, rfl⟩ := c f hg
      rw [show fs.load be = .ok (.evals w) by unfold MeshCache.FS.load; rw [hg]]
      dsimp only
      refine ⟨hT, ?_⟩
      rw [load_error b]
      exact hscr
  · have hkw : (askedFor env j).toNat = w.length := by rw [← hlen _ _ _ _ _ he]; simp
    refine ⟨hT, ?_⟩
    rw [show fs.load be = .ok (.evals w) by unfold MeshCache.FS.load; rw [a]]
    dsimp only
    refine ⟨hT, ?_⟩
    rw [show fs.load bv = .ok (.basis φ) by unfold MeshCache.FS.load; rw [b]]
    dsimp only
    refine weaken (fun r h => Or.inl h) _ _ (afterMesh_safe hlen j he hT a b ?_ ?_)
    · rw [← hkw]; exact c
    · rw [← hkw]; exact d

/-- Whatever `eigsh` returns: with sessions run one after another, each to its end or stopped between two file operations, and no
file deleted, every session ends with a basis and the Slepian functions of that basis, or with the error of `eigsh`. -/
theorem C79_sequential_partial {fs fs' : MeshCache.FS Φ} (hreg : Published env fs.registry) (huser : ∀ n, fs.user n = none)
    (h : Relation.ReflTransGen (fun a b => ∃ (j : MeshCache.Job Ω) (s : ℕ), b = runFor a (MeshCache.construct env j) s) fs fs')
    (j : MeshCache.Job Ω) :
    (∃ res, (runAlone fs' (MeshCache.construct env j)).1 = .ok res ∧ MeshCorrect env j res) ∨
    ∃ e, (runAlone fs' (MeshCache.construct env j)).1 = .error e ∧ env.eigsh j.name (askedFor env j) j.ω = .error e := by
  have h0 : ∀ name k, Together env fs name k := by
    have hget : ∀ n, fs.get n = fs.registry n := by
      intro n
      unfold MeshCache.FS.get
      split
      · rename_i f hf; exact hf.symm
      · rename_i hf; rw [huser, hf]
    intro name k
    unfold Together
    simp only [hget]
    rcases hreg name k with ⟨a, b, c⟩ | h
    · exact Or.inl ⟨a, b, by rw [a]; simp, c⟩
    · exact Or.inr h
  have hT : ∀ name k, Together env fs' name k := by
    induction h with
    | refl => exact h0
    | tail _ st ih =>
      obtain ⟨j, s, rfl⟩ := st
      exact (construct_mesh_safe hlen j ih).runFor s
  exact (construct_mesh_safe hlen j hT).runAlone.1

end

/-! ### what goes wrong otherwise -/

/-- nothing published, nothing saved. -/
def noFiles : MeshCache.FS Φ := ⟨fun _ => none, fun _ => none⟩

theorem write_write (fs : MeshCache.FS Φ) (n : String) (f g : Option (MeshCache.File Φ)) : (fs.write n f).write n g = fs.write n g := by
  unfold MeshCache.FS.write
  congr 1
  funext m
  by_cases h : m = n <;> simp [h]

/-- a save from beginning to end. -/
theorem step_save {env : MeshCache.Env Φ Ω} {del : String → Prop} {fs : MeshCache.FS Φ} {ps : List (MeshCache.Job Ω × MeshCache.Proc Φ)}
    {i : ℕ} {j : MeshCache.Job Ω} {n : String} {f : MeshCache.File Φ} {p : MeshCache.Prog Φ}
    (h : ps[i]? = some (j, .running (.save n f p))) :
    Relation.ReflTransGen (MeshCache.Step env del) ⟨fs, ps⟩ ⟨fs.write n (some f), ps.set i (j, .running p)⟩ := by
  have hi : i < ps.length := (List.getElem?_eq_some_iff.1 h).1
  have s1 := MeshCache.Step.beginSave (env := env) (deletable := del) fs ps i j n f p .eofError h
  have s2 := MeshCache.Step.endSave (env := env) (deletable := del) (fs.write n (some (.torn .eofError))) (ps.set i (j, .saving n f p))
    i j n f p (by simp [hi])
  rw [write_write, List.set_set] at s2
  exact (Relation.ReflTransGen.single s1).tail s2

/-- the files after one session that found nothing. -/
noncomputable def afterBoth (env : MeshCache.Env Φ Ω) (name : String) (k : ℤ) (w w' : List ℝ) (φ φ' : Φ) : MeshCache.FS Φ :=
  ((((noFiles.write (evalFile (basisLoc name k)) (some (.evals w))).write (evecFile (basisLoc name k)) (some (.basis φ))).write
    (evalFile (slepianLoc name w'.length (env.shannon name w'.length))) (some (.evals (env.solve name φ').1))).write
    (evecFile (slepianLoc name w'.length (env.shannon name w'.length)))
    (some (.rows (slice (env.solve name φ').2 (env.shannon name w'.length)))))

theorem afterBoth_get (env : MeshCache.Env Φ Ω) (name : String) (k : ℤ) (w w' : List ℝ) (φ φ' : Φ) :
    (afterBoth env name k w w' φ φ').get (evalFile (basisLoc name k)) = some (.evals w) ∧
    (afterBoth env name k w w' φ φ').get (evecFile (basisLoc name k)) = some (.basis φ) ∧
    (afterBoth env name k w w' φ φ').get (evalFile (slepianLoc name w'.length (env.shannon name w'.length))) =
      some (.evals (env.solve name φ').1) ∧
    (afterBoth env name k w w' φ φ').get (evecFile (slepianLoc name w'.length (env.shannon name w'.length))) =
      some (.rows (slice (env.solve name φ').2 (env.shannon name w'.length))) := by
  have n1 : evalFile (basisLoc name k) ≠ evecFile (basisLoc name k) := eval_ne_evec _ _
  have n2 : ∀ K N, evalFile (basisLoc name k) ≠ evalFile (slepianLoc name K N) := fun K N => basis_ne_slepian _ _ _ _ _ _ _
  have n3 : ∀ K N, evalFile (basisLoc name k) ≠ evecFile (slepianLoc name K N) := fun K N => eval_ne_evec _ _
  have n4 : ∀ K N, evecFile (basisLoc name k) ≠ evalFile (slepianLoc name K N) := fun K N => (eval_ne_evec _ _).symm
  have n5 : ∀ K N, evecFile (basisLoc name k) ≠ evecFile (slepianLoc name K N) := fun K N => basis_ne_slepian _ _ _ _ _ _ _
  have n6 : ∀ K N, evalFile (slepianLoc name K N) ≠ evecFile (slepianLoc name K N) := fun K N => eval_ne_evec _ _
  unfold afterBoth
  refine ⟨?_, ?_, ?_, ?_⟩
  · rw [get_write_ne (n3 _ _), get_write_ne (n2 _ _), get_write_ne n1, get_write_self rfl]
  · rw [get_write_ne (n5 _ _), get_write_ne (n4 _ _), get_write_self rfl]
  · rw [get_write_ne (n6 _ _), get_write_self rfl]
  · rw [get_write_self rfl]

/-- a session that finds all four files. -/
theorem run_of_files {env : MeshCache.Env Φ Ω} {fs : MeshCache.FS Φ} {name : String} {k : ℤ} {w u : List ℝ} {φ : Φ} {v : List (List ℝ)}
    (ω : Ω) (h1 : fs.get (evalFile (basisLoc name k)) = some (.evals w)) (h2 : fs.get (evecFile (basisLoc name k)) = some (.basis φ))
    (h3 : fs.get (evalFile (slepianLoc name w.length (env.shannon name w.length))) = some (.evals u))
    (h4 : fs.get (evecFile (slepianLoc name w.length (env.shannon name w.length))) = some (.rows v)) :
    (runAlone fs (MeshCache.construct env ⟨name, some k, true, ω⟩)).1 = .ok ⟨w, φ, k, some (u, v)⟩ := by
  have l : ∀ {n f}, fs.get n = some f → (∀ e, f ≠ .torn e) → fs.load n = .ok f := by
    intro n f h hne
    unfold MeshCache.FS.load
    rw [h]
    cases f with
    | torn e => exact absurd rfl (hne e)
    | _ => rfl
  simp [MeshCache.construct, MeshCache.Env.number, runAlone, afterMesh, slepianProg, l h1 (by simp), l h2 (by simp), l h3 (by simp),
    l h4 (by simp)]

/-- Two sessions of the same mesh at once, both finding no files.  One of them also asks for the Slepian functions.  Afterwards
every session loads the basis of the one and the Slepian functions of the other. -/
theorem C79_race_violation (env : MeshCache.Env Φ Ω) (name : String) (k : ℤ) {ω₁ ω₂ : Ω} {w₁ w₂ : List ℝ} {φ₁ φ₂ : Φ}
    (h₁ : env.eigsh name k ω₁ = .ok (w₁, φ₁)) (h₂ : env.eigsh name k ω₂ = .ok (w₂, φ₂)) (hlen : w₁.length = w₂.length) :
    ∃ fs, Relation.ReflTransGen (MeshCache.Step env fun _ => False) ⟨noFiles, []⟩ ⟨fs, []⟩ ∧
      ∀ ω, (runAlone fs (MeshCache.construct env ⟨name, some k, true, ω⟩)).1 =
        .ok ⟨w₂, φ₂, k, some ((env.solve name φ₁).1, slice (env.solve name φ₁).2 (env.shannon name w₂.length))⟩ := by
  refine ⟨afterBoth env name k w₂ w₁ φ₂ φ₁, ?_, fun ω => ?_⟩
  · set j₁ : MeshCache.Job Ω := ⟨name, some k, true, ω₁⟩ with hj₁
    set j₂ : MeshCache.Job Ω := ⟨name, some k, false, ω₂⟩ with hj₂
    set be := evalFile (basisLoc name k) with hbe
    set bv := evecFile (basisLoc name k) with hbv
    set se := evalFile (slepianLoc name w₁.length (env.shannon name w₁.length)) with hse
    set sv := evecFile (slepianLoc name w₁.length (env.shannon name w₁.length)) with hsv
    have n1 : be ≠ bv := eval_ne_evec _ _
    have n2 : be ≠ se := basis_ne_slepian _ _ _ _ _ _ _
    have n4 : bv ≠ se := (eval_ne_evec _ _).symm
    -- the programs
    have c₁ : ∃ kk, MeshCache.construct env j₁ = .load be kk ∧
        kk (.error .typeError) = .save be (.evals w₁) (.save bv (.basis φ₁) (slepianProg env name k w₁ φ₁)) := by
      refine ⟨_, rfl, ?_⟩
      simp [hj₁, MeshCache.Env.number, h₁, afterMesh, hbe, hbv]
    have c₂ : ∃ kk, MeshCache.construct env j₂ = .load be kk ∧
        kk (.error .typeError) = .save be (.evals w₂) (.save bv (.basis φ₂) (.done (.ok ⟨w₂, φ₂, k, none⟩))) := by
      refine ⟨_, rfl, ?_⟩
      simp [hj₂, MeshCache.Env.number, h₂, afterMesh, hbe, hbv]
    have c₃ : ∃ kk, slepianProg env name k w₁ φ₁ = .load se kk ∧
        kk (.error .typeError) = .save se (.evals (env.solve name φ₁).1)
          (.save sv (.rows (slice (env.solve name φ₁).2 (env.shannon name w₁.length)))
            (.done (.ok ⟨w₁, φ₁, k, some ((env.solve name φ₁).1, (env.solve name φ₁).2)⟩))) := by
      exact ⟨_, rfl, rfl⟩
    obtain ⟨k₁, e₁, f₁⟩ := c₁
    obtain ⟨k₂, e₂, f₂⟩ := c₂
    obtain ⟨k₃, e₃, f₃⟩ := c₃
    have r1 : Relation.ReflTransGen (MeshCache.Step env fun _ => False) ⟨noFiles, []⟩
        ⟨noFiles, [(j₁, .running (.load be k₁)), (j₂, .running (.load be k₂))]⟩ := by
      have s1 := MeshCache.Step.spawn (env := env) (deletable := fun _ => False) noFiles [] j₁
      have s2 := MeshCache.Step.spawn (env := env) (deletable := fun _ => False) noFiles [(j₁, .running (.load be k₁))] j₂
      rw [e₁] at s1
      rw [e₂] at s2
      exact (Relation.ReflTransGen.single s1).tail s2
    have hl : (noFiles : MeshCache.FS Φ).load be = .error .typeError := rfl
    have r2 := r1.tail (MeshCache.Step.load _ _ 0 j₁ be k₁ rfl)
    have r3 := r2.tail (MeshCache.Step.load _ _ 1 j₂ be k₂ rfl)
    rw [hl, f₁, f₂] at r3
    have r4 := r3.trans (step_save (i := 0) rfl)
    have r5 := r4.trans (step_save (i := 0) rfl)
    have r6 := r5.trans (step_save (i := 1) rfl)
    have r7 := r6.trans (step_save (i := 1) rfl)
    simp only [List.set] at r7
    rw [e₃] at r7
    have r8 := r7.tail (MeshCache.Step.load _ _ 0 j₁ se k₃ rfl)
    rw [load_error (by rw [get_write_ne n4.symm, get_write_ne n2.symm, get_write_ne n4.symm, get_write_ne n2.symm]; rfl), f₃] at r8
    have r9 := r8.trans (step_save (i := 0) rfl)
    have r10 := r9.trans (step_save (i := 0) rfl)
    have r11 := r10.tail (MeshCache.Step.kill _ _ 0 _ _ rfl)
    have r12 := r11.tail (MeshCache.Step.kill _ _ 0 _ _ rfl)
    have hfs : ∀ (g : MeshCache.FS Φ), ((((g.write be (some (.evals w₁))).write bv (some (.basis φ₁))).write be (some (.evals w₂))).write bv
        (some (.basis φ₂))) = (g.write be (some (.evals w₂))).write bv (some (.basis φ₂)) := by
      intro g
      unfold MeshCache.FS.write
      congr 1
      funext m
      by_cases hb : m = bv
      · simp [hb]
      · by_cases hb' : m = be <;> simp [hb, hb']
    rw [hfs] at r12
    exact r12
  · obtain ⟨g1, g2, g3, g4⟩ := afterBoth_get env name k w₂ w₁ φ₂ φ₁
    rw [hlen] at g3 g4
    exact run_of_files ω g1 g2 g3 g4

/-- Deleting the file of basis functions, to have them computed anew, leaves the Slepian functions of the old basis in use. -/
theorem C79_deletion_violation (env : MeshCache.Env Φ Ω) (name : String) (k : ℤ) {ω₁ ω₂ : Ω} {w₁ w₂ : List ℝ} {φ₁ φ₂ : Φ}
    (h₁ : env.eigsh name k ω₁ = .ok (w₁, φ₁)) (h₂ : env.eigsh name k ω₂ = .ok (w₂, φ₂)) (hlen : w₁.length = w₂.length) :
    (runAlone ((runAlone noFiles (MeshCache.construct env ⟨name, some k, true, ω₁⟩)).2.write (evecFile (basisLoc name k)) none)
      (MeshCache.construct env ⟨name, some k, true, ω₂⟩)).1 =
        .ok ⟨w₂, φ₂, k, some ((env.solve name φ₁).1, slice (env.solve name φ₁).2 (env.shannon name w₂.length))⟩ := by
  have n1 : evalFile (basisLoc name k) ≠ evecFile (basisLoc name k) := eval_ne_evec _ _
  have n2 : ∀ K N, evalFile (slepianLoc name K N) ≠ evalFile (basisLoc name k) := fun K N h => basis_ne_slepian _ _ _ _ _ _ _ h.symm
  have n3 : ∀ K N, evecFile (slepianLoc name K N) ≠ evalFile (basisLoc name k) := fun K N => (eval_ne_evec _ _).symm
  have n4 : ∀ K N, evalFile (slepianLoc name K N) ≠ evecFile (basisLoc name k) := fun K N => (eval_ne_evec _ _)
  have n5 : ∀ K N, evecFile (slepianLoc name K N) ≠ evecFile (basisLoc name k) := fun K N h => basis_ne_slepian _ _ _ _ _ _ _ h.symm
  have first : (runAlone noFiles (MeshCache.construct env ⟨name, some k, true, ω₁⟩)).2 = afterBoth env name k w₁ w₁ φ₁ φ₁ := by
    have l0 : (noFiles : MeshCache.FS Φ).load (evalFile (basisLoc name k)) = .error .typeError := rfl
    have l1 : ((noFiles.write (evalFile (basisLoc name k)) (some (.evals w₁))).write (evecFile (basisLoc name k))
        (some (.basis φ₁))).load (evalFile (slepianLoc name w₁.length (env.shannon name w₁.length))) = .error .typeError :=
      load_error (by rw [get_write_ne (n4 _ _), get_write_ne (n2 _ _)]; rfl)
    simp [MeshCache.construct, MeshCache.Env.number, runAlone, afterMesh, slepianProg, l0, h₁, l1, afterBoth]
  rw [first]
  obtain ⟨g1, g2, g3, g4⟩ := afterBoth_get env name k w₁ w₁ φ₁ φ₁
  rw [hlen] at g3 g4
  set fs := (afterBoth env name k w₁ w₁ φ₁ φ₁).write (evecFile (basisLoc name k)) none with hfs
  have q1 : fs.load (evalFile (basisLoc name k)) = .ok (.evals w₁) := by
    unfold MeshCache.FS.load
    rw [hfs, get_write_ne n1, g1]
  have q2 : fs.load (evecFile (basisLoc name k)) = .error .typeError := load_error (get_write_self rfl)
  set fs' := (fs.write (evalFile (basisLoc name k)) (some (.evals w₂))).write (evecFile (basisLoc name k)) (some (.basis φ₂)) with hfs'
  have q3 : fs'.load (evalFile (slepianLoc name w₂.length (env.shannon name w₂.length))) = .ok (.evals (env.solve name φ₁).1) := by
    unfold MeshCache.FS.load
    rw [hfs', get_write_ne (n4 _ _), get_write_ne (n2 _ _), hfs, get_write_ne (n4 _ _), g3]
  have q4 : fs'.load (evecFile (slepianLoc name w₂.length (env.shannon name w₂.length))) =
      .ok (.rows (slice (env.solve name φ₁).2 (env.shannon name w₂.length))) := by
    unfold MeshCache.FS.load
    rw [hfs', get_write_ne (n5 _ _), get_write_ne (n3 _ _), hfs, get_write_ne (n5 _ _), g4]
  simp [MeshCache.construct, MeshCache.Env.number, runAlone, afterMesh, slepianProg, q1, q2, h₂, ← hfs', q3, q4]

/-! ### two vertices joined by an edge -/

/-- The Laplacian of two joined vertices has the eigenvalues `0` and `2`; `eigsh` may return either sign of the second eigenvector.
The region is the first vertex, so the region matrix is `D p q = φ p 0 * φ q 0`. -/
noncomputable def pairMesh : MeshCache.Env (Fin 2 → Fin 2 → ℝ) Bool where
  vertices _ := 2
  eigsh _ k ω := if k = 2 then .ok ([0, 2], ![![√2 / 2, √2 / 2], if ω then ![√2 / 2, -(√2 / 2)] else ![-(√2 / 2), √2 / 2]])
    else .error .valueError
  shannon _ _ := 1
  solve _ φ := ([1, 0], [[φ 0 0, φ 1 0], [-φ 1 0, φ 0 0]])

theorem half_sq : (√2 / 2) * (√2 / 2) = (1 / 2 : ℝ) := by
  have := Real.mul_self_sqrt (show (0 : ℝ) ≤ 2 by norm_num)
  nlinarith

theorem pairMesh_full : FullLength pairMesh := by
  intro n k ω w φ h
  unfold pairMesh at h
  dsimp only at h
  split at h
  · rename_i hk
    injection h with h
    have h1 : [0, 2] = w := (Prod.ext_iff.1 h).1
    rw [← h1, hk]
    rfl
  · cases h

/-- In the example: both outcomes of `eigsh` are orthonormal bases of eigenvectors, `solve` solves the region matrix of each, and the
best concentrated Slepian function of a correct object is `1` at the vertex of the region.  After the race the object claims a function of
concentration `1` that vanishes on the region. -/
theorem C79_race_concentration :
    (∀ ω w φ, pairMesh.eigsh "pair" 2 ω = .ok (w, φ) → w = [0, 2] ∧
      (∀ p q : Fin 2, ∑ v, φ p v * φ q v = if p = q then 1 else 0) ∧
      (∀ p v : Fin 2, φ p v - φ p (1 - v) = ![0, 2] p * φ p v) ∧
      (∀ p : Fin 2, ∑ q, φ p 0 * φ q 0 * ![φ 0 0, φ 1 0] q = 1 * ![φ 0 0, φ 1 0] p) ∧
      (∀ p : Fin 2, ∑ q, φ p 0 * φ q 0 * ![-φ 1 0, φ 0 0] q = 0 * ![-φ 1 0, φ 0 0] p)) ∧
    (∀ ω res, MeshCorrect pairMesh ⟨"pair", some 2, true, ω⟩ res → ∃ u a b r, res.slepian = some (u, [a, b] :: r) ∧
      a * res.basis 0 0 + b * res.basis 1 0 = 1) ∧
    ∃ fs, Relation.ReflTransGen (MeshCache.Step pairMesh fun _ => False) ⟨noFiles, []⟩ ⟨fs, []⟩ ∧
      ∀ ω, ∃ res a b, (runAlone fs (MeshCache.construct pairMesh ⟨"pair", some 2, true, ω⟩)).1 = .ok res ∧
        res.slepian = some ([1, 0], [[a, b]]) ∧ a * res.basis 0 0 + b * res.basis 1 0 = 0 := by
  have hs := half_sq
  have hcases : ∀ k ω w φ, pairMesh.eigsh "pair" k ω = .ok (w, φ) → w = [0, 2] ∧ φ 0 0 = √2 / 2 ∧ φ 0 1 = √2 / 2 ∧
      ((φ 1 0 = √2 / 2 ∧ φ 1 1 = -(√2 / 2)) ∨ (φ 1 0 = -(√2 / 2) ∧ φ 1 1 = √2 / 2)) := by
    intro k ω w φ h
    unfold pairMesh at h
    dsimp only at h
    split at h
    · injection h with h
      obtain ⟨h1, h2⟩ := Prod.ext_iff.1 h
      dsimp only at h1 h2
      subst h1 h2
      cases ω <;> simp
    · cases h
  refine ⟨?_, ?_, ?_⟩
  · intro ω w φ h
    obtain ⟨hw, h00, h01, h1⟩ := hcases _ _ _ _ h
    refine ⟨hw, ?_, ?_, ?_, ?_⟩
    · intro p q
      fin_cases p <;> fin_cases q <;> rcases h1 with ⟨h10, h11⟩ | ⟨h10, h11⟩ <;>
        simp [Fin.sum_univ_two, h00, h01, h10, h11] <;> linarith
    · intro p v
      fin_cases p <;> fin_cases v <;> rcases h1 with ⟨h10, h11⟩ | ⟨h10, h11⟩ <;> simp [h00, h01, h10, h11] <;> ring
    · intro p
      fin_cases p <;> rcases h1 with ⟨h10, h11⟩ | ⟨h10, h11⟩ <;> simp [Fin.sum_univ_two, h00, h10, hs] <;> ring
    · intro p
      fin_cases p <;> rcases h1 with ⟨h10, h11⟩ | ⟨h10, h11⟩ <;> simp [Fin.sum_univ_two, h00, h10, hs]
  · rintro ω res ⟨ω', w, φ, he, -, hb, -, -, h⟩
    obtain ⟨v, hv, hv'⟩ := h rfl
    obtain ⟨-, h00, -, h1⟩ := hcases _ _ _ _ he
    have hval : φ 0 0 * φ 0 0 + φ 1 0 * φ 1 0 = 1 := by
      rcases h1 with ⟨h10, -⟩ | ⟨h10, -⟩ <;> rw [h00, h10] <;> linarith
    rcases hv' with rfl | rfl
    · exact ⟨_, _, _, _, hv, by rw [hb]; exact hval⟩
    · exact ⟨_, _, _, _, hv, by rw [hb]; exact hval⟩
  · have e₁ : pairMesh.eigsh "pair" 2 false = .ok ([0, 2], ![![√2 / 2, √2 / 2], ![-(√2 / 2), √2 / 2]]) := rfl
    have e₂ : pairMesh.eigsh "pair" 2 true = .ok ([0, 2], ![![√2 / 2, √2 / 2], ![√2 / 2, -(√2 / 2)]]) := rfl
    obtain ⟨fs, hr, hfs⟩ := C79_race_violation pairMesh "pair" 2 e₁ e₂ rfl
    refine ⟨fs, hr, fun ω => ⟨_, √2 / 2, -(√2 / 2), hfs ω, rfl, ?_⟩⟩
    show (√2 / 2) * (√2 / 2) + -(√2 / 2) * (√2 / 2) = 0
    ring

/-- the hypotheses of `C79_sequential_partial` hold for the pair with nothing published. -/
example (ω : Bool) : ∃ res, (runAlone noFiles (MeshCache.construct pairMesh ⟨"pair", some 2, true, ω⟩)).1 = .ok res ∧
    MeshCorrect pairMesh ⟨"pair", some 2, true, ω⟩ res := by
  have hp : Published pairMesh (noFiles : MeshCache.FS (Fin 2 → Fin 2 → ℝ)).registry := fun _ _ => Or.inl ⟨rfl, rfl, fun _ => ⟨rfl, rfl⟩⟩
  rcases C79_sequential_partial pairMesh_full hp (fun _ => rfl) Relation.ReflTransGen.refl ⟨"pair", some 2, true, ω⟩ with h | ⟨e, -, h⟩
  · exact h
  · cases h

/-- the hypotheses of `C79_deterministic` hold for the pair when `eigsh` always takes the same sign. -/
example : ∃ env : MeshCache.Env (Fin 2 → Fin 2 → ℝ) Bool, FullLength env ∧ (∀ n k ω ω', env.eigsh n k ω = env.eigsh n k ω') ∧
    (∃ w φ, env.eigsh "pair" 2 true = .ok (w, φ)) ∧
    MeshCache.GoodFiles (MeshBelongs env) (noFiles : MeshCache.FS (Fin 2 → Fin 2 → ℝ)).registry :=
  ⟨{ pairMesh with eigsh := fun n k _ => pairMesh.eigsh n k true }, fun n k _ w φ h => pairMesh_full n k true w φ h,
    fun _ _ _ _ => rfl, ⟨_, _, rfl⟩, fun n f h => by cases h⟩

end Sleplet.Props
