import Mathlib.Logic.Relation
import Verif.Lemmas.Cache
import Verif.Lemmas.Names
import Verif.Model.MeshCache

/-! Safety of the programs of the mesh constructors; names of the mesh files. -/
namespace Sleplet.MeshCache

open Cache (evalFile evecFile mem_set_cases mem_of_getElem?)

variable {Φ Ω : Type}

/-- every path of the program saves only files satisfying `E` and ends in `Q`, as long as complete files satisfy `E`. -/
def OkProg (E : String → File Φ → Prop) (Q : Except Err (Result Φ) → Prop) : Prog Φ → Prop
  | .done r => Q r
  | .load n k => (∀ e, OkProg E Q (k (.error e))) ∧ ∀ f, E n f → OkProg E Q (k (.ok f))
  | .save n f p => E n f ∧ OkProg E Q p

/-- complete files satisfy `E`. -/
def GoodFiles (E : String → File Φ → Prop) (d : String → Option (File Φ)) : Prop :=
  ∀ n f, d n = some f → E n f ∨ ∃ e, f = .torn e

def OkProc (E : String → File Φ → Prop) (Q : Except Err (Result Φ) → Prop) : Proc Φ → Prop
  | .running p => OkProg E Q p
  | .saving n f p => E n f ∧ OkProg E Q p

structure Inv (E : String → File Φ → Prop) (Q : Job Ω → Except Err (Result Φ) → Prop) (st : State Φ Ω) : Prop where
  reg : GoodFiles E st.fs.registry
  user : GoodFiles E st.fs.user
  procs : ∀ x ∈ st.procs, OkProc E (Q x.1) x.2

theorem load_cases {E : String → File Φ → Prop} {fs : FS Φ} (h1 : GoodFiles E fs.registry) (h2 : GoodFiles E fs.user) (n : String) :
    (∃ e, fs.load n = .error e) ∨ ∃ f, E n f ∧ fs.load n = .ok f := by
  unfold FS.load
  have hg : ∀ f, fs.get n = some f → E n f ∨ ∃ e, f = .torn e := by
    intro f hf
    unfold FS.get at hf
    split at hf
    · rename_i g hg
      injection hf with hf
      subst hf
      exact h1 n g hg
    · exact h2 n f hf
  split
  · exact Or.inl ⟨_, rfl⟩
  · exact Or.inl ⟨_, rfl⟩
  · rename_i f hne hf
    rcases hg f hf with h | ⟨e, rfl⟩
    · exact Or.inr ⟨f, h, rfl⟩
    · exact absurd rfl (hne e)

theorem GoodFiles.write {E : String → File Φ → Prop} {fs : FS Φ} (h : GoodFiles E fs.user) (n : String)
    (f : Option (File Φ)) (hf : ∀ g, f = some g → E n g ∨ ∃ e, g = .torn e) : GoodFiles E (fs.write n f).user := by
  intro m g hg
  unfold FS.write at hg
  simp only at hg
  split at hg
  · rename_i hm; subst hm; exact hf g hg
  · exact h m g hg

theorem Inv.step {env : Env Φ Ω} {del : String → Prop} {E : String → File Φ → Prop} {Q : Job Ω → Except Err (Result Φ) → Prop}
    (hs : ∀ j, OkProg E (Q j) (construct env j)) {a b : State Φ Ω} (h : Inv E Q a) (st : Step env del a b) : Inv E Q b := by
  cases st with
  | spawn fs ps j =>
    refine ⟨h.reg, h.user, ?_⟩
    intro x hx
    rcases List.mem_append.1 hx with hx | hx
    · exact h.procs x hx
    · rw [List.mem_singleton.1 hx]
      exact hs j
  | load fs ps i j n k hi =>
    refine ⟨h.reg, h.user, ?_⟩
    intro x hx
    rcases mem_set_cases hx with rfl | hx
    · have h1 : OkProg E (Q j) (.load n k) := h.procs _ (mem_of_getElem? hi)
      show OkProg E (Q j) (k _)
      rcases load_cases h.reg h.user n with ⟨e, he⟩ | ⟨f, hf, he⟩
      · have he : fs.load n = .error e := he
        rw [he]; exact h1.1 e
      · have he : fs.load n = .ok f := he
        rw [he]; exact h1.2 f hf
    · exact h.procs x hx
  | beginSave fs ps i j n f p e hi =>
    refine ⟨h.reg, h.user.write n _ (fun g hg => Or.inr ⟨e, (Option.some.inj hg).symm⟩), ?_⟩
    intro x hx
    rcases mem_set_cases hx with rfl | hx
    · have h1 : OkProc E (Q j) (.running (.save n f p)) := h.procs _ (mem_of_getElem? hi)
      exact h1
    · exact h.procs x hx
  | tear fs ps i j n f p e hi =>
    exact ⟨h.reg, h.user.write n _ (fun g hg => Or.inr ⟨e, (Option.some.inj hg).symm⟩), h.procs⟩
  | endSave fs ps i j n f p hi =>
    have h1 : E n f ∧ OkProg E (Q j) p := h.procs _ (mem_of_getElem? hi)
    refine ⟨h.reg, h.user.write n _ (fun g hg => Or.inl (Option.some.inj hg ▸ h1.1)), ?_⟩
    intro x hx
    rcases mem_set_cases hx with rfl | hx
    · exact h1.2
    · exact h.procs x hx
  | kill fs ps i j p hi =>
    exact ⟨h.reg, h.user, fun x hx => h.procs x ((List.eraseIdx_sublist ..).subset hx)⟩
  | delete fs ps n hn =>
    exact ⟨h.reg, h.user.write n _ (fun g hg => by cases hg), h.procs⟩

theorem Inv.reach {env : Env Φ Ω} {del : String → Prop} {E : String → File Φ → Prop} {Q : Job Ω → Except Err (Result Φ) → Prop}
    (hs : ∀ j, OkProg E (Q j) (construct env j)) {a b : State Φ Ω} (h : Inv E Q a)
    (r : Relation.ReflTransGen (Step env del) a b) : Inv E Q b := by
  induction r with
  | refl => exact h
  | tail _ st ih => exact ih.step hs st

/-! ### one program at a time -/

/-- running the program alone keeps `I` after every operation and ends in `Q`. -/
def Safe (I : FS Φ → Prop) (Q : Except Err (Result Φ) → Prop) : Prog Φ → FS Φ → Prop
  | .done r, fs => I fs ∧ Q r
  | .load n k, fs => I fs ∧ Safe I Q (k (fs.load n)) fs
  | .save n f p, fs => I fs ∧ Safe I Q p (fs.write n (some f))

theorem Safe.runFor {I : FS Φ → Prop} {Q : Except Err (Result Φ) → Prop} {p : Prog Φ} {fs : FS Φ} (h : Safe I Q p fs) (s : ℕ) :
    I (runFor fs p s) := by
  induction p generalizing fs s with
  | done r => cases s <;> exact h.1
  | load n k ih => cases s with
    | zero => exact h.1
    | succ s => exact ih _ h.2 s
  | save n f p ih => cases s with
    | zero => exact h.1
    | succ s => exact ih h.2 s

theorem Safe.runAlone {I : FS Φ → Prop} {Q : Except Err (Result Φ) → Prop} {p : Prog Φ} {fs : FS Φ} (h : Safe I Q p fs) :
    Q (runAlone fs p).1 ∧ I (runAlone fs p).2 := by
  induction p generalizing fs with
  | done r => exact ⟨h.2, h.1⟩
  | load n k ih => exact ih _ h.2
  | save n f p ih => exact ih h.2

/-! ### names -/

theorem basisLoc_eq (n : String) (k : ℤ) : basisLoc n k = "meshes_laplacians_basis_functions_" ++ n ++ "_b" ++ toString k := rfl

theorem slepianLoc_eq (n : String) (K : ℕ) (N : ℤ) : slepianLoc n K N =
    "meshes_laplacians_slepian_functions_" ++ n ++ "_b" ++ toString K ++ "_N" ++ toString N := rfl

theorem suffix_inj {a b : String} (h : evalFile a = evalFile b) : a = b := by
  have h := congrArg String.toList h
  simp only [evalFile, String.toList_append, List.append_cancel_right_eq] at h
  exact String.toList_injective h

theorem suffix_inj' {a b : String} (h : evecFile a = evecFile b) : a = b := by
  have h := congrArg String.toList h
  simp only [evecFile, String.toList_append, List.append_cancel_right_eq] at h
  exact String.toList_injective h

theorem eval_ne_evec (a b : String) : evalFile a ≠ evecFile b := by
  intro h
  have h := congrArg (fun s => s.toList.reverse) h
  simp [evalFile, evecFile, String.toList_append] at h

theorem basisLoc_inj {n n' : String} {k k' : ℤ} (h : basisLoc n k = basisLoc n' k') : n = n' ∧ k = k' := by
  have h := congrArg String.toList h
  have e : "_b".toList = ['_', 'b'] := by decide +kernel
  simp only [basisLoc_eq, String.toList_append, List.append_assoc, List.append_cancel_left_eq, e] at h
  have h' : (n.toList ++ ['_']) ++ 'b' :: (toString k).toList = (n'.toList ++ ['_']) ++ 'b' :: (toString k').toList := by simpa using h
  obtain ⟨h1, h2⟩ := Names.split_last (Names.not_mem_int (by decide) (by decide)) (Names.not_mem_int (by decide) (by decide)) h'
  exact ⟨String.toList_injective (List.append_cancel_right h1), Names.int_inj h2⟩

theorem slepianLoc_inj {n n' : String} {K K' : ℕ} {N N' : ℤ} (h : slepianLoc n K N = slepianLoc n' K' N') :
    n = n' ∧ K = K' ∧ N = N' := by
  have h := congrArg String.toList h
  have e : "_b".toList = ['_', 'b'] := by decide +kernel
  have e' : "_N".toList = ['_', 'N'] := by decide +kernel
  simp only [slepianLoc_eq, String.toList_append, List.append_assoc, List.append_cancel_left_eq, e, e'] at h
  have h' : (n.toList ++ ['_', 'b'] ++ (toString K).toList ++ ['_']) ++ 'N' :: (toString N).toList =
      (n'.toList ++ ['_', 'b'] ++ (toString K').toList ++ ['_']) ++ 'N' :: (toString N').toList := by simpa using h
  obtain ⟨h1, h2⟩ := Names.split_last (Names.not_mem_int (by decide) (by decide)) (Names.not_mem_int (by decide) (by decide)) h'
  have h1 := List.append_cancel_right h1
  have h1' : (n.toList ++ ['_']) ++ 'b' :: (toString K).toList = (n'.toList ++ ['_']) ++ 'b' :: (toString K').toList := by simpa using h1
  obtain ⟨h3, h4⟩ := Names.split_last (Names.not_mem_nat (by decide)) (Names.not_mem_nat (by decide)) h1'
  exact ⟨String.toList_injective (List.append_cancel_right h3), Names.nat_inj h4, Names.int_inj h2⟩

theorem take_prefix {α : Type} (p : List α) (c : α) (t : List α) (n : ℕ) (hp : p.length = n) :
    (p ++ c :: t).take n = p ∧ (p ++ c :: t)[n]? = some c := by
  subst hp
  exact ⟨by simp, by simp⟩

theorem basis_prefix (n : String) (k : ℤ) (s : String) :
    ((basisLoc n k ++ s).toList).take 18 = "meshes_laplacians_".toList ∧ ((basisLoc n k ++ s).toList)[18]? = some 'b' := by
  have e : "meshes_laplacians_basis_functions_".toList = "meshes_laplacians_".toList ++ 'b' :: "asis_functions_".toList := by
    decide +kernel
  have hp : "meshes_laplacians_".toList.length = 18 := by decide +kernel
  rw [basisLoc_eq, String.toList_append, String.toList_append, String.toList_append, String.toList_append, e]
  generalize "meshes_laplacians_".toList = p at hp ⊢
  simp only [List.append_assoc, List.cons_append]
  exact take_prefix p _ _ 18 hp

theorem slepian_prefix (n : String) (K : ℕ) (N : ℤ) (s : String) :
    ((slepianLoc n K N ++ s).toList).take 18 = "meshes_laplacians_".toList ∧ ((slepianLoc n K N ++ s).toList)[18]? = some 's' := by
  have e : "meshes_laplacians_slepian_functions_".toList = "meshes_laplacians_".toList ++ 's' :: "lepian_functions_".toList := by
    decide +kernel
  have hp : "meshes_laplacians_".toList.length = 18 := by decide +kernel
  rw [slepianLoc_eq, String.toList_append, String.toList_append, String.toList_append, String.toList_append, String.toList_append,
    String.toList_append, e]
  generalize "meshes_laplacians_".toList = p at hp ⊢
  simp only [List.append_assoc, List.cons_append]
  exact take_prefix p _ _ 18 hp

theorem basis_ne_slepian (n n' : String) (k : ℤ) (K : ℕ) (N : ℤ) (s s' : String) : basisLoc n k ++ s ≠ slepianLoc n' K N ++ s' := by
  intro h
  have h1 := (basis_prefix n k s).2
  rw [h, (slepian_prefix n' K N s').2] at h1
  cases h1

end Sleplet.MeshCache
