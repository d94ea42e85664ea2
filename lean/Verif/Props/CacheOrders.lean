import Mathlib.Data.List.Sort
import Mathlib.Analysis.Real.Pi.Bounds
import Verif.Props.Cache
import Verif.Props.EigenClean

/-!
C14 (single-order queries) and the violations of C11 and C13.
-/
namespace Sleplet.Props

open Real Sleplet.Region Sleplet.Cache Sleplet.Eigen

theorem files_ne (loc : String) : evalFile loc ≠ evecFile loc ∧ evalFile loc ≠ orderFile loc ∧ evecFile loc ≠ orderFile loc := by
  refine ⟨fun h => ?_, fun h => ?_, fun h => ?_⟩
  · exact absurd (C12_file_names loc loc 0 1 h).1 (by decide)
  · exact absurd (C12_file_names loc loc 0 2 h).1 (by decide)
  · exact absurd (C12_file_names loc loc 1 2 h).1 (by decide)

/-- the directory after one construction of all orders of a polar cap from nothing. -/
noncomputable def afterPolar (env : Env) (s : Slepian) (loc : String) (fs : FS) : FS :=
  ((fs.write (evalFile loc) (some (.evals (env.solve s).1))).write (evecFile loc) (some (.evecs (savedRows env s)))).write
    (orderFile loc) (some (.orders (env.solve s).2.2))

theorem run_polar_fresh (env : Env) (L : ℕ) (t : ℝ) (g : Bool) (r : Obj) (ht : t ≠ 0)
    (hr : (Slepian.polarCap L t g).createRegion = .ok r) (fs : FS) (h1 : ∀ n, fs.registry n = none) (h2 : ∀ n, fs.user n = none) :
    runAlone fs (construct env ⟨.polarCap L t g, none⟩) =
      (.ok ⟨.evals (env.solve (.polarCap L t g)).1, .evecs (env.solve (.polarCap L t g)).2.1,
        some (.orders (env.solve (.polarCap L t g)).2.2)⟩,
      afterPolar env (.polarCap L t g) (env.location (.polarCap L t g) r) fs) := by
  have hl : ∀ n, npLoad fs (find fs n) = .error .typeError := by
    intro n; simp [find, h1, h2, npLoad]
  unfold construct
  simp only [Slepian.validate, ht, if_false, hr, badOrder, Bool.false_eq_true]
  unfold solvePolar runAlone
  rw [hl]
  rfl

theorem run_polar_cached (env : Env) (s₁ : Slepian) (L : ℕ) (t : ℝ) (g : Bool) (order : Option ℤ) (hb : badOrder L order = false)
    (r : Obj) (ht : t ≠ 0)
    (hr : (Slepian.polarCap L t g).createRegion = .ok r) (fs : FS) (h1 : ∀ n, fs.registry n = none) :
    (runAlone (afterPolar env s₁ (env.location (.polarCap L t g) r) fs) (construct env ⟨.polarCap L t g, order⟩)).1 =
      selectOrder order (.evals (env.solve s₁).1) (.evecs (savedRows env s₁)) (.orders (env.solve s₁).2.2) := by
  obtain ⟨n1, n2, n3⟩ := files_ne (env.location (.polarCap L t g) r)
  set fs' := afterPolar env s₁ (env.location (.polarCap L t g) r) fs with hfs'
  have hreg : ∀ n, fs'.registry n = none := h1
  have l1 : npLoad fs' (find fs' (evalFile (env.location (.polarCap L t g) r))) = .ok (.evals (env.solve s₁).1) := by
    have : fs'.user (evalFile (env.location (.polarCap L t g) r)) = some (.evals (env.solve s₁).1) := by
      simp [hfs', afterPolar, FS.write, n1, n2]
    simp [find, hreg, this, npLoad, FS.read]
  have l2 : npLoad fs' (find fs' (evecFile (env.location (.polarCap L t g) r))) = .ok (.evecs (savedRows env s₁)) := by
    have : fs'.user (evecFile (env.location (.polarCap L t g) r)) = some (.evecs (savedRows env s₁)) := by
      simp [hfs', afterPolar, FS.write, n3]
    simp [find, hreg, this, npLoad, FS.read]
  have l3 : npLoad fs' (find fs' (orderFile (env.location (.polarCap L t g) r))) = .ok (.orders (env.solve s₁).2.2) := by
    have : fs'.user (orderFile (env.location (.polarCap L t g) r)) = some (.orders (env.solve s₁).2.2) := by
      simp [hfs', afterPolar, FS.write]
    simp [find, hreg, this, npLoad, FS.read]
  unfold construct
  simp only [Slepian.validate, ht, if_false, hr, hb, Bool.false_eq_true]
  unfold solvePolar runAlone
  rw [l1]
  simp only
  unfold runAlone
  rw [l2]
  simp only
  unfold runAlone
  rw [l3]
  rfl

/-- C11 is violated: two polar caps with the same rounded angle and the same Shannon number share their files, so after
constructing the first one in an empty directory, constructing the second one returns the eigensolutions of the first. -/
theorem C11_collision (env : Env) (L : ℕ) (t t' : ℝ) (g : Bool) (r r' : Obj) (ht : t ≠ 0) (ht' : t' ≠ 0)
    (hr : (Slepian.polarCap L t g).createRegion = .ok r) (hr' : (Slepian.polarCap L t' g).createRegion = .ok r')
    (hloc : env.location (.polarCap L t g) r = env.location (.polarCap L t' g) r')
    (fs : FS) (h1 : ∀ n, fs.registry n = none) (h2 : ∀ n, fs.user n = none) :
    (runAlone (runAlone fs (construct env ⟨.polarCap L t g, none⟩)).2 (construct env ⟨.polarCap L t' g, none⟩)).1 =
      .ok ⟨.evals (env.solve (.polarCap L t g)).1, .evecs (savedRows env (.polarCap L t g)),
        some (.orders (env.solve (.polarCap L t g)).2.2)⟩ := by
  rw [run_polar_fresh env L t g r ht hr fs h1 h2]
  simp only
  rw [hloc, run_polar_cached env _ L t' g none rfl r' ht' hr' fs h1]
  rfl

theorem round_near {x : ℝ} {k : ℤ} (h : |x - k| < 1 / 2) : Py.round x = k := by
  rw [abs_lt] at h
  have h1 := Py.round_le_add_half x
  have h2 := Py.sub_half_le_round x
  have h3 : (Py.round x : ℝ) < k + 1 := by linarith
  have h4 : (k : ℝ) - 1 < Py.round x := by linarith
  have h3 : Py.round x < k + 1 := by exact_mod_cast h3
  have h4 : k - 1 < Py.round x := by exact_mod_cast h4
  omega

/-- C11 is violated at every even bandlimit: there is a polar cap wider than the 60 degree cap whose construction,
after that of the 60 degree cap, returns the 60 degree cap's eigenvalues; and if the solver's eigenvalues add up to the
exact Shannon number `area L²/4π` (as they do, C51), these are not its own. -/
theorem C11_violation (env : Env) (L k : ℕ) (hL : L = 2 * k) (hk : 0 < k)
    (hsum : ∀ t, 0 < t → t < π → (env.solve (.polarCap L t false)).1.sum = (Slepian.polarCap L t false).area 0 * (L : ℝ) ^ 2 / (4 * π))
    (fs : FS) (h1 : ∀ n, fs.registry n = none) (h2 : ∀ n, fs.user n = none) :
    ∃ t' : ℝ, π / 3 < t' ∧ t' < π / 2 ∧ env.shannon (.polarCap L t' false) = (k : ℤ) ^ 2 ∧ ∃ res,
      (runAlone (runAlone fs (construct env ⟨.polarCap L (π / 3) false, none⟩)).2 (construct env ⟨.polarCap L t' false, none⟩)).1 =
        .ok res ∧ res.evals = .evals (env.solve (.polarCap L (π / 3) false)).1 ∧
      res.evals ≠ .evals (env.solve (.polarCap L t' false)).1 := by
  have hpi := pi_pos
  have hpi3 := pi_gt_three
  have hk1 : (1 : ℝ) ≤ k := by exact_mod_cast hk
  set δ : ℝ := 1 / (1000 * (k : ℝ) ^ 2) with hδ
  have hδ0 : 0 < δ := by positivity
  have hδ1 : δ ≤ 1 / 1000 := by
    rw [hδ]
    apply one_div_le_one_div_of_le (by norm_num)
    nlinarith
  have hδk : δ * (k : ℝ) ^ 2 = 1 / 1000 := by
    rw [hδ]; field_simp
  set t' : ℝ := π / 3 + δ with ht'
  have t0 : t' ≠ 0 := by positivity
  have tpi : t' < π := by linarith
  have region : ∀ t : ℝ, 0 ≤ t → t < π → ∃ r, (Slepian.polarCap L t false).createRegion = .ok r ∧
      r.nameEnding = "polar" ++ toString (angleAsDegree t) := by
    intro t h0 hlt
    have hp : OnlyThetaMax { gap := false, thetaMax := t } := ⟨rfl, rfl, rfl, hlt.ne⟩
    obtain ⟨r, h, -⟩ := ((C09_classification { gap := false, thetaMax := t }).2
      ⟨⟨by simp; positivity, le_rfl⟩, ⟨le_rfl, by simp; positivity⟩, ⟨h0, hlt.le⟩, le_rfl, hpi.le⟩).1 hp
    refine ⟨r, h, ?_⟩
    obtain ⟨-, -, hid⟩ := mk_ok_args h
    unfold identify at hid
    rw [if_pos ((isPolarCap_iff _).2 hp)] at hid
    simp only [Except.ok.injEq, Prod.mk.injEq] at hid
    rw [← hid.2]
    rfl
  obtain ⟨r, hr, hn⟩ := region (π / 3) (by positivity) (by linarith)
  obtain ⟨r', hr', hn'⟩ := region t' (by positivity) tpi
  -- same degree
  have d1 : angleAsDegree (π / 3) = 60 := by
    unfold angleAsDegree
    apply round_near
    have : Py.rad2deg (π / 3) = 60 := by unfold Py.rad2deg; field_simp; norm_num
    rw [this]; norm_num
  have d2 : angleAsDegree t' = 60 := by
    unfold angleAsDegree
    apply round_near
    have : Py.rad2deg t' = 60 + δ * 180 / π := by unfold Py.rad2deg; rw [ht']; field_simp; ring
    rw [this]
    push_cast
    rw [show (60 + δ * 180 / π - 60 : ℝ) = δ * 180 / π by ring, abs_of_pos (by positivity), div_lt_iff₀ hpi]
    nlinarith
  -- same Shannon number
  have hcos : |cos t' - 1 / 2| ≤ δ := by
    rw [← cos_pi_div_three]
    have h := Real.abs_cos_sub_cos_le t' (π / 3)
    rw [show t' - π / 3 = δ by rw [ht']; ring, abs_of_pos hδ0] at h
    exact h
  have s1 : (Slepian.polarCap L (π / 3) false).shannon 0 = (k : ℤ) ^ 2 := by
    unfold Slepian.shannon
    apply round_near
    have : (Slepian.polarCap L (π / 3) false).area 0 * ((Slepian.polarCap L (π / 3) false).L : ℝ) ^ 2 / (4 * π) = (k : ℝ) ^ 2 := by
      simp only [Slepian.area, Slepian.L, cos_pi_div_three, hL]
      push_cast
      field_simp
      ring
    rw [this]; push_cast; norm_num
  have s2 : (Slepian.polarCap L t' false).shannon 0 = (k : ℤ) ^ 2 := by
    unfold Slepian.shannon
    apply round_near
    have : (Slepian.polarCap L t' false).area 0 * ((Slepian.polarCap L t' false).L : ℝ) ^ 2 / (4 * π) =
        2 * (1 - cos t') * (k : ℝ) ^ 2 := by
      simp only [Slepian.area, Slepian.L, hL]
      push_cast
      field_simp
      ring
    rw [this]; push_cast
    rw [show 2 * (1 - cos t') * (k : ℝ) ^ 2 - (k : ℝ) ^ 2 = -2 * (k : ℝ) ^ 2 * (cos t' - 1 / 2) by ring, abs_mul,
      abs_of_nonpos (by nlinarith : -2 * (k : ℝ) ^ 2 ≤ 0)]
    nlinarith [sq_nonneg (k : ℝ)]
  have hloc : env.location (.polarCap L (π / 3) false) r = env.location (.polarCap L t' false) r' := by
    show "slepian_eigensolutions_D_" ++ r.nameEnding ++ "_L" ++ _ ++ "_N" ++ toString ((Slepian.polarCap L (π / 3) false).shannon 0) =
      "slepian_eigensolutions_D_" ++ r'.nameEnding ++ "_L" ++ _ ++ "_N" ++ toString ((Slepian.polarCap L t' false).shannon 0)
    rw [hn, hn', d1, d2, s1, s2]
    rfl
  refine ⟨t', by rw [ht']; linarith, by rw [ht']; linarith, s2, _, C11_collision env L (π / 3) t' false r r' (by positivity) t0 hr hr' hloc fs h1 h2, rfl, ?_⟩
  intro h
  injection h with h
  have h := congrArg List.sum h
  rw [hsum _ (by positivity) (by linarith), hsum _ (by positivity) tpi] at h
  simp only [Slepian.area, cos_pi_div_three] at h
  have hc : cos t' = 1 / 2 := by
    have hL0 : (L : ℝ) ≠ 0 := by
      rw [hL]; push_cast; positivity
    field_simp at h
    linarith
  have : cos t' < cos (π / 3) := cos_lt_cos_of_nonneg_of_le_pi (by positivity) tpi.le (by rw [ht']; linarith)
  rw [cos_pi_div_three, hc] at this
  exact lt_irrefl _ this

/-! ### C13: the number of rows -/

/-- C13. For a polar cap with `L > 16` and Shannon number `N`, the first construction in an empty directory exposes all
rows, a second one exactly the first `N`. -/
theorem C13_rows_depend_on_history (env : Env) (L : ℕ) (t : ℝ) (g : Bool) (r : Obj) (ht : t ≠ 0)
    (hr : (Slepian.polarCap L t g).createRegion = .ok r) (hL : 16 < L) (hN : 0 ≤ env.shannon (.polarCap L t g))
    (fs : FS) (h1 : ∀ n, fs.registry n = none) (h2 : ∀ n, fs.user n = none) :
    (∃ res, (runAlone fs (construct env ⟨.polarCap L t g, none⟩)).1 = .ok res ∧ res.evecs = .evecs (env.solve (.polarCap L t g)).2.1) ∧
    (∃ res, (runAlone (runAlone fs (construct env ⟨.polarCap L t g, none⟩)).2 (construct env ⟨.polarCap L t g, none⟩)).1 = .ok res ∧
      res.evecs = .evecs ((env.solve (.polarCap L t g)).2.1.take (env.shannon (.polarCap L t g)).toNat)) := by
  constructor
  · rw [run_polar_fresh env L t g r ht hr fs h1 h2]
    exact ⟨_, rfl, rfl⟩
  · rw [C11_collision env L t t g r r ht ht hr hr rfl fs h1 h2]
    refine ⟨_, rfl, ?_⟩
    simp [savedRows, hL, slice, hN]

/-! ### C14 -/

/-- the polar solver of the environment is the modelled one: `solve` is the merge of the orders and `solveOrder` the
solution of one order, for the same answers of the eigensolver. -/
structure PolarSolver (env : Env) (L : ℕ) (t : ℝ) (g : Bool) (sol : ℤ → OrderSolution) (idx : ℤ → List ℕ) (idxAll : List ℕ) : Prop where
  len : ∀ m ∈ ordersRange L, (sol m).1.length = L - m.natAbs
  sorts : ∀ m ∈ ordersRange L, IsArgsortList (sol m).1 (idx m)
  sortsAll : ∀ e v o, accumulate L sol idx (ordersRange L) = .ok (e, v, o) → IsArgsortList e idxAll
  all : solveAll L sol idx idxAll = .ok (env.solve (.polarCap L t g))
  one : ∀ m ∈ ordersRange L, Eigen.solveOrder L sol idx m = .ok (env.solveOrder (.polarCap L t g) m)

theorem natAbs_lt_of_mem {L : ℕ} {m : ℤ} : m ∈ ordersRange L ↔ m.natAbs < L := by
  unfold ordersRange
  simp only [List.mem_map, List.mem_range]
  constructor
  · rintro ⟨t, ht, rfl⟩; omega
  · intro h; exact ⟨(m + (L - 1)).toNat, by omega, by omega⟩

theorem nodup_orders (L : ℕ) : (ordersRange L).Nodup := by
  unfold ordersRange
  refine List.Nodup.map ?_ List.nodup_range
  intro a b h
  simp only at h
  omega

theorem filter_keys (idx : ℤ → List ℕ) (ms : List ℤ) (hn : ms.Nodup) (m : ℤ) (hm : m ∈ ms) :
    (keys idx ms).filter (fun q => decide (q.1 = m)) = (idx m).reverse.map fun k => (m, k) := by
  induction ms with
  | nil => cases hm
  | cons a ms ih =>
    have hrest : ∀ ms' : List ℤ, m ∉ ms' → (keys idx ms').filter (fun q => decide (q.1 = m)) = [] := by
      intro ms' hms'
      rw [List.filter_eq_nil_iff]
      intro q hq
      unfold keys at hq
      simp only [List.mem_flatMap, List.mem_map] at hq
      obtain ⟨a, ha, k, -, rfl⟩ := hq
      simp only [decide_eq_true_eq]
      rintro rfl
      exact hms' ha
    have e : keys idx (a :: ms) = ((idx a).reverse.map fun k => (a, k)) ++ keys idx ms := by simp [keys]
    rw [e, List.filter_append]
    rcases List.mem_cons.1 hm with rfl | hm'
    · rw [hrest ms (List.nodup_cons.1 hn).1, List.append_nil, List.filter_eq_self]
      intro q hq
      obtain ⟨k, -, rfl⟩ := List.mem_map.1 hq
      simp
    · have hne : a ≠ m := by rintro rfl; exact (List.nodup_cons.1 hn).1 hm'
      rw [ih (List.nodup_cons.1 hn).2 hm']
      have : ((idx a).reverse.map fun k => (a, k)).filter (fun q => decide (q.1 = m)) = [] := by
        rw [List.filter_eq_nil_iff]
        intro q hq
        obtain ⟨k, -, rfl⟩ := List.mem_map.1 hq
        simpa using hne
      rw [this, List.nil_append]

/-- the members of order `m` in the solution of all orders are the solution of order `m`: the same eigenvalues in the
same order, and the same (eigenvalue, eigenvector) pairs. -/
theorem order_members {env : Env} {L : ℕ} {t : ℝ} {g : Bool} {sol : ℤ → OrderSolution} {idx : ℤ → List ℕ} {idxAll : List ℕ}
    (hp : PolarSolver env L t g sol idx idxAll) {m : ℤ} (hm : m.natAbs < L) :
    ∃ v', gather (env.solve (.polarCap L t g)).1 (env.solve (.polarCap L t g)).2.2 m = .ok (env.solveOrder (.polarCap L t g) m).1 ∧
      gather (env.solve (.polarCap L t g)).2.1 (env.solve (.polarCap L t g)).2.2 m = .ok v' ∧
      ((env.solveOrder (.polarCap L t g) m).1.zip v').Perm
        ((env.solveOrder (.polarCap L t g) m).1.zip (env.solveOrder (.polarCap L t g) m).2) := by
  have hm' := natAbs_lt_of_mem.2 hm
  have hb : ∀ m ∈ ordersRange L, (sol m).1.length = L - m.natAbs ∧ (idx m).Perm (List.range (sol m).1.length) :=
    fun m hm => ⟨hp.len m hm, (hp.sorts m hm).1⟩
  have hacc := accumulate_eq L sol idx (ordersRange L) hb
  have hall := hp.sortsAll _ _ _ hacc
  have hallp : idxAll.Perm (List.range (keys idx (ordersRange L)).length) := by
    have := hall.1
    rwa [List.length_map] at this
  obtain ⟨ks, hperm, hks, hres⟩ := solveAll_eq L sol idx idxAll hb hallp
  have hsolve : env.solve (.polarCap L t g) = (ks.map (fun q => (sol q.1).1.getD q.2 0),
        ks.map (fun q => rowOf L q.1 (sol q.1).2 q.2), ks.map Prod.fst) :=
    Except.ok.inj (hp.all.symm.trans hres)
  have hone : env.solveOrder (.polarCap L t g) m =
      ((idx m).reverse.map (fun k => (sol m).1.getD k 0), (idx m).reverse.map (rowOf L m (sol m).2)) :=
    Except.ok.inj ((hp.one m hm').symm.trans (polarClean_eq L m _ _ _ (hb m hm').1 (hb m hm').2))
  have hfil : (ks.filter fun q => decide (q.1 = m)).Perm ((idx m).reverse.map fun k => (m, k)) := by
    have := hperm.filter fun q => decide (q.1 = m)
    rwa [filter_keys idx _ (nodup_orders L) m hm'] at this
  -- the sorted values
  have hdesc : (ks.map fun q => (sol q.1).1.getD q.2 0).Pairwise (· ≥ ·) := by
    have hlt : ∀ k ∈ idxAll.reverse, k < (keys idx (ordersRange L)).length := by
      intro k hk
      have := hallp.subset (List.mem_reverse.1 hk)
      simpa using this
    have h2 : ks.map (fun q => (sol q.1).1.getD q.2 0) =
        (idxAll.map fun k => ((keys idx (ordersRange L)).map fun q => (sol q.1).1.getD q.2 0).getD k 0).reverse := by
      rw [hks, ← List.map_reverse]
      exact (map_getD_map _ _ _ hlt _ _).symm
    rw [h2, List.pairwise_reverse]
    exact hall.2
  have hev : (ks.filter fun q => decide (q.1 = m)).map (fun q => (sol q.1).1.getD q.2 0) =
      (idx m).reverse.map fun k => (sol m).1.getD k 0 := by
    have h1 := hfil.map fun q : ℤ × ℕ => (sol q.1).1.getD q.2 0
    rw [List.map_map] at h1
    refine List.Perm.eq_of_pairwise (le := fun a b : ℝ => a ≥ b) (fun a b _ _ hab hba => le_antisymm hba hab) ?_ ?_ h1
    · exact hdesc.sublist ((List.filter_sublist).map _)
    · have := (hp.sorts m hm').2
      rw [List.map_reverse, List.pairwise_reverse]
      exact this
  refine ⟨(ks.filter fun q => decide (q.1 = m)).map (fun q => rowOf L q.1 (sol q.1).2 q.2), ?_, ?_, ?_⟩
  · rw [hsolve, hone]
    simp only
    rw [gather_map ks Prod.fst, hev]
  · rw [hsolve]
    exact gather_map ks Prod.fst _ m
  · rw [hone]
    simp only
    have h1 := hfil.map fun q : ℤ × ℕ => ((sol q.1).1.getD q.2 0, rowOf L q.1 (sol q.1).2 q.2)
    rw [List.map_map] at h1
    rw [← hev, List.zip_map']
    rw [hev, List.zip_map']
    exact h1

/-- C14 up to `L = 16`. In every history in which no process is killed inside a save, as soon as no save is under way: a
single-order query succeeds and returns the eigenvalues of that order (in the same order as computed from scratch) and
the same eigenpairs. -/
theorem C14_small_L_partial (env : Env) (A : Slepian → Prop) (hA : Separate env A) (st st' : State) (h0 : Start env A st)
    (h : Relation.ReflTransGen (Cache.Step env (fun j => A j.s) fun p => ∃ q, p = .running q) st st')
    (hq : ∀ x ∈ st'.procs, ∀ n f p, x.2 ≠ .saving n f p) (L : ℕ) (hL : L ≤ 16) (t : ℝ) (g : Bool)
    (hs : A (.polarCap L t g)) (ht : t ≠ 0) (hreg : ∃ r, (Slepian.polarCap L t g).createRegion = .ok r) (sol : ℤ → OrderSolution) (idx : ℤ → List ℕ) (idxAll : List ℕ)
    (hp : PolarSolver env L t g sol idx idxAll) (m : ℤ) (hm : m.natAbs < L) :
    ∃ v', (runAlone st'.fs (construct env ⟨.polarCap L t g, some m⟩)).1 =
        .ok ⟨.evals (env.solveOrder (.polarCap L t g) m).1, .evecs v', none⟩ ∧
      ((env.solveOrder (.polarCap L t g) m).1.zip v').Perm
        ((env.solveOrder (.polarCap L t g) m).1.zip (env.solveOrder (.polarCap L t g) m).2) := by
  obtain ⟨v', e1, e2, e3⟩ := order_members hp hm
  have hsaved : savedRows env (.polarCap L t g) = (env.solve (.polarCap L t g)).2.1 := by
    have : ¬ L > 16 := by omega
    simp [savedRows, this]
  have hsel : selectOrder (some m) (.evals (env.solve (.polarCap L t g)).1) (.evecs (savedRows env (.polarCap L t g)))
      (.orders (env.solve (.polarCap L t g)).2.2) = .ok ⟨.evals (env.solveOrder (.polarCap L t g) m).1, .evecs v', none⟩ := by
    unfold selectOrder
    rw [hsaved]
    simp only [e1, e2, bind, Except.bind, pure, Except.pure]
  have hI : Inv (Belongs env A) (fun j r => ∀ res, r = .ok res → Correct env j res) st := by
    refine ⟨fun n f hf => Or.inl (h0.2.2 n f hf), fun n f hf => ?_, fun x hx => ?_⟩
    · rw [h0.2.1] at hf; cases hf
    · rw [h0.1] at hx; cases hx
  have hI' := hI.reach (fun j hj => construct_ok (fun _ => True) env hA j hj _ (fun e _ res h => by cases h) (fun e _ _ res h => by cases h)
    (fun res hres res' h => by injection h with h; rwa [← h]) (fun _ _ _ _ _ res h => by cases h)
    (fun _ _ _ _ _ _ _ _ res h => by cases h)) h
  have hT : TInv st := by
    refine ⟨fun n e hn => ?_, fun x hx => ?_⟩
    · rw [h0.2.1] at hn; cases hn
    · rw [h0.1] at hx; cases hx
  have hT' : TInv st' ∧ st'.fs.registry = st.fs.registry := by
    clear hq hI'
    induction h with
    | refl => exact ⟨hT, rfl⟩
    | tail _ step ih => exact ⟨ih.1.step (fun n f p => by rintro ⟨q, hq⟩; cases hq) step, step.registry.trans ih.2⟩
  have g1 : GoodFiles (fun _ => False) (Belongs env A) st'.fs.registry := by
    intro n f hf
    rw [hT'.2] at hf
    exact Or.inl (h0.2.2 n f hf)
  have g2 : GoodFiles (fun _ => False) (Belongs env A) st'.fs.user := by
    intro n f hf
    rcases hI'.user n f hf with h | ⟨e, -, rfl⟩
    · exact Or.inl h
    · obtain ⟨x, hx, f, p, hxp⟩ := hT'.1.torn n e hf
      exact absurd hxp (hq x hx n f p)
  have hb : badOrder L (some m) = false := by simp [badOrder]; omega
  obtain ⟨⟨res, hr1, hr2⟩, -⟩ := runAlone_ok _ (construct_untorn _ _) (construct_ok (fun _ => False) env hA ⟨.polarCap L t g, some m⟩ hs
    (fun r => ∃ res, r = .ok res ∧ Correct env ⟨.polarCap L t g, some m⟩ res)
    (fun e he => by
      obtain ⟨r, hr⟩ := hreg
      rcases he with he | he
      · simp [Slepian.validate, ht] at he
      · rw [hr] at he; cases he)
    (fun e he => he.elim) (fun res hres => ⟨res, rfl, hres⟩)
    (fun L' t' g' he h => by injection he with he; subst he; rw [hb] at h; cases h) (fun e L' t' g' m' he ho hbad => by
      simp only [Option.some.injEq] at ho
      subst ho
      rw [hsel] at hbad
      cases hbad)) st'.fs g1 g2
  rw [hr1]
  rcases hr2 with rfl | ⟨w', v'', h1, h2, rfl⟩
  · exact ⟨_, rfl, List.Perm.refl _⟩
  · rw [e1] at h1
    rw [hsaved, e2] at h2
    injection h1 with h1
    injection h2 with h2
    subst h1 h2
    exact ⟨_, rfl, e3⟩

/-- C14 is violated for every `L > 16`: computed from scratch every order is answered, but once the solution of all
orders has been saved with `N < L²`, the query of some order raises `IndexError`. -/
theorem C14_large_L_violation (env : Env) (L : ℕ) (hL : 16 < L) (t : ℝ) (g : Bool) (r : Obj) (ht : t ≠ 0)
    (hr : (Slepian.polarCap L t g).createRegion = .ok r) (hlen : (env.solve (.polarCap L t g)).2.2.length = L ^ 2)
    (hev : (env.solve (.polarCap L t g)).1.length = L ^ 2)
    (hord : ∀ m ∈ (env.solve (.polarCap L t g)).2.2, m.natAbs < L)
    (hN0 : 0 ≤ env.shannon (.polarCap L t g)) (hN : env.shannon (.polarCap L t g) < (L : ℤ) ^ 2)
    (fs : FS) (h1 : ∀ n, fs.registry n = none) (h2 : ∀ n, fs.user n = none) :
    ∃ m : ℤ, m.natAbs < L ∧
      (runAlone fs (construct env ⟨.polarCap L t g, some m⟩)).1 =
        .ok ⟨.evals (env.solveOrder (.polarCap L t g) m).1, .evecs (env.solveOrder (.polarCap L t g) m).2, none⟩ ∧
      (runAlone (runAlone fs (construct env ⟨.polarCap L t g, none⟩)).2 (construct env ⟨.polarCap L t g, some m⟩)).1 =
        .error .indexError := by
  have hpos : L ^ 2 - 1 < (env.solve (.polarCap L t g)).2.2.length := by
    rw [hlen]
    have : 0 < L ^ 2 := by positivity
    omega
  set m := (env.solve (.polarCap L t g)).2.2[L ^ 2 - 1] with hmdef
  have hm : m.natAbs < L := hord m (List.getElem_mem hpos)
  have hb : badOrder L (some m) = false := by simp [badOrder]; omega
  refine ⟨m, hm, ?_, ?_⟩
  · have hl : ∀ n, npLoad fs (find fs n) = .error .typeError := by
      intro n; simp [find, h1, h2, npLoad]
    unfold construct
    simp only [Slepian.validate, ht, if_false, hr, hb, Bool.false_eq_true]
    unfold solvePolar runAlone
    rw [hl]
    rfl
  · rw [run_polar_fresh env L t g r ht hr fs h1 h2]
    simp only
    rw [run_polar_cached env _ L t g (some m) hb r ht hr fs h1]
    unfold selectOrder
    have hg1 : ∃ w, gather (env.solve (.polarCap L t g)).1 (env.solve (.polarCap L t g)).2.2 m = .ok w := by
      apply gather_isOk
      intro p hp
      have := (List.getElem?_eq_some_iff.1 hp).1
      omega
    obtain ⟨w, hw⟩ := hg1
    have hg2 : gather (savedRows env (.polarCap L t g)) (env.solve (.polarCap L t g)).2.2 m = .error .indexError := by
      apply gather_error
      refine ⟨L ^ 2 - 1, by rw [List.getElem?_eq_getElem hpos], ?_⟩
      simp only [savedRows, hL, if_true, slice, hN0]
      rw [List.length_take]
      have : (env.shannon (.polarCap L t g)).toNat ≤ L ^ 2 - 1 := by
        have : (env.shannon (.polarCap L t g)) < ((L ^ 2 : ℕ) : ℤ) := by push_cast; exact hN
        omega
      omega
    simp only [hw, hg2, bind, Except.bind]

/-- C14, validation: an order is accepted exactly when `|m| < L`; a rejected one raises `ValueError` before any file is
touched, in every state of the files. -/
theorem C14_order_validation (env : Env) (L : ℕ) (t : ℝ) (g : Bool) (r : Obj) (ht : t ≠ 0)
    (hr : (Slepian.polarCap L t g).createRegion = .ok r) (m : ℤ) :
    ((L : ℤ) ≤ |m| → ∀ fs, runAlone fs (construct env ⟨.polarCap L t g, some m⟩) = (.error .valueError, fs)) ∧
    (|m| < L → ∀ fs : FS, (∀ n, fs.registry n = none) → (∀ n, fs.user n = none) →
      runAlone fs (construct env ⟨.polarCap L t g, some m⟩) =
        (.ok ⟨.evals (env.solveOrder (.polarCap L t g) m).1, .evecs (env.solveOrder (.polarCap L t g) m).2, none⟩, fs)) := by
  constructor
  · intro h fs
    have hb : badOrder L (some m) = true := by rw [Int.abs_eq_natAbs] at h; simp [badOrder]; omega
    unfold construct
    simp only [Slepian.validate, ht, if_false, hr, hb, if_true]
    rfl
  · intro h fs h1 h2
    have hl : ∀ n, npLoad fs (find fs n) = .error .typeError := by
      intro n; simp [find, h1, h2, npLoad]
    have hb : badOrder L (some m) = false := by rw [Int.abs_eq_natAbs] at h; simp [badOrder]; omega
    unfold construct
    simp only [Slepian.validate, ht, if_false, hr, hb, Bool.false_eq_true]
    unfold solvePolar runAlone
    rw [hl]
    rfl

/-- the hypotheses of the history theorems can be met: a new user's directory, and a history in which a polar cap is
constructed to the end. -/
example (env : Env) : ∃ st st', Start env WholeDegrees st ∧ Separate env WholeDegrees ∧
    Relation.ReflTransGen (Cache.Step env (fun j => WholeDegrees j.s) fun _ => True) st st' ∧
    ∃ res, ((⟨.polarCap 16 (Py.deg2rad (40 : ℤ)) false, none⟩ : Job), .running (.done (.ok res))) ∈ st'.procs := by
  have hw : WholeDegrees (.polarCap 16 (Py.deg2rad (40 : ℤ)) false) := WholeDegrees.polarCap 16 40 false (by norm_num) (by norm_num)
  obtain ⟨r, hr⟩ := wholeDegrees_region hw
  have ht : Py.deg2rad (40 : ℤ) ≠ 0 := by
    have := pi_pos
    rw [deg2rad_eq]; push_cast; positivity
  refine ⟨⟨⟨fun _ => none, fun _ => none⟩, []⟩, _, ⟨rfl, fun _ => rfl, fun _ _ h => by cases h⟩, wholeDegrees_separate env,
    .head (Cache.Step.spawn _ [] ⟨.polarCap 16 (Py.deg2rad (40 : ℤ)) false, none⟩ hw) (runAlone_reach _ _ _ _ _ _), ?_⟩
  rw [run_polar_fresh env 16 _ false r ht hr _ (fun _ => rfl) (fun _ => rfl)]
  exact ⟨_, List.mem_singleton.2 rfl⟩

theorem exists_argsortList (w : List ℝ) : ∃ idx, IsArgsortList w idx := by
  classical
  refine ⟨(List.range w.length).mergeSort fun a b => decide (w.getD a 0 ≤ w.getD b 0), List.mergeSort_perm _ _, ?_⟩
  rw [List.pairwise_map]
  have := List.pairwise_mergeSort (le := fun a b => decide (w.getD a 0 ≤ w.getD b 0))
    (fun a b c h1 h2 => by simp only [decide_eq_true_eq] at *; exact h1.trans h2)
    (fun a b => by simp only [Bool.or_eq_true, decide_eq_true_eq]; exact le_total _ _) (List.range w.length)
  simpa using this

/-- whatever the eigensolver answers (with the right number of eigenvalues), there are sorting permutations and an
environment whose polar solver is the modelled one. -/
example (L : ℕ) (t : ℝ) (g : Bool) (sol : ℤ → OrderSolution) (hlen : ∀ m ∈ ordersRange L, (sol m).1.length = L - m.natAbs) :
    ∃ env idx idxAll, PolarSolver env L t g sol idx idxAll := by
  choose idx hidx using fun m => exists_argsortList (sol m).1
  have hb : ∀ m ∈ ordersRange L, (sol m).1.length = L - m.natAbs ∧ (idx m).Perm (List.range (sol m).1.length) :=
    fun m hm => ⟨hlen m hm, (hidx m).1⟩
  have hacc := accumulate_eq L sol idx (ordersRange L) hb
  obtain ⟨idxAll, hall⟩ := exists_argsortList ((keys idx (ordersRange L)).map fun q => (sol q.1).1.getD q.2 0)
  have hallp : idxAll.Perm (List.range (keys idx (ordersRange L)).length) := by simpa using hall.1
  obtain ⟨ks, -, -, hres⟩ := solveAll_eq L sol idx idxAll hb hallp
  refine ⟨⟨fun _ _ => 0, fun _ => (ks.map (fun q => (sol q.1).1.getD q.2 0), ks.map (fun q => rowOf L q.1 (sol q.1).2 q.2),
    ks.map Prod.fst), fun _ m => ((idx m).reverse.map (fun k => (sol m).1.getD k 0), (idx m).reverse.map (rowOf L m (sol m).2))⟩,
    idx, idxAll, hlen, fun m _ => hidx m, ?_, hres, fun m hm => polarClean_eq L m _ _ _ (hb m hm).1 (hb m hm).2⟩
  intro e v o h
  rw [hacc] at h
  injection h with h
  rw [← (Prod.mk.inj h).1]
  exact hall

/-- the hypothesis of `C11_violation` on the sum of the eigenvalues can be met. -/
example (L : ℕ) : ∃ env : Env, ∀ t, (env.solve (.polarCap L t false)).1.sum =
    (Slepian.polarCap L t false).area 0 * (L : ℝ) ^ 2 / (4 * π) :=
  ⟨⟨fun _ _ => 0, fun s => ([s.area 0 * (L : ℝ) ^ 2 / (4 * π)], [], []), fun _ _ => ([], [])⟩, fun t => by simp⟩

/-- the hypotheses of `C14_large_L_violation` are met at `L = 17` by the 60 degree cap, with `N = 72`. -/
example : ∃ (env : Env) (r : Obj), (Slepian.polarCap 17 (π / 3) false).createRegion = .ok r ∧
    (env.solve (.polarCap 17 (π / 3) false)).2.2.length = 17 ^ 2 ∧ (env.solve (.polarCap 17 (π / 3) false)).1.length = 17 ^ 2 ∧
    (∀ m ∈ (env.solve (.polarCap 17 (π / 3) false)).2.2, m.natAbs < 17) ∧ env.shannon (.polarCap 17 (π / 3) false) = 72 := by
  have hpi := pi_pos
  have hp : OnlyThetaMax { gap := false, thetaMax := π / 3 } := ⟨rfl, rfl, rfl, (by linarith : π / 3 < π).ne⟩
  obtain ⟨r, h, -⟩ := ((C09_classification { gap := false, thetaMax := π / 3 }).2
    ⟨⟨by simp; positivity, le_rfl⟩, ⟨le_rfl, by simp; positivity⟩, ⟨by positivity, by simp only; linarith⟩, le_rfl, hpi.le⟩).1 hp
  refine ⟨⟨fun _ _ => 0, fun _ => (List.replicate (17 ^ 2) 0, [], List.replicate (17 ^ 2) 0), fun _ _ => ([], [])⟩, r, h,
    List.length_replicate, List.length_replicate, ?_, ?_⟩
  · intro m hm
    rw [List.eq_of_mem_replicate hm]
    decide
  · show (Slepian.polarCap 17 (π / 3) false).shannon 0 = 72
    unfold Slepian.shannon
    apply round_near
    have : (Slepian.polarCap 17 (π / 3) false).area 0 * ((Slepian.polarCap 17 (π / 3) false).L : ℝ) ^ 2 / (4 * π) = 289 / 4 := by
      simp only [Slepian.area, Slepian.L, cos_pi_div_three]
      push_cast
      field_simp
      norm_num
    rw [this]
    norm_num

end Sleplet.Props
