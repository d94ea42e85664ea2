import Verif.Lemmas.Writes
import Verif.Model.PolarOrders
import Verif.Props.CacheOrders

/-!
C106: requests for several orders of a polar cap.
-/
namespace Sleplet.Props

open Sleplet.Region Sleplet.Cache Sleplet.Eigen Sleplet.PolarOrders

/-- C106.  Without an array the constructor is the one of C11 to C16. -/
theorem C106_agrees (env : Env) (L : ℕ) (t : ℝ) (g : Bool) :
    PolarOrders.construct env L t g .all = Cache.construct env ⟨.polarCap L t g, none⟩ ∧
    ∀ m, PolarOrders.construct env L t g (.one m) = Cache.construct env ⟨.polarCap L t g, some m⟩ := by
  constructor
  · rfl
  · intro m
    rfl

/-- C106.  An array with an order not below the bandlimit is rejected, whatever files there are. -/
theorem C106_rejected (env : Env) (L : ℕ) (t : ℝ) (g : Bool) (r : Obj) (ht : t ≠ 0) (hr : (Slepian.polarCap L t g).createRegion = .ok r)
    (ms : List ℤ) (m : ℤ) (hm : m ∈ ms) (hL : L ≤ m.natAbs) (fs : FS) :
    runAlone fs (PolarOrders.construct env L t g (.array ms)) = (.error .valueError, fs) := by
  have hb : (Request.array ms).bad L = true := by
    simp only [Request.bad, List.any_eq_true, decide_eq_true_eq]
    exact ⟨m, hm, hL⟩
  unfold PolarOrders.construct
  simp only [Slepian.validate, ht, if_false, hr, hb, if_true]
  rfl

private theorem good {L : ℕ} {ms : List ℤ} (hms : ∀ m ∈ ms, m.natAbs < L) : (Request.array ms).bad L = false := by
  simp only [Request.bad, List.any_eq_false, decide_eq_true_eq]
  intro m hm
  have := hms m hm
  omega

/-- C106 is violated when nothing was saved: an array is answered with the solutions of all orders, like no argument at all. -/
theorem C106_fresh_violation (env : Env) (L : ℕ) (t : ℝ) (g : Bool) (r : Obj) (ht : t ≠ 0)
    (hr : (Slepian.polarCap L t g).createRegion = .ok r) (ms : List ℤ) (hms : ∀ m ∈ ms, m.natAbs < L)
    (fs : FS) (h1 : ∀ n, fs.registry n = none) (h2 : ∀ n, fs.user n = none) :
    runAlone fs (PolarOrders.construct env L t g (.array ms)) = runAlone fs (PolarOrders.construct env L t g .all) ∧
    (runAlone fs (PolarOrders.construct env L t g (.array ms))).1 =
      .ok ⟨.evals (env.solve (.polarCap L t g)).1, .evecs (env.solve (.polarCap L t g)).2.1,
        some (.orders (env.solve (.polarCap L t g)).2.2)⟩ := by
  have hl : ∀ n, npLoad fs (find fs n) = .error .typeError := by
    intro n; simp [find, h1, h2, npLoad]
  have hall := run_polar_fresh env L t g r ht hr fs h1 h2
  have harr : runAlone fs (PolarOrders.construct env L t g (.array ms)) =
      (.ok ⟨.evals (env.solve (.polarCap L t g)).1, .evecs (env.solve (.polarCap L t g)).2.1,
        some (.orders (env.solve (.polarCap L t g)).2.2)⟩,
      afterPolar env (.polarCap L t g) (env.location (.polarCap L t g) r) fs) := by
    unfold PolarOrders.construct
    simp only [Slepian.validate, ht, if_false, hr, good hms, Bool.false_eq_true]
    unfold PolarOrders.solve runAlone
    rw [hl]
    rfl
  rw [(C106_agrees env L t g).1, hall, harr]
  exact ⟨rfl, rfl⟩

/-- the answer once the solutions of all orders have been saved. -/
theorem run_array_cached (env : Env) (L : ℕ) (t : ℝ) (g : Bool) (ms : List ℤ) (hms : ∀ m ∈ ms, m.natAbs < L) (r : Obj) (ht : t ≠ 0)
    (hr : (Slepian.polarCap L t g).createRegion = .ok r) (fs : FS) (h1 : ∀ n, fs.registry n = none) :
    (runAlone (afterPolar env (.polarCap L t g) (env.location (.polarCap L t g) r) fs) (PolarOrders.construct env L t g (.array ms))).1 =
      select (.array ms) (.evals (env.solve (.polarCap L t g)).1) (.evecs (savedRows env (.polarCap L t g)))
        (.orders (env.solve (.polarCap L t g)).2.2) := by
  obtain ⟨n1, n2, n3⟩ := files_ne (env.location (.polarCap L t g) r)
  set fs' := afterPolar env (.polarCap L t g) (env.location (.polarCap L t g) r) fs with hfs'
  have hreg : ∀ n, fs'.registry n = none := h1
  have l1 : npLoad fs' (find fs' (evalFile (env.location (.polarCap L t g) r))) = .ok (.evals (env.solve (.polarCap L t g)).1) := by
    have : fs'.user (evalFile (env.location (.polarCap L t g) r)) = some (.evals (env.solve (.polarCap L t g)).1) := by
      simp [hfs', afterPolar, FS.write, n1, n2]
    simp [find, hreg, this, npLoad, FS.read]
  have l2 : npLoad fs' (find fs' (evecFile (env.location (.polarCap L t g) r))) = .ok (.evecs (savedRows env (.polarCap L t g))) := by
    have : fs'.user (evecFile (env.location (.polarCap L t g) r)) = some (.evecs (savedRows env (.polarCap L t g))) := by
      simp [hfs', afterPolar, FS.write, n3]
    simp [find, hreg, this, npLoad, FS.read]
  have l3 : npLoad fs' (find fs' (orderFile (env.location (.polarCap L t g) r))) = .ok (.orders (env.solve (.polarCap L t g)).2.2) := by
    have : fs'.user (orderFile (env.location (.polarCap L t g) r)) = some (.orders (env.solve (.polarCap L t g)).2.2) := by
      simp [hfs', afterPolar, FS.write]
    simp [find, hreg, this, npLoad, FS.read]
  unfold PolarOrders.construct
  simp only [Slepian.validate, ht, if_false, hr, good hms, Bool.false_eq_true]
  unfold PolarOrders.solve runAlone
  rw [l1]
  simp only
  unfold runAlone
  rw [l2]
  simp only
  unfold runAlone
  rw [l3]
  rfl

private theorem gather_mask {α : Type} (a : List α) (o : List ℤ) (m : ℤ) :
    gatherMask a (o.map fun x => decide (x = m)) = gather a o m := by
  unfold gatherMask gather
  rw [List.length_map]
  have : (List.range o.length).filter (fun p => (o.map fun x => decide (x = m)).getD p false) =
      (List.range o.length).filter fun p => decide (o[p]? = some m) := by
    refine List.filter_congr fun p hp => ?_
    have hp' : p < o.length := by simpa using hp
    simp [List.getD_eq_getElem?_getD, hp']
  rw [this]
  rfl

private theorem mapM_item {α : Type} [Inhabited α] (a : List α) : (List.range a.length).mapM (fun p => NumPy.item a p) = .ok a := by
  rw [mapM_eq_ok _ (fun p => a.getD p default)]
  · congr 1
    apply List.ext_getElem
    · simp
    · intro i h1 h2
      simp [List.getD_eq_getElem?_getD, List.getElem?_eq_getElem h2]
  · intro p hp
    have hp' : p < a.length := by simpa using hp
    rw [NumPy.item_of_lt _ _ hp', List.getD_eq_getElem?_getD, List.getElem?_eq_getElem hp', Option.getD_some]

private theorem gather_all {α : Type} [Inhabited α] (a : List α) (mask : List Bool) (hm : ∀ b ∈ mask, b = true) (h : mask.length = a.length) :
    gatherMask a mask = .ok a := by
  unfold gatherMask
  have : (List.range mask.length).filter (fun p => mask.getD p false) = List.range a.length := by
    rw [h]
    refine List.filter_eq_self.2 fun p hp => ?_
    have hp' : p < mask.length := by rw [h]; simpa using hp
    rw [List.getD_eq_getElem?_getD, List.getElem?_eq_getElem hp', Option.getD_some]
    exact hm _ (List.getElem_mem hp')
  rw [this]
  exact mapM_item a

private theorem polar_lengths {env : Env} {L : ℕ} {t : ℝ} {g : Bool} {sol : ℤ → OrderSolution} {idx : ℤ → List ℕ} {idxAll : List ℕ}
    (hp : PolarSolver env L t g sol idx idxAll) :
    (env.solve (.polarCap L t g)).1.length = L ^ 2 ∧ (env.solve (.polarCap L t g)).2.1.length = L ^ 2 ∧
    (env.solve (.polarCap L t g)).2.2.length = L ^ 2 ∧ ∀ m ∈ (env.solve (.polarCap L t g)).2.2, m.natAbs < L := by
  have hb : ∀ m ∈ ordersRange L, (sol m).1.length = L - m.natAbs ∧ (idx m).Perm (List.range (sol m).1.length) :=
    fun m hm => ⟨hp.len m hm, (hp.sorts m hm).1⟩
  have hall := hp.sortsAll _ _ _ (accumulate_eq L sol idx (ordersRange L) hb)
  have hallp : idxAll.Perm (List.range (keys idx (ordersRange L)).length) := by
    have := hall.1
    rwa [List.length_map] at this
  obtain ⟨ks, hperm, -, hres⟩ := solveAll_eq L sol idx idxAll hb hallp
  have hklen : (keys idx (ordersRange L)).length = L ^ 2 := by
    unfold keys
    rw [List.length_flatMap, ← sum_ordersRange L]
    congr 1
    apply List.map_congr_left
    intro m hmm
    simp only [List.length_map, List.length_reverse]
    rw [(hb m hmm).2.length_eq, List.length_range, (hb m hmm).1]
  have hkslen : ks.length = L ^ 2 := by rw [hperm.length_eq, hklen]
  rw [Except.ok.inj (hp.all.symm.trans hres)]
  refine ⟨by simp [hkslen], by simp [hkslen], by simp [hkslen], fun m hm => ?_⟩
  obtain ⟨q, hq, rfl⟩ := List.mem_map.1 hm
  have hq := hperm.subset hq
  unfold keys at hq
  simp only [List.mem_flatMap, List.mem_map] at hq
  obtain ⟨m, hmm, k, -, rfl⟩ := hq
  exact natAbs_lt_of_mem.1 hmm

/-- C106.  What an array is answered with once the solutions have been saved, in full for the shapes that fit: one order is answered like
an integer; the orders of all solutions, in their order, with everything that was saved; other numbers of orders raise `ValueError`. -/
theorem C106_reload (env : Env) (L : ℕ) (t : ℝ) (g : Bool) (r : Obj) (ht : t ≠ 0) (hr : (Slepian.polarCap L t g).createRegion = .ok r)
    (hL : 2 ≤ L) (sol : ℤ → OrderSolution) (idx : ℤ → List ℕ) (idxAll : List ℕ) (hp : PolarSolver env L t g sol idx idxAll)
    (fs : FS) (h1 : ∀ n, fs.registry n = none) (h2 : ∀ n, fs.user n = none) (saved : FS)
    (hsaved : saved = (runAlone fs (PolarOrders.construct env L t g .all)).2) :
    (∀ m : ℤ, m.natAbs < L → (runAlone saved (PolarOrders.construct env L t g (.array [m]))).1 =
      (runAlone saved (PolarOrders.construct env L t g (.one m))).1.map fun res => { res with orders := some (.orders [m]) }) ∧
    (L ≤ 16 → (runAlone saved (PolarOrders.construct env L t g (.array (env.solve (.polarCap L t g)).2.2))).1 =
      .ok ⟨.evals (env.solve (.polarCap L t g)).1, .evecs (env.solve (.polarCap L t g)).2.1,
        some (.orders (env.solve (.polarCap L t g)).2.2)⟩) ∧
    ∀ ms : List ℤ, (∀ m ∈ ms, m.natAbs < L) → ms.length ≠ 1 → ms.length ≠ L ^ 2 →
      (runAlone saved (PolarOrders.construct env L t g (.array ms))).1 = .error .valueError := by
  obtain ⟨hw, hv, ho, hord⟩ := polar_lengths hp
  have hL2 : 4 ≤ L ^ 2 := by nlinarith
  rw [(C106_agrees env L t g).1, run_polar_fresh env L t g r ht hr fs h1 h2] at hsaved
  simp only at hsaved
  subst hsaved
  refine ⟨fun m hm => ?_, fun h16 => ?_, fun ms hms hn1 hn2 => ?_⟩
  · rw [run_array_cached env L t g [m] (by simpa using hm) r ht hr fs h1, (C106_agrees env L t g).2,
      run_polar_cached env _ L t g (some m) (by simp [badOrder]; omega) r ht hr fs h1]
    unfold select selectOrder
    have hb : NumPy.broadcast (fun a b : ℤ => decide (a = b)) (env.solve (.polarCap L t g)).2.2 [m] =
        .ok ((env.solve (.polarCap L t g)).2.2.map fun x => decide (x = m)) := by
      rcases hcase : (env.solve (.polarCap L t g)).2.2 with _ | ⟨a, _ | ⟨b, l⟩⟩
      · rw [hcase] at ho; simp at ho; omega
      · rw [hcase] at ho; simp at ho; omega
      · simp [NumPy.broadcast]
    simp only [hb, bind, Except.bind, gather_mask]
    rcases gather (env.solve (.polarCap L t g)).1 (env.solve (.polarCap L t g)).2.2 m with e | w'
    · rfl
    · simp only
      rcases gather (savedRows env (.polarCap L t g)) (env.solve (.polarCap L t g)).2.2 m with e | v'
      · rfl
      · rfl
  · rw [run_array_cached env L t g _ hord r ht hr fs h1]
    have hrows : savedRows env (.polarCap L t g) = (env.solve (.polarCap L t g)).2.1 := by
      have : ¬ L > 16 := by omega
      simp [savedRows, this]
    unfold select
    have hb : NumPy.broadcast (fun a b : ℤ => decide (a = b)) (env.solve (.polarCap L t g)).2.2 (env.solve (.polarCap L t g)).2.2 =
        .ok (List.zipWith (fun a b : ℤ => decide (a = b)) (env.solve (.polarCap L t g)).2.2 (env.solve (.polarCap L t g)).2.2) := by
      simp [NumPy.broadcast]
    have htrue : ∀ b ∈ List.zipWith (fun a b : ℤ => decide (a = b)) (env.solve (.polarCap L t g)).2.2 (env.solve (.polarCap L t g)).2.2, b = true := by
      intro b hbm
      rw [List.zipWith_self] at hbm
      simp at hbm
      exact hbm.2
    have hlen : (List.zipWith (fun a b : ℤ => decide (a = b)) (env.solve (.polarCap L t g)).2.2 (env.solve (.polarCap L t g)).2.2).length = L ^ 2 := by
      simp [ho]
    rw [hrows]
    simp only [hb, bind, Except.bind, gather_all _ _ htrue (hlen.trans hw.symm), gather_all _ _ htrue (hlen.trans hv.symm), pure, Except.pure]
  · rw [run_array_cached env L t g ms hms r ht hr fs h1]
    have hb : NumPy.broadcast (fun a b : ℤ => decide (a = b)) (env.solve (.polarCap L t g)).2.2 ms = .error .valueError := by
      unfold NumPy.broadcast
      rw [if_neg (by rw [ho]; exact fun h => hn2 h.symm)]
      rcases hcase : (env.solve (.polarCap L t g)).2.2 with _ | ⟨a, _ | ⟨b, l⟩⟩
      · rw [hcase] at ho; simp at ho; omega
      · rw [hcase] at ho; simp at ho; omega
      · rcases ms with _ | ⟨c, _ | ⟨d, k⟩⟩
        · rfl
        · simp at hn1
        · rfl
    unfold select
    simp only [hb, bind, Except.bind]

/-- C106 is violated: the same request is answered differently the second time.  An array of one order is first answered with the
eigenvalues of all orders, then with those of this order; an array of several orders, unless as many as there are solutions, is first
answered with all orders and then raises `ValueError`. -/
theorem C106_history_violation (env : Env) (L : ℕ) (hL : 2 ≤ L) (h16 : L ≤ 16) (t : ℝ) (g : Bool) (r : Obj) (ht : t ≠ 0)
    (hr : (Slepian.polarCap L t g).createRegion = .ok r) (sol : ℤ → OrderSolution) (idx : ℤ → List ℕ) (idxAll : List ℕ)
    (hp : PolarSolver env L t g sol idx idxAll)
    (fs : FS) (h1 : ∀ n, fs.registry n = none) (h2 : ∀ n, fs.user n = none) (ms : List ℤ) (hms : ∀ m ∈ ms, m.natAbs < L) :
    (runAlone fs (PolarOrders.construct env L t g (.array ms))).1 =
      .ok ⟨.evals (env.solve (.polarCap L t g)).1, .evecs (env.solve (.polarCap L t g)).2.1,
        some (.orders (env.solve (.polarCap L t g)).2.2)⟩ ∧
    (∀ m, ms = [m] → ∃ w v, (runAlone (runAlone fs (PolarOrders.construct env L t g (.array ms))).2
        (PolarOrders.construct env L t g (.array ms))).1 = .ok ⟨.evals w, .evecs v, some (.orders [m])⟩ ∧
      w = (env.solveOrder (.polarCap L t g) m).1 ∧ w.length = L - m.natAbs ∧ w ≠ (env.solve (.polarCap L t g)).1) ∧
    (ms.length ≠ 1 → ms.length ≠ L ^ 2 → (runAlone (runAlone fs (PolarOrders.construct env L t g (.array ms))).2
      (PolarOrders.construct env L t g (.array ms))).1 = .error .valueError) := by
  obtain ⟨hw, -, -, -⟩ := polar_lengths hp
  obtain ⟨hf1, hf2⟩ := C106_fresh_violation env L t g r ht hr ms hms fs h1 h2
  obtain ⟨hr1, -, hr3⟩ := C106_reload env L t g r ht hr hL sol idx idxAll hp fs h1 h2 _ rfl
  refine ⟨hf2, ?_, fun hn1 hn2 => ?_⟩
  · rintro m rfl
    have hm : m.natAbs < L := hms m (by simp)
    obtain ⟨v', e1, e2, -⟩ := order_members hp hm
    have hrows : savedRows env (.polarCap L t g) = (env.solve (.polarCap L t g)).2.1 := by
      have : ¬ L > 16 := by omega
      simp [savedRows, this]
    have hlen : (env.solveOrder (.polarCap L t g) m).1.length = L - m.natAbs := by
      have hm' := natAbs_lt_of_mem.2 hm
      have hperm := (hp.sorts m hm').1
      have := Except.ok.inj ((hp.one m hm').symm.trans (polarClean_eq L m _ _ _ (hp.len m hm') hperm))
      rw [this]
      simp only [List.length_map, List.length_reverse]
      rw [hperm.length_eq, List.length_range, hp.len m hm']
    refine ⟨_, v', ?_, rfl, hlen, fun h => ?_⟩
    · rw [hf1, hr1 m hm, (C106_agrees env L t g).1, (C106_agrees env L t g).2, run_polar_fresh env L t g r ht hr fs h1 h2,
        run_polar_cached env _ L t g (some m) (by simp [badOrder]; omega) r ht hr fs h1]
      unfold selectOrder
      rw [hrows]
      simp only [e1, e2, bind, Except.bind, pure, Except.pure]
      rfl
    · have h3 := congrArg List.length h
      rw [hlen, hw] at h3
      have : L < L ^ 2 := by nlinarith
      omega
  · rw [hf1]
    exact hr3 ms hms hn1 hn2

/-- C106, what holds.  The array of the orders of all solutions, as the attribute `order` of the object holds it, is answered with all
solutions, the first time and again. -/
theorem C106_whole_array_partial (env : Env) (L : ℕ) (hL : 2 ≤ L) (h16 : L ≤ 16) (t : ℝ) (g : Bool) (r : Obj) (ht : t ≠ 0)
    (hr : (Slepian.polarCap L t g).createRegion = .ok r) (sol : ℤ → OrderSolution) (idx : ℤ → List ℕ) (idxAll : List ℕ)
    (hp : PolarSolver env L t g sol idx idxAll)
    (fs : FS) (h1 : ∀ n, fs.registry n = none) (h2 : ∀ n, fs.user n = none) (ms : List ℤ) (hms : ms = (env.solve (.polarCap L t g)).2.2)
    (first second : Except Err Result × FS) (hfirst : first = runAlone fs (PolarOrders.construct env L t g (.array ms)))
    (hsecond : second = runAlone first.2 (PolarOrders.construct env L t g (.array ms))) :
    second.1 = first.1 ∧ ∃ res, first.1 = .ok res ∧ res.orders = some (.orders ms) ∧ res.evals = .evals (env.solve (.polarCap L t g)).1 ∧
      res.evecs = .evecs (env.solve (.polarCap L t g)).2.1 := by
  subst hms
  obtain ⟨-, -, -, hord⟩ := polar_lengths hp
  obtain ⟨hf1, hf2⟩ := C106_fresh_violation env L t g r ht hr _ hord fs h1 h2
  obtain ⟨-, hr2, -⟩ := C106_reload env L t g r ht hr hL sol idx idxAll hp fs h1 h2 _ rfl
  rw [hsecond, hfirst]
  refine ⟨?_, _, hf2, rfl, rfl, rfl⟩
  rw [hf2, hf1]
  exact hr2 h16

private theorem mapM_item_error {α : Type} (a : List α) (ps : List ℕ) (h : ∃ p ∈ ps, a.length ≤ p) :
    ps.mapM (fun p => NumPy.item a p) = .error .indexError := by
  induction ps with
  | nil => simp at h
  | cons q qs ih =>
    rw [List.mapM_cons]
    rcases Nat.lt_or_ge q a.length with hq | hq
    · have : ∃ p ∈ qs, a.length ≤ p := by
        obtain ⟨p, hp, hle⟩ := h
        rcases List.mem_cons.1 hp with rfl | hp
        · omega
        · exact ⟨p, hp, hle⟩
      rw [NumPy.item_of_lt _ _ hq]
      simp only [bind, Except.bind, ih this]
    · have : NumPy.item a q = .error .indexError := by simp [NumPy.item, List.getElem?_eq_none hq]
      simp only [this, bind, Except.bind]

/-- C106 is violated for every bandlimit above 16, also by the array of all orders: only the first `N` eigenvectors were saved, so the second
answer is an `IndexError`, as is that to the array of one of the orders. -/
theorem C106_large_violation (env : Env) (L : ℕ) (hL : 16 < L) (t : ℝ) (g : Bool) (r : Obj) (ht : t ≠ 0)
    (hr : (Slepian.polarCap L t g).createRegion = .ok r) (sol : ℤ → OrderSolution) (idx : ℤ → List ℕ) (idxAll : List ℕ)
    (hp : PolarSolver env L t g sol idx idxAll)
    (hN0 : 0 ≤ env.shannon (.polarCap L t g)) (hN : env.shannon (.polarCap L t g) < (L : ℤ) ^ 2)
    (fs : FS) (h1 : ∀ n, fs.registry n = none) (h2 : ∀ n, fs.user n = none) :
    (∀ ms, ms = (env.solve (.polarCap L t g)).2.2 → ∃ res, (runAlone fs (PolarOrders.construct env L t g (.array ms))).1 = .ok res ∧
      (runAlone (runAlone fs (PolarOrders.construct env L t g (.array ms))).2 (PolarOrders.construct env L t g (.array ms))).1 =
        .error .indexError) ∧
    ∃ m : ℤ, m.natAbs < L ∧ ∃ res, (runAlone fs (PolarOrders.construct env L t g (.array [m]))).1 = .ok res ∧
      (runAlone (runAlone fs (PolarOrders.construct env L t g (.array [m]))).2 (PolarOrders.construct env L t g (.array [m]))).1 =
        .error .indexError := by
  obtain ⟨hw, hv, ho, hord⟩ := polar_lengths hp
  have hL2 : 0 < L ^ 2 := by positivity
  constructor
  · rintro ms rfl
    obtain ⟨hf1, hf2⟩ := C106_fresh_violation env L t g r ht hr _ hord fs h1 h2
    refine ⟨_, hf2, ?_⟩
    rw [hf1, (C106_agrees env L t g).1, run_polar_fresh env L t g r ht hr fs h1 h2]
    simp only
    rw [run_array_cached env L t g _ hord r ht hr fs h1]
    unfold select
    have hb : NumPy.broadcast (fun a b : ℤ => decide (a = b)) (env.solve (.polarCap L t g)).2.2 (env.solve (.polarCap L t g)).2.2 =
        .ok (List.zipWith (fun a b : ℤ => decide (a = b)) (env.solve (.polarCap L t g)).2.2 (env.solve (.polarCap L t g)).2.2) := by
      simp [NumPy.broadcast]
    have htrue : ∀ b ∈ List.zipWith (fun a b : ℤ => decide (a = b)) (env.solve (.polarCap L t g)).2.2 (env.solve (.polarCap L t g)).2.2, b = true := by
      intro b hbm
      rw [List.zipWith_self] at hbm
      simp at hbm
      exact hbm.2
    have hlen : (List.zipWith (fun a b : ℤ => decide (a = b)) (env.solve (.polarCap L t g)).2.2 (env.solve (.polarCap L t g)).2.2).length = L ^ 2 := by
      simp [ho]
    have hshort : (savedRows env (.polarCap L t g)).length ≤ L ^ 2 - 1 := by
      simp only [savedRows, hL, if_true, slice, hN0]
      rw [List.length_take]
      have : (env.shannon (.polarCap L t g)) < ((L ^ 2 : ℕ) : ℤ) := by push_cast; exact hN
      omega
    have hbad : gatherMask (savedRows env (.polarCap L t g))
        (List.zipWith (fun a b : ℤ => decide (a = b)) (env.solve (.polarCap L t g)).2.2 (env.solve (.polarCap L t g)).2.2) = .error .indexError := by
      unfold gatherMask
      refine mapM_item_error _ _ ⟨L ^ 2 - 1, List.mem_filter.2 ⟨?_, ?_⟩, hshort⟩
      · rw [hlen, List.mem_range]
        omega
      · have hi : L ^ 2 - 1 < (List.zipWith (fun a b : ℤ => decide (a = b)) (env.solve (.polarCap L t g)).2.2 (env.solve (.polarCap L t g)).2.2).length := by
          rw [hlen]; omega
        rw [List.getD_eq_getElem?_getD, List.getElem?_eq_getElem hi, Option.getD_some]
        exact htrue _ (List.getElem_mem hi)
    simp only [hb, bind, Except.bind, gather_all _ _ htrue (hlen.trans hw.symm), hbad]
  · obtain ⟨m, hm, -, hbad⟩ := C14_large_L_violation env L hL t g r ht hr ho hw hord hN0 hN fs h1 h2
    obtain ⟨hf1, hf2⟩ := C106_fresh_violation env L t g r ht hr [m] (by simpa using hm) fs h1 h2
    obtain ⟨hr1, -, -⟩ := C106_reload env L t g r ht hr (by omega) sol idx idxAll hp fs h1 h2 _ rfl
    refine ⟨m, hm, _, hf2, ?_⟩
    rw [hf1, hr1 m hm, (C106_agrees env L t g).1, (C106_agrees env L t g).2, hbad]
    rfl

/-- the hypotheses are met at the bandlimits 2 and 17 (or any other) by the 60 degree cap, whatever (enough) eigenvalues the solver gives; at
bandlimit 17 the Shannon number is 72; a request for two orders fits none of the shapes. -/
example (L : ℕ) (hL : 2 ≤ L) (sol : ℤ → OrderSolution) (hlen : ∀ m ∈ ordersRange L, (sol m).1.length = L - m.natAbs) :
    ∃ (env : Env) (r : Obj) (idx : ℤ → List ℕ) (idxAll : List ℕ), Real.pi / 3 ≠ 0 ∧
      (Slepian.polarCap L (Real.pi / 3) false).createRegion = .ok r ∧ PolarSolver env L (Real.pi / 3) false sol idx idxAll ∧
      (∀ m ∈ [0, 1], Int.natAbs m < L) ∧ [0, 1].length ≠ 1 ∧ [0, 1].length ≠ L ^ 2 ∧
      (L = 17 → env.shannon (.polarCap L (Real.pi / 3) false) = 72) := by
  have hpi := Real.pi_pos
  have hpt : OnlyThetaMax { gap := false, thetaMax := Real.pi / 3 } := ⟨rfl, rfl, rfl, (by linarith : Real.pi / 3 < Real.pi).ne⟩
  obtain ⟨r, h, -⟩ := ((C09_classification { gap := false, thetaMax := Real.pi / 3 }).2
    ⟨⟨by simp; positivity, le_rfl⟩, ⟨le_rfl, by simp; positivity⟩, ⟨by positivity, by simp only; linarith⟩, le_rfl, hpi.le⟩).1 hpt
  choose idx hidx using fun m => exists_argsortList (sol m).1
  have hb : ∀ m ∈ ordersRange L, (sol m).1.length = L - m.natAbs ∧ (idx m).Perm (List.range (sol m).1.length) :=
    fun m hm => ⟨hlen m hm, (hidx m).1⟩
  have hacc := accumulate_eq L sol idx (ordersRange L) hb
  obtain ⟨idxAll, hall⟩ := exists_argsortList ((keys idx (ordersRange L)).map fun q => (sol q.1).1.getD q.2 0)
  have hallp : idxAll.Perm (List.range (keys idx (ordersRange L)).length) := by simpa using hall.1
  obtain ⟨ks, -, -, hres⟩ := solveAll_eq L sol idx idxAll hb hallp
  refine ⟨⟨fun _ _ => 0, fun _ => (ks.map (fun q => (sol q.1).1.getD q.2 0), ks.map (fun q => rowOf L q.1 (sol q.1).2 q.2),
    ks.map Prod.fst), fun _ m => ((idx m).reverse.map (fun k => (sol m).1.getD k 0), (idx m).reverse.map (rowOf L m (sol m).2))⟩,
    r, idx, idxAll, by positivity, h, ⟨hlen, fun m _ => hidx m, ?_, hres, fun m hm => polarClean_eq L m _ _ _ (hb m hm).1 (hb m hm).2⟩,
    ?_, by decide, ?_, ?_⟩
  rotate_left
  · intro m hm
    simp only [List.mem_cons, List.not_mem_nil, or_false] at hm
    rcases hm with rfl | rfl
    · simp; omega
    · simp; omega
  · simp only [List.length_cons, List.length_nil]
    nlinarith
  · rintro rfl
    show (Slepian.polarCap 17 (Real.pi / 3) false).shannon 0 = 72
    unfold Slepian.shannon
    apply round_near
    have : (Slepian.polarCap 17 (Real.pi / 3) false).area 0 * ((Slepian.polarCap 17 (Real.pi / 3) false).L : ℝ) ^ 2 / (4 * Real.pi) = 289 / 4 := by
      simp only [Slepian.area, Slepian.L, Real.cos_pi_div_three]
      push_cast
      field_simp
      norm_num
    rw [this]
    norm_num
  intro e v o h
  rw [hacc] at h
  injection h with h
  rw [← (Prod.mk.inj h).1]
  exact hall

end Sleplet.Props
