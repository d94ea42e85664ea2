import Verif.Props.CacheOrders
import Verif.Props.RelatedRegions

/-!
C112: from a region to its Slepian functions and to reconstructed signals, through workers, solver, cache and transforms.
-/
namespace Sleplet.Props

open Complex Sleplet.Spec Sleplet.Gaunt Sleplet.RealMat Sleplet.Eigen Sleplet.LatLon Sleplet.Cache Sleplet.Region

/-- the masks of the named regions, for every bandlimit. -/
abbrev MaskTable : Type := String → (L : ℕ) → Integration.Grid (2 * L) → Bool

/-- the energy of a field in a region. -/
noncomputable def energyInRegion (masks : MaskTable) (f : ℝ → ℝ → ℂ) : Region.Slepian → ℝ
  | .polarCap _ t gap => (∫ ph in (0 : ℝ)..2 * Real.pi, ∫ th in (0 : ℝ)..t, ‖f th ph‖ ^ 2 * Real.sin th) +
      if gap then ∫ ph in (0 : ℝ)..2 * Real.pi, ∫ th in (Real.pi - t)..Real.pi, ‖f th ph‖ ^ 2 * Real.sin th else 0
  | .limitLatLon _ tmin tmax pmin pmax => ∫ ph in pmin..pmax, ∫ th in tmin..tmax, ‖f th ph‖ ^ 2 * Real.sin th
  | .arbitrary L m => ∑ x with masks m L x, ‖f (Integration.theta x) (Integration.phi x)‖ ^ 2 * Integration.weight (2 * L) x

/-- `x` (eigenvalues, eigenvectors, orders) is what the modelled solver computes for a problem, for some workers, eigensolver and sorting
within their contracts. -/
def SolutionOf (masks : MaskTable) (s : Region.Slepian) (x : List ℝ × List (List ℂ) × List ℤ) : Prop :=
  match s with
  | .polarCap L t gap => ∃ (plm : List ℝ) (M : ℤ → ℕ → ℕ → ℝ) (sol : ℤ → OrderSolution),
      plm.length = (2 * L) ^ 2 ∧ (∀ n < 2 * L, plm.getD (elm2ind n 0) 0 = (sphHarm n 0 t 0).re) ∧
      (∀ m : ℤ, m.natAbs < L → ∃ ncpu we, 1 ≤ ncpu ∧ CreatesOrder L gap plm m ncpu we (.ok (M m))) ∧
      (∀ m : ℤ, m.natAbs < L → IsEighOrder (L - m.natAbs) (M m) (sol m)) ∧ SolvesAll L sol (.ok x)
  | .limitLatLon L tmin tmax pmin pmax => ∃ (n : ℕ) (dl : Table) (we : ℕ → Option Err) (K : Mat) (w : Fin (n + 1) → ℂ)
      (V : Fin (n + 1) → Fin (n + 1) → ℂ) (e : Fin (n + 1) → ℝ) (S : Fin (n + 1) → Fin (n + 1) → ℂ), n + 1 = L ^ 2 ∧ IsWigner L dl ∧
      CreatesK L ⟨tmin, tmax, pmin, pmax⟩ dl we (.ok K) ∧ IsEigh (fun r c : Fin (n + 1) => K r c) w V ∧ CleansLatLon w V e S ∧
      x.1 = List.ofFn e ∧ x.2.1 = List.ofFn fun p => List.ofFn (S p)
  | .arbitrary L m => ∃ (n : ℕ) (P : Arb.Params (Integration.Grid (2 * L))) (ncpu : ℕ) (we : ℕ → Option Err) (M : ℕ → ℕ → ℂ)
      (w : Fin (n + 1) → ℂ) (V : Fin (n + 1) → Fin (n + 1) → ℂ) (e : Fin (n + 1) → ℝ) (S : Fin (n + 1) → Fin (n + 1) → ℂ),
      n + 1 = L ^ 2 ∧ OnGrid L (masks m L) P ∧ 1 ≤ ncpu ∧ Arb.CreatesD P ncpu we (.ok M) ∧
      IsEigh (fun r c : Fin (n + 1) => M r c) w V ∧ CleansArbitrary w V e S ∧
      x.1 = List.ofFn e ∧ x.2.1 = List.ofFn fun p => List.ofFn (S p)

/-- the object that the transforms use: the number `N`, the eigenvalues and the rows of eigenvectors. -/
def asObject (L : ℕ) (N : ℤ) (w : List ℝ) (v : List (List ℂ)) : Transform.Slepian (L ^ 2) :=
  ⟨N.toNat, w, v.map fun row i => row.getD i 0⟩

private theorem best_ofFn {N L : ℕ} (hN : N = L ^ 2) {R : (ℝ → ℝ → ℂ) → ℝ} {S : Fin N → Fin N → ℂ} {e : Fin N → ℝ}
    (h : BestConcentrated (bandlimited L) sphereInner R (fun p => synthesis L (List.ofFn (S p))) e) :
    (List.ofFn e).length = L ^ 2 ∧ (List.ofFn fun p => List.ofFn (S p)).length = L ^ 2 ∧
    BestConcentrated (bandlimited L) sphereInner R (fun p : Fin (L ^ 2) => synthesis L ((List.ofFn fun p => List.ofFn (S p)).getD p []))
      (fun p => (List.ofFn e).getD p 0) := by
  subst hN
  refine ⟨List.length_ofFn, List.length_ofFn, ?_⟩
  have h1 : (fun p : Fin (L ^ 2) => (List.ofFn e).getD p 0) = e := by
    funext p
    simp only [List.getD_eq_getElem?_getD, List.getElem?_ofFn, p.2, dif_pos, Option.getD_some]
  have h2 : (fun p : Fin (L ^ 2) => synthesis L ((List.ofFn fun p => List.ofFn (S p)).getD p [])) = fun p => synthesis L (List.ofFn (S p)) := by
    funext p
    simp only [List.getD_eq_getElem?_getD, List.getElem?_ofFn, p.2, dif_pos, Option.getD_some]
  rw [h1, h2]
  exact h

private theorem deg2rad_mem {n : ℤ} (h0 : 0 ≤ n) (h1 : n ≤ 180) : Py.deg2rad n ∈ Set.Icc 0 Real.pi := by
  rw [deg2rad_eq]
  have hpi := Real.pi_pos
  have h0' : (0 : ℝ) ≤ n := by exact_mod_cast h0
  have h1' : (n : ℝ) ≤ 180 := by exact_mod_cast h1
  constructor
  · positivity
  · nlinarith

/-- the solution of a problem solves its concentration problem. -/
theorem solved_best (masks : MaskTable) (env : Env) (s : Region.Slepian) (hs : ∃ r, s.createRegion = .ok r) (h : SolutionOf masks s (env.solve s)) :
    (env.solve s).1.length = s.L ^ 2 ∧ (env.solve s).2.1.length = s.L ^ 2 ∧
    BestConcentrated (bandlimited s.L) sphereInner (fun f => energyInRegion masks f s)
      (fun p : Fin (s.L ^ 2) => synthesis s.L ((env.solve s).2.1.getD p [])) (fun p => (env.solve s).1.getD p 0) := by
  obtain ⟨r, hr⟩ := hs
  cases s with
  | polarCap L t gap =>
    obtain ⟨plm, M, sol, a, b, c, d, e⟩ := h
    obtain ⟨ht, -, -⟩ := mk_ok_args hr
    have ht : t ∈ Set.Icc 0 Real.pi := ht.2.2.1
    obtain ⟨e', v', o', he, hl, hv, hb⟩ := C88_polar L gap _ ht.1 ht.2 plm a b M c sol d _ e
    injection he with he
    rw [he]
    refine ⟨hl, hv, ?_⟩
    have : (fun f => (capIntegral gap t fun th ph => f th ph * (starRingEnd ℂ) (f th ph)).re) =
        fun f => energyInRegion masks f (.polarCap L t gap) := by
      funext f
      rw [cap_self, ofReal_re]
      rfl
    rw [← this]
    exact hb
  | limitLatLon L tn tm pn pm =>
    obtain ⟨n, dl, we, K, w, V, e, S, hn, a, b, c, d, he, hv⟩ := h
    obtain ⟨ht, -, -⟩ := mk_ok_args hr
    have h0 : tn ∈ Set.Icc 0 Real.pi := ht.2.2.2
    have h1 : tm ∈ Set.Icc 0 Real.pi := ht.2.2.1
    rw [he, hv]
    exact best_ofFn hn (C88_lat_lon L n hn ⟨_, _, _, _⟩ dl a h0 h1 we K b w V c e S d)
  | arbitrary L m =>
    obtain ⟨n, P, ncpu, we, M, w, V, e, S, hn, a, b, c, d, f, he, hv⟩ := h
    rw [he, hv]
    exact best_ofFn hn (C88_arbitrary L n hn _ P a ncpu b we M c w V d e S f)

/-- what a user sees of a construction that ended with the eigenvalues `w` and the rows `v`: the rows are orthonormal functions of the
bandlimit, the eigenvalues their energies in the region, best possible; and every signal transformed to `N` coefficients and back
differs from itself by a field of the bandlimit with at most the part `w_N` of its energy in the region. -/
structure UsableFor (masks : MaskTable) (s : Region.Slepian) (N : ℤ) (w : List ℝ) (v : List (List ℂ)) : Prop where
  evals : w.length = s.L ^ 2
  rows : N.toNat ≤ v.length
  decreasing : w.Pairwise (· ≥ ·)
  orthonormal : ∀ p < v.length, ∀ q < v.length,
    sphereInner (synthesis s.L (v.getD p [])) (synthesis s.L (v.getD q [])) = if p = q then 1 else 0
  energies : ∀ p < v.length, energyInRegion masks (synthesis s.L (v.getD p [])) s = w.getD p 0
  best : ∀ p < v.length, ∀ f ∈ bandlimited s.L, (∀ q < p, sphereInner f (synthesis s.L (v.getD q [])) = 0) →
    energyInRegion masks f s ≤ w.getD p 0 * (sphereInner f f).re
  reconstruct : ∀ {Pix : Type} [Fintype Pix] (point : Pix → ℝ × ℝ) (synth : (Fin (s.L ^ 2) → ℂ) → Pix → ℂ),
    (∀ c x, synth c x = synthesis s.L (List.ofFn c) (point x).1 (point x).2) → ∀ (weight : Pix → ℝ) (flm : Fin (s.L ^ 2) → ℂ),
    ∃ (cs : List ℂ) (g : ℝ → ℝ → ℂ), g ∈ bandlimited s.L ∧
      Transform.slepianForward (asObject s.L N w v) synth weight { flm := some flm } none = .ok cs ∧ cs.length = N.toNat ∧
      Transform.slepianInverse (asObject s.L N w v) synth cs = .ok (fun x => g (point x).1 (point x).2) ∧
      energyInRegion masks (synthesis s.L (List.ofFn flm) - g) s ≤
        w.getD N.toNat 0 * (sphereInner (synthesis s.L (List.ofFn flm) - g) (synthesis s.L (List.ofFn flm) - g)).re

private theorem correct_usable (masks : MaskTable) (env : Env) (s : Region.Slepian) (hs : ∃ r, s.createRegion = .ok r) (h : SolutionOf masks s (env.solve s))
    (h0 : 0 ≤ env.shannon s) (hN : (env.shannon s).toNat < s.L ^ 2) (res : Result) (hc : Correct env ⟨s, none⟩ res) :
    ∃ w v, res.evals = .evals w ∧ res.evecs = .evecs v ∧ UsableFor masks s (env.shannon s) w v := by
  obtain ⟨hw, hv, hb⟩ := solved_best masks env s hs h
  have hsave : savedRows env s = (env.solve s).2.1 ∨ savedRows env s = (env.solve s).2.1.take (env.shannon s).toNat := by
    cases s with
    | polarCap L t g =>
      by_cases h : L > 16
      · right; simp [savedRows, h, slice, h0]
      · left; simp [savedRows, h]
    | _ => right; simp [savedRows, slice, h0]
  set w := (env.solve s).1 with hwd
  set V := (env.solve s).2.1 with hVd
  set N := env.shannon s with hNd
  have hev : res.evals = .evals w ∧ (res.evecs = .evecs V ∨ res.evecs = .evecs (savedRows env s)) := by
    cases s with
    | polarCap L t g => exact ⟨hc.1, hc.2.1⟩
    | limitLatLon L a b c d => exact ⟨hc.1, hc.2.1⟩
    | arbitrary L m => exact ⟨hc.1, hc.2.1⟩
  obtain ⟨v, hv1, hv2⟩ : ∃ v, res.evecs = .evecs v ∧ (v = V ∨ v = V.take N.toNat) := by
    rcases hev.2 with h | h
    · exact ⟨_, h, Or.inl rfl⟩
    · exact ⟨_, h, hsave⟩
  have hlen : N.toNat ≤ v.length ∧ v.length ≤ s.L ^ 2 := by
    rcases hv2 with rfl | rfl
    · rw [hv]; exact ⟨hN.le, le_rfl⟩
    · rw [List.length_take, hv]; omega
  have hget : ∀ p < v.length, v.getD p [] = V.getD p [] := by
    intro p hp
    rcases hv2 with rfl | rfl
    · rfl
    · rw [List.length_take] at hp
      simp only [List.getD_eq_getElem?_getD, List.getElem?_take]
      rw [if_pos (by omega)]
  refine ⟨w, v, hev.1, hv1, hw, hlen.1, ?_, ?_, ?_, ?_, ?_⟩
  · rw [List.pairwise_iff_getElem]
    intro i j hi hj hij
    have := hb.antitone (a := ⟨i, hw ▸ hi⟩) (b := ⟨j, hw ▸ hj⟩) hij.le
    simpa [List.getD_eq_getElem?_getD, List.getElem?_eq_getElem hi, List.getElem?_eq_getElem hj] using this
  · intro p hp q hq
    rw [hget p hp, hget q hq]
    have := hb.orthonormal ⟨p, by omega⟩ ⟨q, by omega⟩
    simpa using this
  · intro p hp
    rw [hget p hp]
    exact hb.attained ⟨p, by omega⟩
  · intro p hp f hf hq
    refine hb.best ⟨p, by omega⟩ f hf fun q hqp => ?_
    have hqp' : (q : ℕ) < p := hqp
    have := hq q hqp'
    rwa [hget q (by omega)] at this
  · intro Pix _ point synth hY weight flm
    let S : Fin (s.L ^ 2) → Fin (s.L ^ 2) → ℂ := fun p i => (V.getD p []).getD i 0
    have hsyn : (fun p : Fin (s.L ^ 2) => synthesis s.L (V.getD p [])) = fun p => synthesis s.L (List.ofFn (S p)) := by
      funext p th ph
      rw [Gaunt.synthesis_eq, Gaunt.synthesis_eq]
      refine Finset.sum_congr rfl fun i _ => ?_
      simp only [S, List.getD_eq_getElem?_getD, List.getElem?_ofFn, i.2, dif_pos, Option.getD_some]
    rw [hsyn] at hb
    have hrow : ∀ p : Fin (s.L ^ 2), p.val < N.toNat → (asObject s.L N w v).evecs[(p : ℕ)]? = some (S p) := by
      intro p hp
      have hp' : (p : ℕ) < v.length := by omega
      have := hget p hp'
      simp only [List.getD_eq_getElem?_getD, List.getElem?_eq_getElem hp', Option.getD_some] at this
      simp only [asObject, List.getElem?_map, List.getElem?_eq_getElem hp', Option.map_some, Option.some.injEq]
      funext i
      simp only [S, this, List.getD_eq_getElem?_getD]
    obtain ⟨cs, f, g, rfl, hg, h1, h2, h3, -⟩ := C88_reconstruction _ S _ hb (asObject s.L N w v) hN hrow point synth hY weight flm
    refine ⟨cs, g, hg, h1, ?_, h2, h3⟩
    obtain ⟨F, hF, hl⟩ : ∃ F, Transform.slepianForward (asObject s.L N w v) synth weight { flm := some flm } none = .ok F ∧ F.length = N.toNat :=
      ⟨_, forward_flm (N := N.toNat) (E := fun p => S ⟨p, by omega⟩) (asObject s.L N w v) synth weight rfl hN.le
        (fun p => hrow ⟨p, by omega⟩ p.2) flm, by simp⟩
    rw [h1] at hF
    injection hF with hF
    rw [hF, hl]

/-- C112.  Whatever other constructions run in the same data directory, are killed at any point, or have files deleted: whatever
construction ends with a result, its result is usable, provided that no two of the problems share their files (C12). -/
theorem C112_concurrent_partial (masks : MaskTable) (env : Env) (A : Region.Slepian → Prop) (hA : Separate env A) (st st' : State)
    (h0 : Start env A st)
    (h : Relation.ReflTransGen (Cache.Step env (fun j => A j.s) fun _ => True) st st')
    (s : Region.Slepian) (hs : ∃ r, s.createRegion = .ok r) (hsolve : SolutionOf masks s (env.solve s)) (hN0 : 0 ≤ env.shannon s)
    (hN : (env.shannon s).toNat < s.L ^ 2) (res : Result) (hj : ((⟨s, none⟩ : Job), .running (.done (.ok res))) ∈ st'.procs) :
    ∃ w v, res.evals = .evals w ∧ res.evecs = .evecs v ∧ UsableFor masks s (env.shannon s) w v :=
  correct_usable masks env s hs hsolve hN0 hN res (C11_own_solution_partial env A hA st st' h0 h _ _ hj)

/-- C112.  After constructions killed between two files, a construction run alone ends with a usable result. -/
theorem C112_after_crash_partial (masks : MaskTable) (env : Env) (A : Region.Slepian → Prop) (hA : Separate env A) (st st' : State)
    (h0 : Start env A st)
    (h : Relation.ReflTransGen (Cache.Step env (fun j => A j.s) fun p => ∃ q, p = .running q) st st')
    (hq : ∀ x ∈ st'.procs, ∀ n f p, x.2 ≠ .saving n f p)
    (s : Region.Slepian) (hs : A s) (hval : s.validate = .ok ()) (hreg : ∃ r, s.createRegion = .ok r)
    (hsolve : SolutionOf masks s (env.solve s)) (hN0 : 0 ≤ env.shannon s) (hN : (env.shannon s).toNat < s.L ^ 2) :
    ∃ w v o, (runAlone st'.fs (construct env ⟨s, none⟩)).1 = .ok ⟨.evals w, .evecs v, o⟩ ∧ UsableFor masks s (env.shannon s) w v := by
  obtain ⟨⟨a, b, o⟩, h1, h2⟩ := C15_crash_safety env A hA st st' h0 h hq s hs hval hreg
  obtain ⟨w, v, rfl, rfl, h3⟩ := correct_usable masks env s hreg hsolve hN0 hN _ h2
  exact ⟨w, v, o, h1, h3⟩

/-- C112 is violated for angles that are not whole degrees, at every even bandlimit: there is a cap wider than that of 60 degrees whose
construction after that one ends with eigenvalues with which no rows are usable for it. -/
theorem C112_violation (masks : MaskTable) (env : Env) (L k : ℕ) (hL : L = 2 * k) (hk : 0 < k)
    (hsolve : ∀ t, 0 < t → t < Real.pi → SolutionOf masks (.polarCap L t false) (env.solve (.polarCap L t false)))
    (fs : FS) (h1 : ∀ n, fs.registry n = none) (h2 : ∀ n, fs.user n = none) :
    ∃ t' : ℝ, Real.pi / 3 < t' ∧ t' < Real.pi / 2 ∧ ∃ res,
      (runAlone (runAlone fs (construct env ⟨.polarCap L (Real.pi / 3) false, none⟩)).2
        (construct env ⟨.polarCap L t' false, none⟩)).1 = .ok res ∧
      ∀ w v, res.evals = .evals w → ¬ UsableFor masks (.polarCap L t' false) (env.shannon (.polarCap L t' false)) w v := by
  have hpi := Real.pi_pos
  have hpolar : ∀ t, 0 < t → t < Real.pi → PolarEigenvalues L false t (env.solve (.polarCap L t false)).1 := by
    intro t h0 h1
    obtain ⟨plm, M, sol, a, b, c, d, e⟩ := hsolve t h0 h1
    exact ⟨plm, M, sol, _, _, a, b, c, d, e⟩
  have hsum : ∀ t, 0 < t → t < Real.pi →
      (env.solve (.polarCap L t false)).1.sum = (Slepian.polarCap L t false).area 0 * (L : ℝ) ^ 2 / (4 * Real.pi) := by
    intro t h0 h1
    obtain ⟨plm, M, sol, a, b, c, d, e⟩ := hsolve t h0 h1
    obtain ⟨e', v', o', he, hl, -, -, -, -, -, hs, -⟩ := C50_polar_energy_ratio L false t h0.le h1.le plm a b M c sol d _ e
    injection he with he
    rw [he, ← Fin.sum_univ_getElem e']
    have : ∑ i : Fin e'.length, e'[(i : ℕ)] = ∑ i : Fin e'.length, e'.getD i 0 :=
      Finset.sum_congr rfl fun i _ => by simp [List.getD_eq_getElem?_getD]
    rw [this, Fin.sum_univ_eq_sum_range (fun i => e'.getD i 0), hl, hs]
    simp only [Slepian.area, Bool.false_eq_true, if_false]
    ring
  obtain ⟨t', a, b, hN, res, hr, he, -⟩ := C11_violation env L k hL hk hsum fs h1 h2
  refine ⟨t', a, b, res, hr, fun w v hw hu => ?_⟩
  rw [he] at hw
  injection hw with hw
  subst hw
  have hLpos : 0 < L ^ 2 := by rw [hL]; positivity
  have hlt := C111_polar_strict L L le_rfl false (Real.pi / 3) t' (by positivity) a (by linarith) _ _
    (hpolar _ (by positivity) (by linarith)) (hpolar t' (by linarith) (by linarith)) 0 hLpos
  obtain ⟨plm, M, sol, q1, q2, q3, q4, q5⟩ := hsolve t' (by linarith) (by linarith)
  obtain ⟨e', v', o', he', -, -, hb⟩ := C88_polar L false t' (by linarith) (by linarith) plm q1 q2 M q3 sol q4 _ q5
  injection he' with he'
  rw [he'] at hlt
  have hv0 : 0 < v.length := by
    have := hu.rows
    rw [hN] at this
    have hk2 : 0 < k ^ 2 := by positivity
    have h3 : ((k : ℤ) ^ 2).toNat = k ^ 2 := by exact_mod_cast Int.toNat_natCast (k ^ 2)
    omega
  have := hu.best 0 hv0 _ (hb.mem ⟨0, hLpos⟩) (fun q hq => absurd hq (Nat.not_lt_zero q))
  have h5 := hb.attained ⟨0, hLpos⟩
  have h6 := hb.orthonormal ⟨0, hLpos⟩ ⟨0, hLpos⟩
  rw [if_pos rfl] at h6
  rw [cap_self, ofReal_re] at h5
  change capEnergy false t' _ ≤ _ at this
  rw [h5] at this
  change _ ≤ _ * (sphereInner (synthesis L (v'.getD 0 [])) (synthesis L (v'.getD 0 []))).re at this
  change sphereInner (synthesis L (v'.getD 0 [])) (synthesis L (v'.getD 0 [])) = 1 at h6
  rw [h6, one_re, mul_one] at this
  exact absurd hlt (not_lt.2 this)

/-- every problem has a solution, so there is an environment that solves all. -/
theorem exists_solver (masks : MaskTable) : ∃ env : Env, (∀ m L, env.maskArea m L = 0) ∧
    (∀ L t gap, 1 ≤ L → 0 ≤ t → t ≤ Real.pi → SolutionOf masks (.polarCap L t gap) (env.solve (.polarCap L t gap))) ∧
    (∀ L a b c d, 1 ≤ L → a ∈ Set.Icc 0 Real.pi → b ∈ Set.Icc 0 Real.pi →
      SolutionOf masks (.limitLatLon L a b c d) (env.solve (.limitLatLon L a b c d))) ∧
    (∀ L m, 1 ≤ L → SolutionOf masks (.arbitrary L m) (env.solve (.arbitrary L m))) := by
  classical
  let solve : Region.Slepian → List ℝ × List (List ℂ) × List ℤ := fun s =>
    if h : ∃ x, SolutionOf masks s x then h.choose else ([], [], [])
  have key : ∀ s, (∃ x, SolutionOf masks s x) → SolutionOf masks s (solve s) := by
    intro s h
    simp only [solve, dif_pos h]
    exact h.choose_spec
  refine ⟨⟨fun _ _ => 0, solve, fun _ _ => ([], [])⟩, fun _ _ => rfl, fun L t gap _ h0 h1 => key _ ?_, fun L a b c d hL ha hb => key _ ?_,
    fun L m hL => key _ ?_⟩
  · obtain ⟨plm, M, sol, r, q1, q2, q3, q4, q5⟩ := C50_polar_runs_exist L gap t
    obtain ⟨e, v, o, rfl, -⟩ := C88_polar L gap t h0 h1 plm q1 q2 M q3 sol q4 r q5
    exact ⟨(e, v, o), plm, M, sol, q1, q2, q3, q4, q5⟩
  · obtain ⟨e, n, dl, we, K, w, V, ev, S, q1, q2, q3, q4, q5, -⟩ := (C111_runs_exist L hL).2 ⟨a, b, c, d⟩ ha hb
    exact ⟨(List.ofFn ev, List.ofFn fun p => List.ofFn (S p), []), n, dl, we, K, w, V, ev, S, q1, q2, q3, q4, q5, rfl, rfl⟩
  · obtain ⟨n, hn, P, we, M, w, V, e, S, q1, q2, q3, q4⟩ := C50_arbitrary_runs_exist L hL (masks m L)
    exact ⟨(List.ofFn e, List.ofFn fun p => List.ofFn (S p), []), n, P, 3, we, M, w, V, e, S, hn, q1, by norm_num, q2, q3, q4, rfl, rfl⟩

/-- the hypotheses are met: the 60 degree cap at `L = 4`, with `N = 4`, constructed in an empty directory; `C112_violation` is about the
same environment. -/
example (masks : MaskTable) : ∃ env : Env, env.shannon (.polarCap 4 (Py.deg2rad (60 : ℤ)) false) = 4 ∧
    (∃ w v o, (runAlone ⟨fun _ => none, fun _ => none⟩ (construct env ⟨.polarCap 4 (Py.deg2rad (60 : ℤ)) false, none⟩)).1 =
      .ok ⟨.evals w, .evecs v, o⟩ ∧ UsableFor masks (.polarCap 4 (Py.deg2rad (60 : ℤ)) false) 4 w v) ∧
    ∀ t, 0 < t → t < Real.pi → SolutionOf masks (.polarCap 4 t false) (env.solve (.polarCap 4 t false)) := by
  obtain ⟨env, -, h1, -⟩ := exists_solver masks
  have hpi := Real.pi_pos
  have hs : env.shannon (.polarCap 4 (Py.deg2rad (60 : ℤ)) false) = 4 := by
    show (Slepian.polarCap 4 (Py.deg2rad (60 : ℤ)) false).shannon 0 = 4
    unfold Slepian.shannon
    have h60 : Py.deg2rad (60 : ℤ) = Real.pi / 3 := by rw [deg2rad_eq]; push_cast; ring
    apply round_near
    have : (Slepian.polarCap 4 (Py.deg2rad (60 : ℤ)) false).area 0 * ((Slepian.polarCap 4 (Py.deg2rad (60 : ℤ)) false).L : ℝ) ^ 2 / (4 * Real.pi) = 4 := by
      simp only [Slepian.area, Slepian.L, h60, Real.cos_pi_div_three]
      push_cast
      field_simp
      norm_num
    rw [this]
    norm_num
  refine ⟨env, hs, ?_, fun t h0 h2 => h1 4 t false (by norm_num) h0.le h2.le⟩
  have ht := deg2rad_mem (n := 60) (by norm_num) (by norm_num)
  have hw : WholeDegrees (.polarCap 4 (Py.deg2rad (60 : ℤ)) false) := .polarCap 4 60 false (by norm_num) (by norm_num)
  have h60 : Py.deg2rad (60 : ℤ) ≠ 0 := by rw [deg2rad_eq]; push_cast; positivity
  have := C112_after_crash_partial masks env WholeDegrees (wholeDegrees_separate env) ⟨⟨fun _ => none, fun _ => none⟩, []⟩ _
    ⟨rfl, fun _ => rfl, fun n f h => by cases h⟩ Relation.ReflTransGen.refl (fun x hx => by cases hx)
    (.polarCap 4 (Py.deg2rad (60 : ℤ)) false) hw (if_neg h60) (wholeDegrees_region hw)
    (h1 4 _ false (by norm_num) ht.1 ht.2) (by rw [hs]; norm_num) (by rw [hs]; show 4 < 4 ^ 2; norm_num)
  rw [hs] at this
  exact this

end Sleplet.Props
